import Mathlib.Data.Real.Basic
/-!
# The self-consistency loop of the script `edpyt/ded.py`
-/
namespace Edpyt

/-- The loop variables of one rank: `it`, `eps`, `sigma0`, `edpyt/ded.py:47,93-95,130-131`. -/
structure DedRank where
  it : ℕ
  eps : ℝ
  sigma0 : ℝ

/-- The state of every rank before the loop, `edpyt/ded.py:44-47,93-94`: `sigma0 = U/2`, `it = 0`, `eps = tol + 1`. -/
noncomputable def dedStart (U tol : ℝ) : ℕ → DedRank := fun _ => ⟨0, tol + 1, U / 2⟩

/-- The test of the loop on one rank, `edpyt/ded.py:95`. -/
def DedRank.goesOn (maxIt : ℕ) (tol : ℝ) (r : DedRank) : Prop := r.it < maxIt ∧ tol < |r.eps|

/-- The body of the loop on all ranks, `edpyt/ded.py:97-131`. `resid` is the number `smooth(wr, sigma)(0.).real` that rank 0 computes from the samples of all ranks, each
taken with the `sigma0` of its rank; the generators are seeded anew in each iteration, so it depends on nothing else. Only rank 0 assigns `eps` (line 122); `comm.bcast`
(line 130) returns the `eps` of rank 0 on every rank, and is added to `sigma0`. -/
noncomputable def dedBody (resid : (ℕ → ℝ) → ℝ) (rs : ℕ → DedRank) : ℕ → DedRank := fun rank =>
  let eps0 := resid fun r => (rs r).sigma0
  ⟨(rs rank).it + 1, if rank = 0 then eps0 else (rs rank).eps, (rs rank).sigma0 + eps0⟩

/-- How the script ends: every rank leaves the loop, or some ranks wait for ever in `comm.Reduce` or `comm.bcast` for ranks that have left it. Source: `edpyt/ded.py:95-130`. -/
inductive DedEnd where
  | left (rs : ℕ → DedRank)
  | hangs

/-- The loop on ranks `0, ..., size - 1`, `edpyt/ded.py:95-131`. The body has two collective calls (lines 113 and 130), in which every rank has to take part. -/
inductive DedLoop (size maxIt : ℕ) (tol : ℝ) (resid : (ℕ → ℝ) → ℝ) : (ℕ → DedRank) → DedEnd → Prop
  | left {rs} (h : ∀ r < size, ¬ (rs r).goesOn maxIt tol) : DedLoop size maxIt tol resid rs (.left rs)
  | body {rs e} (h : ∀ r < size, (rs r).goesOn maxIt tol) (hl : DedLoop size maxIt tol resid (dedBody resid rs) e) : DedLoop size maxIt tol resid rs e
  | hangs {rs} (h : ∃ r < size, (rs r).goesOn maxIt tol) (h' : ∃ r < size, ¬ (rs r).goesOn maxIt tol) : DedLoop size maxIt tol resid rs .hangs

end Edpyt
