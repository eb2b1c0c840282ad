import Verif.Model.Lanczos
/-!
Model of the distributed Lanczos step of `edpyt/lanczos.py`. The vectors are divided among the ranks `ρ`; `ι` indexes the
local elements.
-/
namespace Edpyt

/-- `comm.allreduce(x, op=SUM)`: every rank gets the sum. Source: `edpyt/lanczos.py:62,66`. -/
noncomputable def allreduce {ρ : Type} [Fintype ρ] (x : ρ → ℝ) : ρ → ℝ := fun _ => ∑ r, x r

/-- `_sl_step_mpi`, `edpyt/lanczos.py:53-70`, on all ranks: the returned scalars and vectors of each rank. The distributed
matvec needs the vectors of all ranks. -/
noncomputable def slStepMpi {ρ ι : Type} [Fintype ρ] [Fintype ι] (matvec : (ρ → ι → ℝ) → (ρ → ι → ℝ)) (v l : ρ → ι → ℝ) :
    (ρ → ℝ) × (ρ → ℝ) × (ρ → ι → ℝ) × (ρ → ι → ℝ) :=
  let b := fun r => Real.sqrt (allreduce (fun r => v r ⬝ᵥ v r) r)
  let v := fun r => (1 / b r) • v r
  let w := matvec v
  let a := allreduce fun r => v r ⬝ᵥ w r
  let w := fun r => w r + (-a r) • v r
  let w := fun r => w r + (-b r) • l r
  (a, b, v, w)

/-- `build_sl_tridiag` with a communicator as rank `r0` sees it: its scalars are those the step returns on this rank. The
other ranks run the same program and, as `C73_step` shows, get the same scalars, so that they take the same branches and
the collective calls match. Source: `edpyt/lanczos.py:53-70,73-123`. -/
noncomputable def slStepOn {ρ ι : Type} [Fintype ρ] [Fintype ι] (matvec : (ρ → ι → ℝ) → (ρ → ι → ℝ)) (r0 : ρ) (v l : ρ → ι → ℝ) :
    ℝ × ℝ × (ρ → ι → ℝ) × (ρ → ι → ℝ) :=
  let s := slStepMpi matvec v l
  (s.1 r0, s.2.1 r0, s.2.2.1, s.2.2.2)

end Edpyt
