import Verif.Model.Project
import Mathlib.Data.Complex.Basic
import Mathlib.Analysis.Complex.Exponential
/-!
Model of `build_gf_exact` and the class `Gf` of `edpyt/gf_exact.py`.
-/
namespace Edpyt

/-- `espace[q]`. Source: `edpyt/gf_exact.py:88-140`. -/
def dictGet {α β : Type} [DecidableEq α] (es : List (α × β)) (q : α) : Except PyErr β :=
  match es.find? (fun p => decide (p.1 = q)) with
  | some p => .ok p.2
  | none => .error .keyError

/-- `gf_exact.Gf`, `edpyt/gf_exact.py:29-33`: residues, poles and partition function. -/
structure GfEx where
  q : List ℝ
  l : List ℝ
  Z : ℝ

/-- `Gf.__call__` at one energy, `edpyt/gf_exact.py:35-39`. -/
noncomputable def GfEx.call (g : GfEx) (e eta : ℝ) : ℂ :=
  (List.zipWith (fun (l q : ℝ) => ((e + Complex.I * eta : ℂ) - (l : ℂ))⁻¹ * (q : ℂ)) g.l g.q).sum / (g.Z : ℂ)

/-- `sum(np.exp(-beta*(sct.eigvals-egs)).sum() for ... in espace.items())`, `edpyt/gf_exact.py:131-132`. -/
noncomputable def partition {α : Type} (es : Espace α) (beta egs : ℝ) : ℝ :=
  (es.map fun p => (p.2.eigvals.map fun E => Real.exp (-beta * (E - egs))).sum).sum

/-- One pass of the loop over the sectors, `edpyt/gf_exact.py:107-128`; the state is `(lambdas, qs)`. Arrays are
flattened row by row. -/
noncomputable def gfExactStep (project : Sct → Sct → Except PyErr (ℕ → ℕ → ℝ)) (n : ℕ) (es : Espace (ℕ × ℕ)) (beta egs : ℝ)
    (st : List ℝ × List ℝ) (key : ℕ × ℕ) : Except PyErr (List ℝ × List ℝ) := do
  let sctI ← dictGet es key
  let nupJ := key.1 + 1
  let ndwJ := key.2
  if nupJ > n then pure st
  else
    let sctJ ← dictGet es (nupJ, ndwJ)
    let EI := fun k => (sctI.eigvals[k]?.getD 0) - egs
    let EJ := fun j => (sctJ.eigvals[j]?.getD 0) - egs
    let bJ ← project sctI sctJ
    let idx := ndindex2 sctJ.eigvals.length sctI.eigvals.length
    pure (st.1 ++ idx.map (fun jk => EJ jk.1 - EI jk.2),
      st.2 ++ idx.map (fun jk => bJ jk.1 jk.2 ^ 2 * (Real.exp (-beta * EJ jk.1) + Real.exp (-beta * EI jk.2))))

/-- `build_gf_exact`, `edpyt/gf_exact.py:88-138`; `ispin` is `0` (`false`) or `1` (`true`). -/
noncomputable def buildGfExact (junk n : ℕ) (es : Espace (ℕ × ℕ)) (beta egs : ℝ) (pos : ℕ) (ispin : Bool) : Except PyErr GfEx := do
  let project := if ispin then projectExactDw junk pos n .cdg else projectExactUp junk pos n .cdg
  let st ← forM' (gfExactStep project n es beta egs) (es.map Prod.fst) ([], [])
  pure ⟨st.2, st.1, partition es beta egs⟩

end Edpyt
