import Verif.Model.NonInt
import Mathlib.Analysis.SpecialFunctions.Log.Basic
/-!
Model of the entropy functions of `edpyt/dedlib.py:157-189`. `kB` is a parameter.
-/
namespace Edpyt

/-- One pass of the loop of `_get_entropy_params`, `edpyt/dedlib.py:183-187`; the state is `(E, Z)`. -/
noncomputable def entropyStep {α : Type} (egs β : ℝ) (st : ℝ × ℝ) (p : α × Sct) : ℝ × ℝ :=
  let eigvals := p.2.eigvals.map fun e => e - egs
  let exps := eigvals.map fun e => Real.exp (-β * e)
  (st.1 + (List.zipWith (· * ·) eigvals exps).sum, st.2 + exps.sum)

/-- `_get_entropy_params`, `edpyt/dedlib.py:178-189`. The division by the Python float `0.` raises for an empty dict. -/
noncomputable def entropyParams {α : Type} (es : Espace α) (egs β : ℝ) : Except PyErr (ℝ × ℝ) :=
  let st := es.foldl (entropyStep egs β) (0, 0)
  if es = [] then .error .zeroDivision else .ok (st.1 / st.2, st.2)

/-- `_calc_entropy`, `edpyt/dedlib.py:175`. -/
noncomputable def calcEntropy (kB Z E T : ℝ) : ℝ := kB * Real.log Z + E / T

/-- `get_entropy`, `edpyt/dedlib.py:157-173`, for the bath energies `gfimp.ek`. The ground-state energy of the bath is a number:
`np.inf`, the start value of `egs`, is left at once. -/
noncomputable def getEntropy {α : Type} (kB : ℝ) (w : ℕ) (junk : ℕ → ℕ → ℕ) (fresh : ℕ → ℝ) (ek : List ℝ) (es : Espace α) (egs β : ℝ) : Except PyErr ℝ := do
  let bath ← buildNonInteracting w junk fresh ek
  let p ← entropyParams es egs β
  let pb ← entropyParams bath.1 (bath.2.untopD 0) β
  if kB * β = 0 then .error .zeroDivision else
  let T := 1 / (kB * β)
  pure (calcEntropy kB p.2 p.1 T - calcEntropy kB pb.2 pb.1 T)

end Edpyt
