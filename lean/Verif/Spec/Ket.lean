import Verif.Spec.TwoSpin
import Mathlib.Data.Real.Basic
/-!
Specification: the vector in the `2n`-mode Fock space that a coefficient array of a sector stands for.
-/
namespace Edpyt.Spec

/-- `Σ_{iu,id} v[iu + |up| id] |up[iu]⟩|dw[id]⟩`. -/
def ket (n : ℕ) (up dw : List ℕ) (v : ℕ → ℝ) : Finset (Fin (n + n)) → ℝ := fun S =>
  ∑ iu : Fin up.length, ∑ id : Fin dw.length, if S = occ2 n up[iu] dw[id] then v (iu + up.length * id) else 0

end Edpyt.Spec
