import Mathlib.Data.Real.Basic
import Mathlib.Algebra.BigOperators.Fin
/-!
What the reference occupations in the interaction `V_ii (n_i↑ - ½)(n_i↓ - ½)` and `½ V_ij (n_i - z_i)(n_j - z_j)` add to the one-body part of the Hamiltonian and to the energy.
-/
namespace Edpyt.Spec
variable {n : ℕ}

/-- The background of a site: what the reference occupations in the interaction add to its energy. -/
noncomputable def bgLevel (hf : Bool) (z : Fin n → ℝ) (V : Fin n → Fin n → ℝ) (i : Fin n) : ℝ :=
  -(if hf then V i i / 2 else 0) - ∑ j, (if i ≠ j then (V i j + V j i) / 2 * z j else 0)

/-- The constant that the reference occupations in the interaction add to the energy. -/
noncomputable def bgEnergy (hf : Bool) (z : Fin n → ℝ) (V : Fin n → Fin n → ℝ) : ℝ :=
  ∑ i, ((if hf then V i i / 4 else 0) + ∑ j, if i ≠ j then V i j / 2 * z i * z j else 0)

end Edpyt.Spec
