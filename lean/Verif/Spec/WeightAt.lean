import Mathlib.Data.Matrix.Mul
import Mathlib.Data.Real.Basic
/-!
How much of a vector lies at one energy.
-/
namespace Edpyt.Spec
open Matrix

/-- The weight of the vector `phi` on the members of the orthonormal basis `u` with the energy `E0`. -/
noncomputable def weightAt {ι κ : Type} [Fintype ι] [Fintype κ] (u : κ → ι → ℝ) (E : κ → ℝ) (E0 : ℝ) (phi : ι → ℝ) : ℝ :=
  open Classical in ∑ k, if E k = E0 then (u k ⬝ᵥ phi) ^ 2 else 0

end Edpyt.Spec
