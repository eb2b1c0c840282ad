import Mathlib.Data.Matrix.Mul
import Mathlib.Data.Real.Basic
/-!
The numerical range of a real matrix.
-/
namespace Edpyt
open Matrix

/-- The numerical range of a matrix lies between `lo` and `hi`. -/
def NumRange {ι : Type} [Fintype ι] (A : Matrix ι ι ℝ) (lo hi : ℝ) : Prop := ∀ x : ι → ℝ, lo * (x ⬝ᵥ x) ≤ x ⬝ᵥ A *ᵥ x ∧ x ⬝ᵥ A *ᵥ x ≤ hi * (x ⬝ᵥ x)

end Edpyt
