import Mathlib.LinearAlgebra.Matrix.NonsingularInverse
import Mathlib.Data.Complex.Basic
/-!
Resolvent of a real matrix, and tridiagonal matrices.
-/
namespace Edpyt.Spec
open Matrix

/-- `(z - H)⁻¹` for a real matrix `H`. -/
noncomputable def resolvent {ι : Type} [Fintype ι] [DecidableEq ι] (z : ℂ) (H : Matrix ι ι ℝ) : Matrix ι ι ℂ :=
  (z • (1 : Matrix ι ι ℂ) - H.map Complex.ofReal)⁻¹

/-- The symmetric tridiagonal matrix of size `m` with diagonal `a 0, a 1, …` and off-diagonal `b 1, b 2, …`
(`b i` couples `i - 1` and `i`). -/
def tridiag (m : ℕ) (a b : ℕ → ℝ) : Matrix (Fin m) (Fin m) ℝ :=
  Matrix.of fun i j => if i = j then a i else if (i : ℕ) + 1 = j then b j else if (j : ℕ) + 1 = i then b i else 0

end Edpyt.Spec
