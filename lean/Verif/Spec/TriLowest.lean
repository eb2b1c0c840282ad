import Verif.Spec.Resolvent
/-!
The lowest eigenvalue of the leading part of a tridiagonal matrix.
-/
namespace Edpyt.Spec
open Matrix

/-- `e` is the lowest eigenvalue of the leading `m × m` part of the tridiagonal matrix with the diagonal `a` and the off-diagonal `b[1:]`. -/
def TriLowest (m : ℕ) (a b : List ℝ) (e : ℝ) : Prop :=
  IsLeast {E : ℝ | ∃ y : Fin m → ℝ, y ≠ 0 ∧ tridiag m (fun k => a[k]?.getD 0) (fun k => b[k]?.getD 0) *ᵥ y = E • y} e

end Edpyt.Spec
