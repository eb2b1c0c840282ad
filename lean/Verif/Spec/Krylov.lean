import Verif.Spec.Resolvent
/-!
What it means for a tridiagonal matrix to represent a symmetric matrix on a Krylov space.
-/
namespace Edpyt.Spec
open Matrix

/-- `q` is an orthonormal family that starts with the direction of `phi`; `A` between its members is the tridiagonal
matrix with diagonal `a` and off-diagonal `b[1], b[2], …`; `A` maps the family into its span except for the remainder
`res` of the last member, which is orthogonal to the family. -/
structure KrylovBasis {ι : Type} [Fintype ι] (A : Matrix ι ι ℝ) (phi : ι → ℝ) (a b : List ℝ) (q : Fin a.length → ι → ℝ) (res : ι → ℝ) : Prop where
  orth : ∀ i j, q i ⬝ᵥ q j = if i = j then 1 else 0
  start : ∀ i : Fin a.length, (i : ℕ) = 0 → phi = (b[0]?.getD 0) • q i
  elem : ∀ i j, q i ⬝ᵥ (A *ᵥ q j) = tridiag a.length (fun k => a[k]?.getD 0) (fun k => b[k]?.getD 0) i j
  map : ∀ i, A *ᵥ q i = ∑ j, tridiag a.length (fun k => a[k]?.getD 0) (fun k => b[k]?.getD 0) i j • q j +
    if (i : ℕ) + 1 = a.length then res else 0
  rem : ∀ i, q i ⬝ᵥ res = 0

end Edpyt.Spec
