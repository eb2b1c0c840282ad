import Verif.Spec.Fock
import Mathlib.Algebra.Order.Field.Basic
import Mathlib.Data.Matrix.Basic
/-!
Specification of the one-body hopping operator.
-/
namespace Edpyt.Spec

/-- `Σ_ij t_ij c†_i c_j` over the modes `0..n-1`. -/
def oneBody {K : Type} [CommRing K] {n : ℕ} (t : Fin n → Fin n → K) :
    Matrix (Finset (Fin n)) (Finset (Fin n)) K :=
  ∑ i, ∑ j, t i j • (cre K i * ann K j)

/-- The elements the code keeps: off-diagonal and larger than `1e-7` in absolute value. -/
def offdiag {K : Type} [Field K] [LinearOrder K] {n : ℕ} (A : ℕ → ℕ → K) (i j : Fin n) : K :=
  if i ≠ j ∧ |A i j| > 1 / 10 ^ 7 then A i j else 0

end Edpyt.Spec
