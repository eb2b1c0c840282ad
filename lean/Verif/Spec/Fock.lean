import Mathlib.Data.Matrix.Mul
import Mathlib.Data.Fintype.Powerset
import Mathlib.Data.Int.Cast.Basic
import Mathlib.Algebra.Ring.Int.Defs
/-!
Specification: second quantisation on a finite, linearly ordered set of modes `M`.
Basis states are the finite sets of occupied modes; operators are matrices between basis states,
`A T S` is the matrix element `⟨T| A |S⟩`.
-/
namespace Edpyt.Spec

variable {M : Type*} [Fintype M] [LinearOrder M]

/-- Fermionic sign: minus one to the number of occupied modes above `i`. -/
def sgn (i : M) (S : Finset M) : ℤ := (-1) ^ (S.filter (fun k => i < k)).card

variable {R : Type*} [CommRing R]

/-- Annihilation operator: `c_i |S⟩ = ± |S \ {i}⟩` if `i` is occupied, `0` otherwise. -/
def ann (R : Type*) [CommRing R] (i : M) : Matrix (Finset M) (Finset M) R :=
  Matrix.of fun T S => if i ∈ S ∧ T = S.erase i then ((sgn i S : ℤ) : R) else 0

/-- Creation operator: the transpose (real adjoint) of the annihilation operator. -/
def cre (R : Type*) [CommRing R] (i : M) : Matrix (Finset M) (Finset M) R := (ann R i).transpose

/-- Number operator. -/
def num (R : Type*) [CommRing R] (i : M) : Matrix (Finset M) (Finset M) R := cre R i * ann R i

/-- Occupied modes of the bit pattern `s`, for `n` modes. -/
def occF (n s : ℕ) : Finset (Fin n) := Finset.univ.filter (fun i => s.testBit i)

@[simp] theorem mem_occF {n s : ℕ} {i : Fin n} : i ∈ occF n s ↔ s.testBit i = true := by
  simp [occF]

end Edpyt.Spec
