import Mathlib.Data.Complex.Basic
import Mathlib.LinearAlgebra.Matrix.NonsingularInverse
/-!
The local Green function of a lattice of `n` orbitals.
-/
namespace Edpyt.Spec
open Matrix

/-- The matrix `(z + mu) S - H - Hyb - Σ` with the self-energy `sig i` of orbital `i`. -/
def dysonMat {n : ℕ} (H S : Matrix (Fin n) (Fin n) ℂ) (hyb : Matrix (Fin n) (Fin n) ℂ) (sig : Fin n → ℂ) (mu : ℝ) (z : ℂ) : Matrix (Fin n) (Fin n) ℂ :=
  (z + mu) • S - H - hyb - Matrix.diagonal sig

/-- `g` is the local Green function of orbital `i`: element `i` of the solution of `X v = e_i`, which exists. -/
def IsLocalGf {n : ℕ} (X : Matrix (Fin n) (Fin n) ℂ) (i : Fin n) (g : ℂ) : Prop := ∃ v, X *ᵥ v = Pi.single i 1 ∧ v i = g

/-- A causal matrix: the imaginary part of every expectation value is at most zero. -/
def CausalMat {n : ℕ} (A : Matrix (Fin n) (Fin n) ℂ) : Prop := ∀ v : Fin n → ℂ, (star v ⬝ᵥ (A *ᵥ v)).im ≤ 0

end Edpyt.Spec
