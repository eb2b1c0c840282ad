import Verif.Spec.Fock
import Mathlib.Data.Real.Basic
import Verif.Spec.TwoSpin
/-!
Specification of the quantities in one pass of `moam_solve` (C186).
-/
namespace Edpyt.Spec
open Matrix

/-- `ψ` is a normalised eigenvector, and no eigenvalue is lower than its own by `tol` or more. -/
def GroundWithin {ι : Type} [Fintype ι] [DecidableEq ι] (H : Matrix ι ι ℝ) (tol : ℝ) (ψ : ι → ℝ) : Prop :=
  ψ ⬝ᵥ ψ = 1 ∧ ∃ E : ℝ, H *ᵥ ψ = E • ψ ∧ ∀ (E' : ℝ) (φ : ι → ℝ), φ ≠ 0 → H *ᵥ φ = E' • φ → E - E' < tol

/-- The mean number of electrons of both spins on site `k`. -/
noncomputable def siteOcc (n : ℕ) (ψ : Finset (Fin (n + n)) → ℝ) (k : ℕ) : ℝ :=
  if h : k < n then ψ ⬝ᵥ (num ℝ (orb false (⟨k, h⟩ : Fin n))) *ᵥ ψ + ψ ⬝ᵥ (num ℝ (orb true (⟨k, h⟩ : Fin n))) *ᵥ ψ else 0

/-- The mean number of electrons on impurity `i` and on its `nb` bath sites, which are numbered from `nimp + i * nb` on. -/
noncomputable def subOcc (nimp nb n : ℕ) (ψ : Finset (Fin (n + n)) → ℝ) (i : ℕ) : ℝ := siteOcc n ψ i + ∑ k ∈ Finset.range nb, siteOcc n ψ (nimp + i * nb + k)

end Edpyt.Spec
