import Verif.Spec.TwoSpin
import Mathlib.Data.Real.Basic
/-!
Second-order transition amplitudes through a virtual intermediate state, without reference to eigenstates.
-/
namespace Edpyt.Spec
open Matrix

/-- `v` is the number `⟨F| A K⁻¹ B |I⟩`: the equation `K x = B|I⟩` has a solution, and every solution gives `⟨F|A x⟩ = v`. -/
def IsAmplitude {ι : Type} [Fintype ι] (K : Matrix ι ι ℝ) (F : ι → ℝ) (A B : Matrix ι ι ℝ) (I : ι → ℝ) (v : ℝ) : Prop :=
  (∃ x, K *ᵥ x = B *ᵥ I) ∧ ∀ x, K *ᵥ x = B *ᵥ I → F ⬝ᵥ (A *ᵥ x) = v

/-- The operator `∑ᵢ aᵢ c†ᵢₛ` that puts an electron of spin `s` from a lead with couplings `a` on the sites. -/
noncomputable def creSum {n : ℕ} (s : Bool) (a : Fin n → ℝ) : Matrix (Finset (Fin (n + n))) (Finset (Fin (n + n))) ℝ := ∑ i, a i • cre ℝ (orb s i)

/-- The operator `∑ᵢ aᵢ cᵢₛ` that moves an electron of spin `s` from the sites to a lead with couplings `a`. -/
noncomputable def annSum {n : ℕ} (s : Bool) (a : Fin n → ℝ) : Matrix (Finset (Fin (n + n))) (Finset (Fin (n + n))) ℝ := ∑ i, a i • ann ℝ (orb s i)

end Edpyt.Spec
