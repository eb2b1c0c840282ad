import Verif.Spec.Solved
import Verif.Proof.SpinAlg
/-!
Vocabulary of C197: vectors of a sector, and subspaces of low energy.
-/
namespace Edpyt.Spec
open Matrix

/-- A vector of the Fock space made of configurations with `p` up and `q` down electrons. -/
def SectorVec (n p q : ℕ) (x : Finset (Fin (n + n)) → ℝ) : Prop := ∀ S, x S ≠ 0 → spinCount false S = p ∧ spinCount true S = q

/-- There are `k` linearly independent vectors with `p` up and `q` down electrons such that the mean energy of every combination of them is at most `E`. -/
def LowSpace (n p q : ℕ) (H : Matrix (Finset (Fin (n + n))) (Finset (Fin (n + n))) ℝ) (k : ℕ) (E : ℝ) : Prop :=
  ∃ v : Fin k → Finset (Fin (n + n)) → ℝ, LinearIndependent ℝ v ∧ (∀ i, SectorVec n p q (v i)) ∧
    ∀ c : Fin k → ℝ, (∑ i, c i • v i) ⬝ᵥ H *ᵥ (∑ i, c i • v i) ≤ E * ((∑ i, c i • v i) ⬝ᵥ ∑ i, c i • v i)

end Edpyt.Spec
