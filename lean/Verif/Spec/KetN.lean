import Verif.Spec.Ket
/-!
Specification: the vector that a coefficient array of a sector with fixed number of electrons stands for.
-/
namespace Edpyt.Spec

/-- `Σ_a v[a] |states[a]⟩` in the Fock space of `m` modes. -/
def ketN (m : ℕ) (states : List ℕ) (v : ℕ → ℝ) : Finset (Fin m) → ℝ := fun S =>
  ∑ a : Fin states.length, if S = occF m states[a] then v a else 0

end Edpyt.Spec
