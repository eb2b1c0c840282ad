import Verif.Spec.Espace
/-!
Specification for C180: the same system with other signs of the orbitals.
-/
namespace Edpyt.Spec

/-- The input in which the orbital of site `i` and spin `s` is multiplied by `ε s i`: `H_ij` becomes `ε_i ε_j H_ij`, the interaction is unchanged. -/
def signed (a : HamArgs) (ε : Bool → ℕ → ℝ) : HamArgs := ⟨a.n, fun s i j => ε (s == 1) i * ε (s == 1) j * a.H s i j, a.V, a.z, a.hf, a.mu⟩

/-- `ε` is a choice of signs; the signs of the two spins are the same if the input has exchange terms. -/
structure IsSigns (a : HamArgs) (ε : Bool → ℕ → ℝ) : Prop where
  sign : ∀ s i, i < a.n → ε s i = 1 ∨ ε s i = -1
  spin : (∀ i, i < a.n → ε false i = ε true i) ∨ (a.V.Jx = none ∧ a.V.Jp = none)

end Edpyt.Spec
