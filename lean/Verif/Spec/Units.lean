import Verif.Spec.Espace
/-!
Specification for C193: the same system in another unit of energy.
-/
namespace Edpyt.Spec

/-- The input with every energy multiplied by `c`: hopping, levels, chemical potential and interaction. The reference occupations `z` are numbers and stay. -/
def inUnits (c : ℝ) (a : HamArgs) : HamArgs :=
  ⟨a.n, fun s i j => c * a.H s i j, ⟨a.V.U.map fun A i j => c * A i j, a.V.Jx.map fun A i j => c * A i j, a.V.Jp.map fun A i j => c * A i j⟩, a.z, a.hf, c * a.mu⟩

/-- No element between different sites is zero or small in one unit and not small in the other, where small means not above `1e-7`. -/
def SameSize (c : ℝ) (n : ℕ) (A : ℕ → ℕ → ℝ) : Prop := ∀ i j, i < n → j < n → i ≠ j → A i j = 0 ∨ (1 / 10 ^ 7 < |A i j| ↔ 1 / 10 ^ 7 < |c * A i j|)

/-- Hopping, exchange and pair hopping contain no such element. -/
structure UnitsOk (c : ℝ) (a : HamArgs) : Prop where
  hop : ∀ s, SameSize c a.n (a.H s)
  exch : ∀ A ∈ a.V.Jx, SameSize c a.n A
  pair : ∀ A ∈ a.V.Jp, SameSize c a.n A

end Edpyt.Spec
