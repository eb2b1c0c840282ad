import Mathlib.Data.Int.Order.Basic
/-!
Vocabulary of C187: the states that label the rows and columns of the transport matrices.
-/
namespace Edpyt.Spec

/-- `ids` lists exactly the states with the property `P`, each once and in increasing order. -/
structure InOrder {α : Type} (before : α → α → Prop) (P : α → Prop) (ids : List α) : Prop where
  mem : ∀ x, x ∈ ids ↔ P x
  sorted : ids.Pairwise before

/-- Order of the states `(nup, ndw, level)`: by the number of up electrons, then by the number of down electrons, then by the level. -/
def SpinBefore (a b : ℤ × ℤ × ℕ) : Prop :=
  a.1 < b.1 ∨ (a.1 = b.1 ∧ (a.2.1 < b.2.1 ∨ (a.2.1 = b.2.1 ∧ a.2.2 < b.2.2)))

/-- Order of the states `(N, level)`: by the number of electrons, then by the level. -/
def NumBefore (a b : ℤ × ℕ) : Prop := a.1 < b.1 ∨ (a.1 = b.1 ∧ a.2 < b.2)

end Edpyt.Spec
