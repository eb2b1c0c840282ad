import Mathlib.Data.Nat.BitIndices
import Mathlib.Data.Finset.Card
/-!
Specification vocabulary for Fock states written as integers.
-/
namespace Edpyt.Spec

/-- The set of occupied sites of a Fock state: the positions of the one bits of `s`. -/
def occ (s : ℕ) : Finset ℕ := s.bitIndices.toFinset

/-- The number of particles of a Fock state. -/
def particles (s : ℕ) : ℕ := (occ s).card

/-- `s` is a state of the sector with `n` sites and `p` particles. -/
def InSector (n p s : ℕ) : Prop := s < 2 ^ n ∧ particles s = p

@[simp] theorem mem_occ {s i : ℕ} : i ∈ occ s ↔ s.testBit i = true := by simp [occ]

end Edpyt.Spec
