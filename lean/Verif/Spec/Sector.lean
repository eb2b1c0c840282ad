import Verif.Spec.Bits
import Mathlib.Data.Nat.Choose.Basic
/-!
Specification of the list of basis states of one spin with a given number of particles.
-/
namespace Edpyt
open Spec

/-- The bit patterns on `n` sites with `p` particles, ascending, each once. -/
structure SectorList (n p : ℕ) (L : List ℕ) : Prop where
  sorted : L.Pairwise (· < ·)
  mem : ∀ s, s ∈ L ↔ InSector n p s
  len : L.length = n.choose p

end Edpyt
