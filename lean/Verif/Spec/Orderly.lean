import Verif.Spec.Espace
import Mathlib.Logic.Relation
/-!
Clusters on which electrons of one spin never have to overtake each other.
-/
namespace Edpyt.Spec

/-- The code keeps the hopping element of spin `s` between the sites `i` and `j`. -/
def KeptHop (a : HamArgs) (s : Bool) (i j : ℕ) : Prop := i ≠ j ∧ 1 / 10 ^ 7 < |a.H (if s then 1 else 0) i j|

/-- The sites form an open chain for spin `s`: exactly the neighbours in the numbering are joined. -/
def OpenChain (a : HamArgs) (s : Bool) : Prop := ∀ i j, i < a.n → j < a.n → (KeptHop a s i j ↔ i + 1 = j ∨ j + 1 = i)

/-- Every site can be reached from every other by kept hops of spin `s`. -/
def Connected (a : HamArgs) (s : Bool) : Prop :=
  ∀ i j, i < a.n → j < a.n → Relation.ReflTransGen (fun k l => k < a.n ∧ l < a.n ∧ KeptHop a s k l) i j

/-- With suitable signs of the orbitals every kept hopping element of spin `s` is negative (for example because all are negative, or because the sites split
into two groups with hops only between the groups). -/
def Unfrustrated (a : HamArgs) (s : Bool) : Prop :=
  ∃ σ : ℕ → ℝ, (∀ i, σ i = 1 ∨ σ i = -1) ∧ ∀ i j, i < a.n → j < a.n → KeptHop a s i j → σ i * a.H (if s then 1 else 0) i j * σ j < 0

/-- `p` electrons of spin `s` never exchange places: there is none, or no empty site, or the sites form an open chain, or there is just one on a connected
unfrustrated cluster. -/
def Orderly (a : HamArgs) (s : Bool) (p : ℕ) : Prop :=
  p = 0 ∨ p = a.n ∨ OpenChain a s ∨ (p = 1 ∧ Connected a s ∧ Unfrustrated a s)

end Edpyt.Spec
