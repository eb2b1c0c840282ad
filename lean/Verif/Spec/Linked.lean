import Verif.Model.SqTunneling
import Mathlib.Logic.Relation
/-! Which states the leads connect, for C198. -/
namespace Edpyt.Spec

/-- A lead with the couplings `a` moves the system from the state `I` to the state `F`: the transition is stored and its amplitude,
`v·a`, does not vanish. -/
def LeadMoves (gd : GfDict) (a : List ℝ) (F I : TId) : Prop :=
  ∃ g, dictGet gd (F, I) = .ok g ∧ g.v.length = a.length ∧ (List.zipWith (· * ·) g.v a).sum ≠ 0

/-- `F` is one of the states of the rate matrix. -/
def StoredState (gd : GfDict) (F : TId) : Prop := ∃ I g, dictGet gd (F, I) = .ok g

/-- From each state every other one is reached by finitely many tunnelling events through the two leads. -/
def Linked (gd : GfDict) (a0 a1 : List ℝ) : Prop :=
  ∀ I F, StoredState gd I → StoredState gd F → Relation.ReflTransGen (fun I F => LeadMoves gd a0 F I ∨ LeadMoves gd a1 F I) I F

/-- The states of a matrix of size `sz` form one class: every state leads to every other along non-vanishing elements. -/
def OneClass (sz : ℕ) (W : ℕ → ℕ → ℝ) : Prop :=
  ∀ i f, i < sz → f < sz → Relation.ReflTransGen (fun i f => i < sz ∧ f < sz ∧ i ≠ f ∧ W f i ≠ 0) i f

end Edpyt.Spec
