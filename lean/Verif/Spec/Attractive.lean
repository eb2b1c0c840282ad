import Verif.Spec.Orderly
/-!
Clusters with attraction on every site.
-/
namespace Edpyt.Spec

/-- Two electrons on the same site attract each other, on every site. -/
def Attractive (a : HamArgs) : Prop := ∀ i, i < a.n → a.V.U.getD 0 i i < 0

/-- Two electrons on the same site repel each other, on every site. -/
def Repulsive (a : HamArgs) : Prop := ∀ i, i < a.n → 0 < a.V.U.getD 0 i i

/-- Every site is empty or holds a pair. -/
def Paired {n : ℕ} (S : Finset (Fin (n + n))) : Prop := ∀ i : Fin n, orb false i ∈ S ↔ orb true i ∈ S

end Edpyt.Spec
