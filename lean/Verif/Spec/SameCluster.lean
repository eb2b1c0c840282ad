import Verif.Spec.Resolvent
import Verif.Props.Free
/-!
Specification for C182: two inputs with the same cluster of interacting sites and the same non-interacting Green function on the cluster, on any numbers of sites.
-/
namespace Edpyt.Spec
open Matrix

/-- All interactions of the input are between sites of `S`. -/
structure InteractsOn (a : HamArgs) (S : ℕ → Prop) : Prop where
  lt : ∀ i, S i → i < a.n
  U : ∀ i j, i < a.n → j < a.n → a.V.U.getD 0 i j ≠ 0 → S i ∧ S j
  Jx : ∀ i j, i < a.n → j < a.n → i ≠ j → a.V.Jx.getD (fun _ _ => 0) i j ≠ 0 → S i ∧ S j
  Jp : ∀ i j, i < a.n → j < a.n → i ≠ j → a.V.Jp.getD (fun _ _ => 0) i j ≠ 0 → S i ∧ S j

/-- Two inputs, possibly with different numbers of sites, that interact on the sites `S` only, with the same interactions there and with the same non-interacting Green function
between these sites. The one-body matrices may differ: other levels and couplings of the other sites, and other connections between them. -/
structure SameCluster (a a' : HamArgs) (S : ℕ → Prop) : Prop where
  hf : a'.hf = a.hf
  on : InteractsOn a S
  on' : InteractsOn a' S
  U : ∀ i j, S i → S j → a'.V.U.getD 0 i j = a.V.U.getD 0 i j
  z : ∀ i, S i → (a'.z.getD fun _ => if a'.hf then 1 else 0) i = (a.z.getD fun _ => if a.hf then 1 else 0) i
  Jx : ∀ i j, S i → S j → a'.V.Jx.getD (fun _ _ => 0) i j = a.V.Jx.getD (fun _ _ => 0) i j
  Jp : ∀ i j, S i → S j → a'.V.Jp.getD (fun _ _ => 0) i j = a.V.Jp.getD (fun _ _ => 0) i j
  green : ∀ (s : Bool) (z : ℂ), z.im ≠ 0 → ∀ (i j : ℕ) (hi : S i) (hj : S j),
    resolvent z (a.oneBody s) ⟨i, on.lt i hi⟩ ⟨j, on.lt j hj⟩ = resolvent z (a'.oneBody s) ⟨i, on'.lt i hi⟩ ⟨j, on'.lt j hj⟩

end Edpyt.Spec
