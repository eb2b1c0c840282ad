import Verif.Spec.Split
/-!
Specification for C181: an input and the input of its first sites alone.
-/
namespace Edpyt.Spec

/-- `a'` describes the first sites of `a`: the same convention for the interaction and the same elements between these sites. -/
structure FirstSites (a a' : HamArgs) : Prop where
  le : a'.n ≤ a.n
  hf : a'.hf = a.hf
  H : ∀ (s : Bool) (i j : ℕ), i < a'.n → j < a'.n → a'.H (if s then 1 else 0) i j + (if i = j then a'.mu else 0) = a.H (if s then 1 else 0) i j + (if i = j then a.mu else 0)
  U : ∀ i j : ℕ, i < a'.n → j < a'.n → a'.V.U.getD 0 i j = a.V.U.getD 0 i j
  z : ∀ i : ℕ, i < a'.n → (a'.z.getD fun _ => if a'.hf then 1 else 0) i = (a.z.getD fun _ => if a.hf then 1 else 0) i
  Jx : ∀ i j : ℕ, i < a'.n → j < a'.n → a'.V.Jx.getD (fun _ _ => 0) i j = a.V.Jx.getD (fun _ _ => 0) i j
  Jp : ∀ i j : ℕ, i < a'.n → j < a'.n → a'.V.Jp.getD (fun _ _ => 0) i j = a.V.Jp.getD (fun _ _ => 0) i j

/-- No element of `a` connects the first `k` sites with the others. -/
def Detached (a : HamArgs) (k : ℕ) : Prop := Splits a fun _ i => decide (i < k)

end Edpyt.Spec
