import Verif.Spec.Espace
/-!
Inputs whose modes fall into two groups that do not see each other.
-/
namespace Edpyt.Spec

/-- `col s i` is the group of the mode with spin `s` on site `i`. No hopping above the cutoff `1e-7` of the code and no interaction or exchange element connects
modes of different groups. -/
structure Splits (a : HamArgs) (col : Bool → ℕ → Bool) : Prop where
  hop : ∀ (s : Bool) (i j : ℕ), i < a.n → j < a.n → 1 / 10 ^ 7 < |a.H (if s then 1 else 0) i j| → col s i = col s j
  U : ∀ (A : ℕ → ℕ → ℝ), a.V.U = some A → ∀ i j : ℕ, i < a.n → j < a.n → A i j ≠ 0 → ∀ s s', col s i = col s' j
  Jx : ∀ (A : ℕ → ℕ → ℝ), a.V.Jx = some A → ∀ i j : ℕ, i < a.n → j < a.n → i ≠ j → 1 / 10 ^ 7 < |A i j| → ∀ s s', col s i = col s' j
  Jp : ∀ (A : ℕ → ℕ → ℝ), a.V.Jp = some A → ∀ i j : ℕ, i < a.n → j < a.n → i ≠ j → 1 / 10 ^ 7 < |A i j| → ∀ s s', col s i = col s' j

/-- The two inputs have the same number of sites, the same convention for the interaction, and the same elements within the group `true`. -/
structure SameGroup (a a' : HamArgs) (col : Bool → ℕ → Bool) : Prop where
  n : a'.n = a.n
  hf : a'.hf = a.hf
  H : ∀ (s : Bool) (i j : ℕ), i < a.n → j < a.n → col s i = true → col s j = true →
    a'.H (if s then 1 else 0) i j + (if i = j then a'.mu else 0) = a.H (if s then 1 else 0) i j + (if i = j then a.mu else 0)
  U : ∀ i j : ℕ, i < a.n → j < a.n → col false i = true → col false j = true → a'.V.U.getD 0 i j = a.V.U.getD 0 i j
  z : ∀ i : ℕ, i < a.n → col false i = true → (a'.z.getD fun _ => if a'.hf then 1 else 0) i = (a.z.getD fun _ => if a.hf then 1 else 0) i
  Jx : ∀ i j : ℕ, i < a.n → j < a.n → col false i = true → col false j = true → a'.V.Jx.getD (fun _ _ => 0) i j = a.V.Jx.getD (fun _ _ => 0) i j
  Jp : ∀ i j : ℕ, i < a.n → j < a.n → col false i = true → col false j = true → a'.V.Jp.getD (fun _ _ => 0) i j = a.V.Jp.getD (fun _ _ => 0) i j

end Edpyt.Spec
