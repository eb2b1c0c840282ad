import Verif.Spec.Espace
/-!
Specification for C196: an input whose interaction has the opposite sign.
-/
namespace Edpyt.Spec

/-- The same number of sites, mode and chemical potential with the one-body matrices `H'` and the interaction `V'`. -/
def withModel (a : HamArgs) (H' : ℕ → ℕ → ℕ → ℝ) (V' : ℕ → ℕ → ℝ) : HamArgs := ⟨a.n, H', .array V', a.z, a.hf, a.mu⟩

/-- `H'` and `V'` describe the input `a`, which has an interaction on the sites only, with holes in place of the down electrons and the signs `η` of the sites: the repulsion becomes
an attraction of the same strength, the levels of the down electrons change sign, the hops of the down electrons change sign between sites with the same sign, and up electrons keep
their hops and their levels relative to half filling. -/
structure Reversed (η : ℕ → ℤ) (a : HamArgs) (H' : ℕ → ℕ → ℕ → ℝ) (V' : ℕ → ℕ → ℝ) : Prop where
  sign : ∀ i < a.n, η i = 1 ∨ η i = -1
  Jx : a.V.Jx = none
  Jp : a.V.Jp = none
  local_ : ∀ i j, i < a.n → j < a.n → i ≠ j → a.V.U.getD 0 i j = 0
  U : ∀ i j, i < a.n → j < a.n → V' i j = -(a.V.U.getD 0 i j)
  up : ∀ i j, i < a.n → j < a.n → i ≠ j → H' 0 i j = a.H 0 i j
  dw : ∀ i j, i < a.n → j < a.n → i ≠ j → H' 1 i j = -(η i * η j : ℤ) * a.H 1 i j
  levelUp : ∀ i < a.n, H' 0 i i = a.H 0 i i + if a.hf then 0 else a.V.U.getD 0 i i
  levelDw : ∀ i < a.n, H' 1 i i + a.mu = -(a.H 1 i i + a.mu)

end Edpyt.Spec
