import Verif.Proof.Thermal
import Verif.Proof.Amplitude
import Mathlib.Data.Finset.Sum
/-!
Slater determinants: eigenvectors of quadratic Hamiltonians, from anticommuting modes.
-/
namespace Edpyt
open Matrix

section
variable {ι : Type} [Fintype ι] [DecidableEq ι] {μ : Type} [DecidableEq μ]

/-- Annihilators of orthonormal modes and their vacuum. -/
structure Modes (γ : μ → Matrix ι ι ℝ) (x0 : ι → ℝ) : Prop where
  anti : ∀ a b, γ b * (γ a)ᵀ + (γ a)ᵀ * γ b = (if a = b then (1 : ℝ) else 0) • (1 : Matrix ι ι ℝ)
  anti2 : ∀ a b, γ a * γ b + γ b * γ a = 0
  vac : ∀ a, γ a *ᵥ x0 = 0
  norm : x0 ⬝ᵥ x0 = 1

/-- The modes of the list are filled one after another. -/
def slater (γ : μ → Matrix ι ι ℝ) (x0 : ι → ℝ) : List μ → ι → ℝ
  | [] => x0
  | a :: L => (γ a)ᵀ *ᵥ slater γ x0 L

variable {γ : μ → Matrix ι ι ℝ} {x0 : ι → ℝ}

theorem Modes.swap (h : Modes γ x0) {a b : μ} (hab : a ≠ b) (x : ι → ℝ) : γ a *ᵥ (γ b)ᵀ *ᵥ x = -((γ b)ᵀ *ᵥ γ a *ᵥ x) := by
  have := congrArg (· *ᵥ x) (h.anti b a)
  simp only [if_neg (Ne.symm hab), zero_smul, Matrix.zero_mulVec, Matrix.add_mulVec, ← Matrix.mulVec_mulVec] at this
  exact eq_neg_of_add_eq_zero_left this

theorem Modes.same (h : Modes γ x0) (a : μ) (x : ι → ℝ) : γ a *ᵥ (γ a)ᵀ *ᵥ x = x - (γ a)ᵀ *ᵥ γ a *ᵥ x := by
  have := congrArg (· *ᵥ x) (h.anti a a)
  simp only [if_pos, one_smul, Matrix.one_mulVec, Matrix.add_mulVec, ← Matrix.mulVec_mulVec] at this
  exact eq_sub_of_add_eq this

theorem Modes.cre_swap (h : Modes γ x0) (a b : μ) (x : ι → ℝ) : (γ a)ᵀ *ᵥ (γ b)ᵀ *ᵥ x = -((γ b)ᵀ *ᵥ (γ a)ᵀ *ᵥ x) := by
  have := congrArg (fun M => Mᵀ *ᵥ x) (h.anti2 b a)
  simp only [Matrix.transpose_add, Matrix.transpose_mul, Matrix.transpose_zero, Matrix.zero_mulVec, Matrix.add_mulVec, ← Matrix.mulVec_mulVec] at this
  exact eq_neg_of_add_eq_zero_left this

theorem Modes.empty (h : Modes γ x0) {a : μ} : ∀ {L : List μ}, a ∉ L → γ a *ᵥ slater γ x0 L = 0
  | [], _ => h.vac a
  | b :: L, ha => by
    rw [List.mem_cons, not_or] at ha
    rw [slater, h.swap ha.1, h.empty ha.2, Matrix.mulVec_zero, neg_zero]

theorem Modes.number (h : Modes γ x0) (a : μ) : ∀ {L : List μ}, L.Nodup → (γ a)ᵀ *ᵥ γ a *ᵥ slater γ x0 L = (if a ∈ L then (1 : ℝ) else 0) • slater γ x0 L
  | [], _ => by rw [slater, h.vac, Matrix.mulVec_zero]; simp
  | b :: L, hL => by
    rw [List.nodup_cons] at hL
    rw [slater]
    by_cases hab : a = b
    · subst hab
      rw [h.same, h.empty hL.1, Matrix.mulVec_zero, sub_zero, if_pos (by simp), one_smul]
    · rw [h.swap hab, Matrix.mulVec_neg, h.cre_swap, neg_neg, h.number a hL.2, Matrix.mulVec_smul]
      simp [hab]

theorem Modes.unit (h : Modes γ x0) : ∀ {L : List μ}, L.Nodup → slater γ x0 L ⬝ᵥ slater γ x0 L = 1
  | [], _ => h.norm
  | b :: L, hL => by
    rw [List.nodup_cons] at hL
    rw [slater, Matrix.dotProduct_mulVec, Matrix.vecMul_transpose, h.same, h.empty hL.1, Matrix.mulVec_zero, sub_zero]
    exact h.unit hL.2

theorem Modes.orth (h : Modes γ x0) {L L' : List μ} (hL : L.Nodup) (hL' : L'.Nodup) {a : μ} (ha : a ∈ L) (ha' : a ∉ L') : slater γ x0 L ⬝ᵥ slater γ x0 L' = 0 := by
  have h1 := h.number a hL
  rw [if_pos ha, one_smul] at h1
  rw [← h1, Matrix.mulVec_transpose, ← Matrix.dotProduct_mulVec, h.empty ha', dotProduct_zero]

theorem slater_eig {H : Matrix ι ι ℝ} {ε : μ → ℝ} (hc : ∀ a, γ a * H - H * γ a = ε a • γ a) (hH : Hᵀ = H) (h0 : H *ᵥ x0 = 0) : ∀ L : List μ,
    H *ᵥ slater γ x0 L = (L.map ε).sum • slater γ x0 L
  | [] => by simp [slater, h0]
  | b :: L => by
    have := congrArg Matrix.transpose (hc b)
    rw [Matrix.transpose_sub, Matrix.transpose_mul, Matrix.transpose_mul, hH, Matrix.transpose_smul, sub_eq_iff_eq_add] at this
    rw [slater, Matrix.mulVec_mulVec, this, Matrix.add_mulVec, ← Matrix.mulVec_mulVec, slater_eig hc hH h0 L, Matrix.smul_mulVec, Matrix.mulVec_smul, ← add_smul,
      List.map_cons, List.sum_cons]

variable [Fintype μ]

/-- The determinants are an eigenbasis. -/
theorem Modes.basis (h : Modes γ x0) (hcard : 2 ^ Fintype.card μ = Fintype.card ι) {H : Matrix ι ι ℝ} {ε : μ → ℝ} (hc : ∀ a, γ a * H - H * γ a = ε a • γ a) (hH : Hᵀ = H)
    (h0 : H *ᵥ x0 = 0) : EigBasis H (fun S : Finset μ => slater γ x0 S.toList) (fun S => ∑ a ∈ S, ε a) where
  card := by rw [Fintype.card_finset, hcard]
  orth S T := by
    split
    · rename_i hST
      subst hST
      exact h.unit S.nodup_toList
    · rename_i hST
      by_cases hsub : S ⊆ T
      · obtain ⟨a, ha, ha'⟩ := Finset.not_subset.mp fun hTS => hST (Finset.Subset.antisymm hsub hTS)
        rw [dotProduct_comm]
        exact h.orth T.nodup_toList S.nodup_toList (by simpa using ha) (by simpa using ha')
      · obtain ⟨a, ha, ha'⟩ := Finset.not_subset.mp hsub
        exact h.orth S.nodup_toList T.nodup_toList (by simpa using ha) (by simpa using ha')
  eig S := by rw [slater_eig hc hH h0, Finset.sum_map_toList]

/-- Two eigenbases of one operator, with labels that are respected by the overlaps: sums over the eigenvalues and labels agree. -/
theorem EigBasis.sum_eq {κ κ' : Type} [Fintype κ] [DecidableEq κ] [Fintype κ'] [DecidableEq κ'] {β : Type} {H : Matrix ι ι ℝ} (hH : Hᵀ = H) {u : κ → ι → ℝ} {E : κ → ℝ} (h : EigBasis H u E) {u' : κ' → ι → ℝ} {E' : κ' → ℝ}
    (h' : EigBasis H u' E') (q : κ → β) (q' : κ' → β) (hq : ∀ a b, q a ≠ q' b → u a ⬝ᵥ u' b = 0) (g : β → ℝ → ℝ) : ∑ a, g (q a) (E a) = ∑ b, g (q' b) (E' b) := by
  have p1 : ∀ a, ∑ b, (u a ⬝ᵥ u' b) ^ 2 = 1 := by
    intro a
    have e := h'.expand (u a)
    have e1 := h.orth a a
    rw [if_pos rfl] at e1
    nth_rewrite 2 [← e] at e1
    rw [dotProduct_sum] at e1
    rw [← e1]
    refine Finset.sum_congr rfl fun b _ => ?_
    rw [dotProduct_smul, smul_eq_mul, sq, dotProduct_comm (u' b)]
  have p2 : ∀ b, ∑ a, (u a ⬝ᵥ u' b) ^ 2 = 1 := by
    intro b
    have e := h.expand (u' b)
    have e1 := h'.orth b b
    rw [if_pos rfl] at e1
    nth_rewrite 2 [← e] at e1
    rw [dotProduct_sum] at e1
    rw [← e1]
    refine Finset.sum_congr rfl fun a _ => ?_
    rw [dotProduct_smul, smul_eq_mul, sq, dotProduct_comm (u' b)]
  have p3 : ∀ a b, (u a ⬝ᵥ u' b) ^ 2 * g (q a) (E a) = (u a ⬝ᵥ u' b) ^ 2 * g (q' b) (E' b) := by
    intro a b
    by_cases h0 : u a ⬝ᵥ u' b = 0
    · rw [h0]; ring
    · have e1 : q a = q' b := by_contra fun hne => h0 (hq a b hne)
      have e2 : E a = E' b := by
        have e3 : H *ᵥ u a ⬝ᵥ u' b = u a ⬝ᵥ H *ᵥ u' b := by
          rw [Matrix.dotProduct_mulVec, ← Matrix.mulVec_transpose, hH]
        rw [h.eig, h'.eig, smul_dotProduct, dotProduct_smul] at e3
        exact mul_right_cancel₀ h0 e3
      rw [e1, e2]
  calc ∑ a, g (q a) (E a) = ∑ a, ∑ b, (u a ⬝ᵥ u' b) ^ 2 * g (q a) (E a) := Finset.sum_congr rfl fun a _ => by rw [← Finset.sum_mul, p1, one_mul]
    _ = ∑ b, ∑ a, (u a ⬝ᵥ u' b) ^ 2 * g (q' b) (E' b) := by
      rw [Finset.sum_comm]
      exact Finset.sum_congr rfl fun b _ => Finset.sum_congr rfl fun a _ => p3 a b
    _ = ∑ b, g (q' b) (E' b) := Finset.sum_congr rfl fun b _ => by rw [← Finset.sum_mul, p2, one_mul]

end
end Edpyt
