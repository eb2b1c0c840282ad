import Verif.Props.Filling
import Mathlib.LinearAlgebra.Dimension.Constructions
import Mathlib.LinearAlgebra.FiniteDimensional.Lemmas
import Mathlib.Tactic.NoncommRing
/-!
Spin rotations: the operator that turns one spin `s` around commutes with spin independent Hamiltonians.
-/
namespace Edpyt
open Spec Matrix
variable {n : ℕ}

section
variable {M : Type} [Fintype M] [LinearOrder M] {R : Type} [CommRing R]

theorem ann_cre_swap (i j : M) : ann R i * cre R j = (if i = j then 1 else 0) - cre R j * ann R i := by
  rw [← ann_cre_anticomm i j]; abel

/-- `[c†_a c_b, c†_c c_d] = δ_bc c†_a c_d - δ_ad c†_c c_b`. -/
theorem bilinear_comm (a b c d : M) : (cre R a * ann R b) * (cre R c * ann R d) - (cre R c * ann R d) * (cre R a * ann R b) =
    (if b = c then cre R a * ann R d else 0) - (if d = a then cre R c * ann R b else 0) := by
  have h1 : (cre R a * ann R b) * (cre R c * ann R d) = (if b = c then cre R a * ann R d else 0) - cre R a * cre R c * (ann R b * ann R d) := by
    have : (cre R a * ann R b) * (cre R c * ann R d) = cre R a * (ann R b * cre R c) * ann R d := by simp only [Matrix.mul_assoc]
    rw [this, ann_cre_swap, Matrix.mul_sub, Matrix.sub_mul]
    congr 1
    · split_ifs <;> simp
    · simp only [Matrix.mul_assoc]
  have h2 : (cre R c * ann R d) * (cre R a * ann R b) = (if d = a then cre R c * ann R b else 0) - cre R c * cre R a * (ann R d * ann R b) := by
    have : (cre R c * ann R d) * (cre R a * ann R b) = cre R c * (ann R d * cre R a) * ann R b := by simp only [Matrix.mul_assoc]
    rw [this, ann_cre_swap, Matrix.mul_sub, Matrix.sub_mul]
    congr 1
    · split_ifs <;> simp
    · simp only [Matrix.mul_assoc]
  have h3 : cre R c * cre R a * (ann R d * ann R b) = cre R a * cre R c * (ann R b * ann R d) := by
    rw [eq_neg_of_add_eq_zero_left (cre_anticomm (R := R) c a), eq_neg_of_add_eq_zero_left (ann_anticomm (R := R) d b), neg_mul_neg]
  rw [h1, h2, h3]; abel
end

/-- `Σ_s c†_is c_js`. -/
def hop (i j : Fin n) : Matrix (Finset (Fin (n + n))) (Finset (Fin (n + n))) ℝ := ∑ s : Bool, cre ℝ (orb s i) * ann ℝ (orb s j)

/-- The operator that turns an electron of spin `s` into one of the opposite spin. -/
def spinTurn (s : Bool) : Matrix (Finset (Fin (n + n))) (Finset (Fin (n + n))) ℝ := ∑ k : Fin n, cre ℝ (orb (!s) k) * ann ℝ (orb s k)

theorem hop_comm (s : Bool) (i j : Fin n) : Commute (hop i j) (spinTurn s) := by
  refine sub_eq_zero.mp ?_
  unfold hop spinTurn
  rw [Finset.sum_mul_sum, Finset.sum_mul_sum, Finset.sum_comm (s := (Finset.univ : Finset (Fin n))), ← Finset.sum_sub_distrib]
  simp only [← Finset.sum_sub_distrib, bilinear_comm, orb_inj]
  simp only [Finset.sum_sub_distrib, ite_and, Finset.sum_ite_irrel, Finset.sum_const_zero, Finset.sum_ite_eq, Finset.mem_univ, if_true]
  cases s <;> simp


theorem num_eq_hop (i : Fin n) : num ℝ (orb false i) + num ℝ (orb true i) = hop i i := by
  unfold hop num
  rw [Fintype.sum_bool]
  exact add_comm _ _

theorem num_mul_self (m : Fin (n + n)) : num ℝ m * num ℝ m = num ℝ m := by
  rw [num_diagonal, Matrix.diagonal_mul_diagonal]
  congr 1
  funext S
  split_ifs <;> simp

theorem double_occ (i : Fin n) : num ℝ (orb false i) * num ℝ (orb true i) = (1 / 2 : ℝ) • (hop i i * hop i i - hop i i) := by
  rw [← num_eq_hop, Matrix.add_mul, Matrix.mul_add, Matrix.mul_add, num_mul_self, num_mul_self, num_mul_comm (orb true i)]
  have : ∀ A B C : Matrix (Finset (Fin (n + n))) (Finset (Fin (n + n))) ℝ, A + C + (C + B) - (A + B) = (2 : ℝ) • C := fun A B C => by rw [two_smul]; abel
  rw [this, smul_smul]; norm_num

theorem kinetic_comm (s : Bool) {t : Bool → Fin n → Fin n → ℝ} (ht : t false = t true) : Commute (kinetic t) (spinTurn s) := by
  have : kinetic t = ∑ i, ∑ j, t true i j • hop i j := by
    unfold kinetic hop
    rw [Finset.sum_comm]
    refine Finset.sum_congr rfl fun i _ => ?_
    rw [Finset.sum_comm]
    refine Finset.sum_congr rfl fun j _ => ?_
    rw [Finset.smul_sum]
    refine Finset.sum_congr rfl fun b _ => ?_
    cases b
    · rw [ht]
    · rfl
  rw [this]
  exact Commute.sum_left _ _ _ fun i _ => Commute.sum_left _ _ _ fun j _ => (hop_comm s i j).smul_left _

theorem onsite_comm (s hf : Bool) (V : Fin n → Fin n → ℝ) : Commute (onsiteU hf V) (spinTurn s) := by
  unfold onsiteU
  refine Commute.sum_left _ _ _ fun i _ => Commute.smul_left ?_ _
  generalize (if hf then 1 / 2 else 0 : ℝ) = c
  have : (num ℝ (orb false i) - c • 1) * (num ℝ (orb true i) - c • 1) = (1 / 2 : ℝ) • (hop i i * hop i i - hop i i) - c • hop i i + (c * c) • 1 := by
    rw [← double_occ, ← num_eq_hop, Matrix.sub_mul, Matrix.mul_sub, Matrix.mul_sub]
    simp only [Matrix.smul_mul, Matrix.mul_smul, Matrix.one_mul, Matrix.mul_one, smul_add, smul_smul]
    abel
  rw [this]
  have h := hop_comm s i i
  exact ((((h.mul_left h).sub_left h).smul_left _).sub_left (h.smul_left _)).add_left ((Commute.one_left _).smul_left _)

theorem inter_comm (s : Bool) (z : Fin n → ℝ) (V : Fin n → Fin n → ℝ) : Commute (interSite z V) (spinTurn s) := by
  unfold interSite
  refine Commute.smul_left (Commute.sum_left _ _ _ fun i _ => Commute.sum_left _ _ _ fun j _ => Commute.smul_left ?_ _) _
  rw [num_eq_hop, num_eq_hop]
  exact ((hop_comm s i i).sub_left ((Commute.one_left _).smul_left _)).mul_left ((hop_comm s j j).sub_left ((Commute.one_left _).smul_left _))

/-- `Σ_s c†_is c†_i-s c_j-s c_js = (Σ_s c†_is c_js)²` for two different sites. -/
theorem pair_hop {i j : Fin n} (h : i ≠ j) : ∑ s : Bool, (cre ℝ (orb s i) * cre ℝ (orb (!s) i) * ann ℝ (orb (!s) j) * ann ℝ (orb s j)) = hop i j * hop i j := by
  have key : ∀ s s' : Bool, cre ℝ (orb s i) * cre ℝ (orb s' i) * ann ℝ (orb s' j) * ann ℝ (orb s j) = (cre ℝ (orb s i) * ann ℝ (orb s j)) * (cre ℝ (orb s' i) * ann ℝ (orb s' j)) := fun s s' => by
    have e : (cre ℝ (orb s i) * ann ℝ (orb s j)) * (cre ℝ (orb s' i) * ann ℝ (orb s' j)) = cre ℝ (orb s i) * (ann ℝ (orb s j) * cre ℝ (orb s' i)) * ann ℝ (orb s' j) := by simp only [Matrix.mul_assoc]
    rw [e, ann_cre_swap, if_neg (by rw [orb_inj]; exact fun hc => h hc.2.symm), zero_sub]
    have e2 : cre ℝ (orb s i) * -(cre ℝ (orb s' i) * ann ℝ (orb s j)) * ann ℝ (orb s' j) = -(cre ℝ (orb s i) * cre ℝ (orb s' i) * (ann ℝ (orb s j) * ann ℝ (orb s' j))) := by
      rw [Matrix.mul_neg, Matrix.neg_mul]; simp only [Matrix.mul_assoc]
    rw [e2, eq_neg_of_add_eq_zero_left (ann_anticomm (R := ℝ) (orb s j) (orb s' j)), Matrix.mul_neg, neg_neg, Matrix.mul_assoc]
  have z0 : ∀ s : Bool, (cre ℝ (orb s i) * ann ℝ (orb s j)) * (cre ℝ (orb s i) * ann ℝ (orb s j)) = 0 := fun s => by
    rw [← key]
    have := cre_anticomm (R := ℝ) (orb s i) (orb s i)
    have h2 : (2 : ℝ) • (cre ℝ (orb s i) * cre ℝ (orb s i)) = 0 := (two_smul ℝ _).trans this
    rw [(smul_eq_zero.mp h2).resolve_left two_ne_zero]; simp
  unfold hop
  rw [Finset.sum_mul_sum]
  simp only [key, Fintype.sum_bool, z0, Bool.not_true, Bool.not_false]
  abel

theorem pair_comm (s : Bool) (A : ℕ → ℕ → ℝ) : Commute (pairHopping (offdiag (n := n) A)) (spinTurn s) := by
  unfold pairHopping
  refine Commute.smul_left (Commute.sum_left _ _ _ fun i _ => Commute.sum_left _ _ _ fun j _ => ?_) _
  by_cases h : i = j
  · subst h
    have : offdiag (n := n) A i i = 0 := by simp [offdiag]
    rw [this, zero_smul]; exact Commute.zero_left _
  · rw [pair_hop h]
    exact ((hop_comm s i j).mul_left (hop_comm s i j)).smul_left _

theorem spinTurn_transpose (s : Bool) : (spinTurn (n := n) s)ᵀ = spinTurn (!s) := by
  unfold spinTurn
  rw [Matrix.transpose_sum]
  refine Finset.sum_congr rfl fun k _ => ?_
  rw [Matrix.transpose_mul]
  rw [Bool.not_not]; rfl

/-- `S⁺S⁻ - S⁻S⁺` counts the electrons of the one spin minus those of the other. -/
theorem spinTurn_comm (s : Bool) : spinTurn (n := n) (!s) * spinTurn s = spinTurn s * spinTurn (!s) + (∑ i : Fin n, num ℝ (orb s i) - ∑ i : Fin n, num ℝ (orb (!s) i)) := by
  rw [← sub_eq_iff_eq_add']
  unfold spinTurn
  rw [Finset.sum_mul_sum, Finset.sum_mul_sum, Finset.sum_comm (s := (Finset.univ : Finset (Fin n))), ← Finset.sum_sub_distrib]
  simp only [← Finset.sum_sub_distrib, bilinear_comm, orb_inj, Bool.not_not]
  simp only [true_and, Finset.sum_sub_distrib, Finset.sum_ite_eq, Finset.sum_ite_eq', Finset.mem_univ, if_true]
  rfl

theorem grade_spinTurn (s : Bool) : Grade (spinTurn (n := n) s) fun b => if b = s then -1 else 1 := by
  unfold spinTurn
  refine Grade.sum fun k _ => ((grade_cre (!s) k).mul (grade_ann s k)).of_eq fun b => ?_
  cases s <;> cases b <;> simp

theorem num_sum_vec (s : Bool) {c : ℤ} {x : Finset (Fin (n + n)) → ℝ} (h : ∀ S, x S ≠ 0 → spinCount s S = c) : (∑ i : Fin n, num ℝ (orb s i)) *ᵥ x = (c : ℝ) • x := by
  have e : ∑ i : Fin n, num ℝ (orb s i) = Matrix.diagonal fun S : Finset (Fin (n + n)) => ((spinCount s S : ℤ) : ℝ) := by
    simp only [num_diagonal]
    rw [diagonal_sum]
    congr 1
    funext S
    rw [spinCount]
    cases s <;> simp [orb, upPart, dwPart]
  rw [e]
  funext S
  rw [Matrix.mulVec_diagonal, Pi.smul_apply, smul_eq_mul]
  by_cases hx : x S = 0
  · rw [hx, mul_zero, mul_zero]
  · rw [h S hx]

/-- Turning a spin of the majority is injective. -/
theorem spinTurn_inj (s : Bool) {c d : ℤ} {x : Finset (Fin (n + n)) → ℝ} (hc : ∀ S, x S ≠ 0 → spinCount s S = c) (hd : ∀ S, x S ≠ 0 → spinCount (!s) S = d) (hcd : d < c)
    (h0 : spinTurn s *ᵥ x = 0) : x = 0 := by
  have h1 : x ⬝ᵥ (spinTurn (!s) * spinTurn s) *ᵥ x = 0 := by rw [← Matrix.mulVec_mulVec, h0, Matrix.mulVec_zero, dotProduct_zero]
  rw [spinTurn_comm, Matrix.add_mulVec, Matrix.sub_mulVec, num_sum_vec s hc, num_sum_vec (!s) hd, dotProduct_add, ← Matrix.mulVec_mulVec, Matrix.dotProduct_mulVec,
    ← Matrix.mulVec_transpose, spinTurn_transpose, ← sub_smul, dotProduct_smul, smul_eq_mul] at h1
  have h2 : 0 ≤ spinTurn (!s) *ᵥ x ⬝ᵥ spinTurn (!s) *ᵥ x := Finset.sum_nonneg fun S _ => mul_self_nonneg _
  have h3 : 0 ≤ x ⬝ᵥ x := Finset.sum_nonneg fun S _ => mul_self_nonneg _
  have h4 : (0 : ℝ) < (c : ℝ) - d := by exact_mod_cast sub_pos.mpr hcd
  have h5 : x ⬝ᵥ x = 0 := by nlinarith [mul_nonneg h4.le h3]
  exact dotProduct_self_eq_zero.mp h5

end Edpyt
