import Verif.Proof.Eom
import Verif.Props.Matvec
import Verif.Spec.Background
import Mathlib.Tactic.Module
/-!
The sum `Σ_m c†_m [c_m, X]` counts the annihilators of a normal ordered `X`.
-/
namespace Edpyt
open Matrix Spec

section algebra
variable {M : Type} [Fintype M] [LinearOrder M]

/-- `Σ_m c†_m [c_m, X]`. -/
def annCount (X : Matrix (Finset M) (Finset M) ℝ) : Matrix (Finset M) (Finset M) ℝ := ∑ m, cre ℝ m * (ann ℝ m * X - X * ann ℝ m)

theorem annCount_add (X Y : Matrix (Finset M) (Finset M) ℝ) : annCount (X + Y) = annCount X + annCount Y := by
  unfold annCount
  rw [← Finset.sum_add_distrib]
  exact Finset.sum_congr rfl fun m _ => by noncomm_ring

theorem annCount_smul (c : ℝ) (X : Matrix (Finset M) (Finset M) ℝ) : annCount (c • X) = c • annCount X := by
  unfold annCount
  rw [Finset.smul_sum]
  refine Finset.sum_congr rfl fun m _ => ?_
  rw [Matrix.mul_smul, Matrix.smul_mul, ← smul_sub, Matrix.mul_smul]

theorem annCount_sum {σ : Type} (s : Finset σ) (X : σ → Matrix (Finset M) (Finset M) ℝ) : annCount (∑ i ∈ s, X i) = ∑ i ∈ s, annCount (X i) := by
  classical
  induction s using Finset.induction_on with
  | empty => simp [annCount]
  | insert i s hi ih => rw [Finset.sum_insert hi, Finset.sum_insert hi, annCount_add, ih]

theorem annCount_sub (X Y : Matrix (Finset M) (Finset M) ℝ) : annCount (X - Y) = annCount X - annCount Y := by
  rw [sub_eq_add_neg, annCount_add, ← neg_one_smul ℝ Y, annCount_smul, neg_one_smul, ← sub_eq_add_neg]

theorem annCount_one : annCount (1 : Matrix (Finset M) (Finset M) ℝ) = 0 := by
  simp [annCount]

theorem annCount_hop (i j : M) : annCount (cre ℝ i * ann ℝ j) = cre ℝ i * ann ℝ j := by
  unfold annCount
  simp only [ann_comm_pair]
  rw [Finset.sum_eq_single i (fun m _ hm => by rw [if_neg hm, Matrix.mul_zero]) (by simp), if_pos rfl]

theorem annCount_num (i : M) : annCount (num ℝ i) = num ℝ i := annCount_hop i i

theorem annCount_quartic (a b c d : M) : annCount (cre ℝ a * cre ℝ b * ann ℝ c * ann ℝ d) = (2 : ℝ) • (cre ℝ a * cre ℝ b * ann ℝ c * ann ℝ d) := by
  have h : ∀ m, ann ℝ m * (cre ℝ a * cre ℝ b * ann ℝ c * ann ℝ d) - cre ℝ a * cre ℝ b * ann ℝ c * ann ℝ d * ann ℝ m =
      (if m = a then cre ℝ b else 0) * ann ℝ c * ann ℝ d - (if m = b then cre ℝ a else 0) * ann ℝ c * ann ℝ d := fun m => by
    have h1 : (ann ℝ m * cre ℝ a + cre ℝ a * ann ℝ m) * cre ℝ b = if m = a then cre ℝ b else 0 := by rw [ann_cre_anticomm]; split_ifs <;> simp
    have h2 : cre ℝ a * (ann ℝ m * cre ℝ b + cre ℝ b * ann ℝ m) = if m = b then cre ℝ a else 0 := by rw [ann_cre_anticomm]; split_ifs <;> simp
    have h3 := ann_anticomm (R := ℝ) m c
    have h4 := ann_anticomm (R := ℝ) m d
    have : ann ℝ m * (cre ℝ a * cre ℝ b * ann ℝ c * ann ℝ d) - cre ℝ a * cre ℝ b * ann ℝ c * ann ℝ d * ann ℝ m =
        (ann ℝ m * cre ℝ a + cre ℝ a * ann ℝ m) * cre ℝ b * ann ℝ c * ann ℝ d - cre ℝ a * (ann ℝ m * cre ℝ b + cre ℝ b * ann ℝ m) * ann ℝ c * ann ℝ d +
          cre ℝ a * cre ℝ b * (ann ℝ m * ann ℝ c + ann ℝ c * ann ℝ m) * ann ℝ d - cre ℝ a * cre ℝ b * ann ℝ c * (ann ℝ m * ann ℝ d + ann ℝ d * ann ℝ m) := by noncomm_ring
    rw [this, h1, h2, h3, h4]
    simp
  unfold annCount
  simp only [h, Matrix.mul_sub, Finset.sum_sub_distrib]
  rw [Finset.sum_eq_single a (fun m _ hm => by rw [if_neg hm]; simp) (by simp), Finset.sum_eq_single b (fun m _ hm => by rw [if_neg hm]; simp) (by simp), if_pos rfl, if_pos rfl]
  have h5 := cre_anticomm (R := ℝ) b a
  have : cre ℝ a * (cre ℝ b * ann ℝ c * ann ℝ d) - cre ℝ b * (cre ℝ a * ann ℝ c * ann ℝ d) =
      (2 : ℝ) • (cre ℝ a * cre ℝ b * ann ℝ c * ann ℝ d) - (cre ℝ b * cre ℝ a + cre ℝ a * cre ℝ b) * ann ℝ c * ann ℝ d := by
    rw [two_smul]; noncomm_ring
  rw [this, h5]
  simp

theorem annCount_num_num {a b : M} (h : a ≠ b) : annCount (num ℝ a * num ℝ b) = (2 : ℝ) • (num ℝ a * num ℝ b) := by
  have e : num ℝ a * num ℝ b = cre ℝ a * cre ℝ b * ann ℝ b * ann ℝ a := by
    unfold num
    have h1 := ann_cre_anticomm (R := ℝ) a b
    rw [if_neg h] at h1
    have h2 := ann_anticomm (R := ℝ) a b
    have : cre ℝ a * ann ℝ a * (cre ℝ b * ann ℝ b) = cre ℝ a * cre ℝ b * ann ℝ b * ann ℝ a + cre ℝ a * (ann ℝ a * cre ℝ b + cre ℝ b * ann ℝ a) * ann ℝ b -
        cre ℝ a * cre ℝ b * (ann ℝ a * ann ℝ b + ann ℝ b * ann ℝ a) := by noncomm_ring
    rw [this, h1, h2]
    simp
  rw [e, annCount_quartic]

end algebra

section
variable {n : ℕ}

theorem annCount_kinetic (t : Bool → Fin n → Fin n → ℝ) : annCount (kinetic t) = kinetic t := by
  unfold kinetic
  simp only [annCount_sum, annCount_smul, annCount_hop]

theorem annCount_exchangeSame (J : Fin n → Fin n → ℝ) : annCount (exchangeSame J) = (2 : ℝ) • exchangeSame J := by
  unfold exchangeSame
  simp only [annCount_sum, annCount_smul, annCount_quartic, Finset.smul_sum, smul_smul]
  simp only [mul_comm, mul_left_comm]

theorem annCount_exchangeFlip (J : Fin n → Fin n → ℝ) : annCount (exchangeFlip J) = (2 : ℝ) • exchangeFlip J := by
  unfold exchangeFlip
  simp only [annCount_sum, annCount_smul, annCount_quartic, Finset.smul_sum, smul_smul]
  simp only [mul_comm, mul_left_comm]

theorem annCount_pairHopping (J : Fin n → Fin n → ℝ) : annCount (pairHopping J) = (2 : ℝ) • pairHopping J := by
  unfold pairHopping
  simp only [annCount_sum, annCount_smul, annCount_quartic, Finset.smul_sum, smul_smul]
  simp only [mul_comm, mul_left_comm]

/-- A product of two occupations measured from reference values. -/
theorem annCount_shifted {a b : Fin (n + n)} (h : a ≠ b) (x y : ℝ) : annCount ((num ℝ a - x • 1) * (num ℝ b - y • 1)) =
    (2 : ℝ) • ((num ℝ a - x • 1) * (num ℝ b - y • 1)) + y • num ℝ a + x • num ℝ b - (2 * (x * y)) • (1 : Matrix _ _ ℝ) := by
  have e : (num ℝ a - x • 1) * (num ℝ b - y • (1 : Matrix _ _ ℝ)) = num ℝ a * num ℝ b - y • num ℝ a - x • num ℝ b + (x * y) • (1 : Matrix _ _ ℝ) := by
    simp only [sub_mul, mul_sub, smul_mul_assoc, mul_smul_comm, one_mul, mul_one, smul_smul]
    module
  rw [e, annCount_add, annCount_sub, annCount_sub, annCount_smul, annCount_smul, annCount_smul, annCount_num, annCount_num, annCount_num_num h, annCount_one, smul_zero]
  module

theorem annCount_site {i j : Fin n} (h : i ≠ j) (x y : ℝ) :
    annCount ((num ℝ (orb false i) + num ℝ (orb true i) - x • 1) * (num ℝ (orb false j) + num ℝ (orb true j) - y • 1)) =
      (2 : ℝ) • ((num ℝ (orb false i) + num ℝ (orb true i) - x • 1) * (num ℝ (orb false j) + num ℝ (orb true j) - y • 1)) +
        y • (num ℝ (orb false i) + num ℝ (orb true i)) + x • (num ℝ (orb false j) + num ℝ (orb true j)) - (2 * (x * y)) • (1 : Matrix _ _ ℝ) := by
  have hne : ∀ s s', orb s i ≠ orb s' j := fun s s' e => h (orb_inj.mp e).2
  have e : (num ℝ (orb false i) + num ℝ (orb true i) - x • 1) * (num ℝ (orb false j) + num ℝ (orb true j) - y • (1 : Matrix _ _ ℝ)) =
      num ℝ (orb false i) * num ℝ (orb false j) + num ℝ (orb false i) * num ℝ (orb true j) + num ℝ (orb true i) * num ℝ (orb false j) + num ℝ (orb true i) * num ℝ (orb true j) -
        y • (num ℝ (orb false i) + num ℝ (orb true i)) - x • (num ℝ (orb false j) + num ℝ (orb true j)) + (x * y) • (1 : Matrix _ _ ℝ) := by
    simp only [sub_mul, mul_sub, add_mul, mul_add, smul_mul_assoc, mul_smul_comm, one_mul, mul_one, smul_smul]
    module
  rw [e]
  simp only [annCount_add, annCount_sub, annCount_smul, annCount_num, annCount_num_num (hne _ _), annCount_one]
  module

theorem annCount_hubbard (hf : Bool) (t : Bool → Fin n → Fin n → ℝ) (z : Fin n → ℝ) (V : Fin n → Fin n → ℝ) (Jx Jp : Option (ℕ → ℕ → ℝ)) :
    annCount (hubbard hf t z V + codeExchange Jx Jp) =
      (2 : ℝ) • (hubbard hf t z V + codeExchange Jx Jp) - kinetic t - ∑ i, bgLevel hf z V i • (num ℝ (orb false i) + num ℝ (orb true i)) - (2 * bgEnergy hf z V) • (1 : Matrix _ _ ℝ) := by
  have hU : annCount (onsiteU hf V) = (2 : ℝ) • onsiteU hf V + ∑ i, (if hf then V i i / 2 else 0) • (num ℝ (orb false i) + num ℝ (orb true i)) -
      (2 * ∑ i, if hf then V i i / 4 else 0) • (1 : Matrix _ _ ℝ) := by
    unfold onsiteU
    rw [annCount_sum, Finset.smul_sum, Finset.mul_sum, Finset.sum_smul, ← Finset.sum_add_distrib, ← Finset.sum_sub_distrib]
    refine Finset.sum_congr rfl fun i _ => ?_
    rw [annCount_smul, annCount_shifted (fun e => by simpa using (orb_inj.mp e).1)]
    cases hf <;> simp only [if_true, if_false, Bool.false_eq_true] <;> module
  have hV : annCount (interSite z V) = (2 : ℝ) • interSite z V + ∑ i, (∑ j, if i ≠ j then (V i j + V j i) / 2 * z j else 0) • (num ℝ (orb false i) + num ℝ (orb true i)) -
      (2 * ∑ i, ∑ j, if i ≠ j then V i j / 2 * z i * z j else 0) • (1 : Matrix _ _ ℝ) := by
    have e1 : ∑ i, (∑ j, if i ≠ j then (V i j + V j i) / 2 * z j else 0) • (num ℝ (orb false i) + num ℝ (orb true i)) =
        ∑ i, ∑ j, ((if i ≠ j then V i j / 2 * z j else 0) • (num ℝ (orb false i) + num ℝ (orb true i)) + (if i ≠ j then V i j / 2 * z i else 0) • (num ℝ (orb false j) + num ℝ (orb true j))) := by
      simp only [Finset.sum_add_distrib]
      have : ∑ i, ∑ j, (if i ≠ j then V i j / 2 * z i else 0) • (num ℝ (orb false j) + num ℝ (orb true j)) =
          ∑ i, ∑ j, (if i ≠ j then V j i / 2 * z j else 0) • (num ℝ (orb false i) + num ℝ (orb true i)) := by
        rw [Finset.sum_comm]
        refine Finset.sum_congr rfl fun i _ => Finset.sum_congr rfl fun j _ => ?_
        simp only [ne_comm]
      rw [this, ← Finset.sum_add_distrib]
      refine Finset.sum_congr rfl fun i _ => ?_
      rw [← Finset.sum_add_distrib, Finset.sum_smul]
      refine Finset.sum_congr rfl fun j _ => ?_
      split_ifs <;> module
    rw [e1]
    unfold interSite
    rw [annCount_smul, annCount_sum, Finset.smul_sum, Finset.smul_sum, Finset.smul_sum, Finset.mul_sum, Finset.sum_smul, ← Finset.sum_add_distrib, ← Finset.sum_sub_distrib]
    refine Finset.sum_congr rfl fun i _ => ?_
    rw [annCount_sum, Finset.smul_sum, Finset.smul_sum, Finset.smul_sum, Finset.mul_sum, Finset.sum_smul, ← Finset.sum_add_distrib, ← Finset.sum_sub_distrib]
    refine Finset.sum_congr rfl fun j _ => ?_
    by_cases hij : i = j
    · simp [hij, annCount]
    · simp only [if_pos hij, ne_eq, not_false_eq_true, if_true]
      rw [annCount_smul, annCount_site hij]
      module
  unfold hubbard codeExchange
  rw [annCount_add, annCount_add, annCount_add, annCount_add, annCount_sub, annCount_kinetic, hU, hV, annCount_exchangeSame, annCount_exchangeFlip, annCount_pairHopping]
  have hb : ∑ i, bgLevel hf z V i • (num ℝ (orb false i) + num ℝ (orb true i)) = -(∑ i, (if hf then V i i / 2 else 0) • (num ℝ (orb false i) + num ℝ (orb true i))) -
      ∑ i, (∑ j, if i ≠ j then (V i j + V j i) / 2 * z j else 0) • (num ℝ (orb false i) + num ℝ (orb true i)) := by
    rw [← Finset.sum_neg_distrib, ← Finset.sum_sub_distrib]
    refine Finset.sum_congr rfl fun i _ => ?_
    unfold bgLevel
    rw [sub_smul, neg_smul]
  have hE : bgEnergy hf z V = (∑ i, if hf then V i i / 4 else 0) + ∑ i, ∑ j, if i ≠ j then V i j / 2 * z i * z j else 0 := by
    unfold bgEnergy; rw [Finset.sum_add_distrib]
  rw [hb, hE]
  module

end
end Edpyt
