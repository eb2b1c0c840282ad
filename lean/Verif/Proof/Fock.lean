import Verif.Spec.Fock
import Mathlib.Tactic.Ring
import Mathlib.Tactic.Abel
/-!
Algebra of the specification operators: matrix elements of products and the canonical
anticommutation relations.
-/
namespace Edpyt.Spec

variable {M : Type*} [Fintype M] [LinearOrder M] {R : Type*} [CommRing R]

theorem sgn_mul_self (i : M) (S : Finset M) : sgn i S * sgn i S = 1 := by
  unfold sgn; rw [← pow_add, ← two_mul, pow_mul]; simp

theorem sgn_cases (i : M) (S : Finset M) : sgn i S = 1 ∨ sgn i S = -1 := by
  unfold sgn; exact neg_one_pow_eq_or ℤ _

theorem sgn_erase_of_gt {i j : M} {S : Finset M} (hj : j ∈ S) (h : i < j) :
    sgn i (S.erase j) = - sgn i S := by
  unfold sgn
  rw [Finset.filter_erase, ← Finset.card_erase_add_one (s := S.filter (fun k => i < k)) (a := j)
    (by simp [hj, h]), pow_succ]
  ring

theorem sgn_erase_of_not_gt {i j : M} {S : Finset M} (h : ¬ i < j) :
    sgn i (S.erase j) = sgn i S := by
  unfold sgn
  rw [Finset.filter_erase, Finset.erase_eq_of_notMem (by simp [h])]

theorem sgn_insert_of_gt {i j : M} {S : Finset M} (hj : j ∉ S) (h : i < j) :
    sgn i (insert j S) = - sgn i S := by
  unfold sgn
  rw [Finset.filter_insert, if_pos h, Finset.card_insert_of_notMem (by simp [hj]), pow_succ]
  ring

theorem sgn_insert_of_not_gt {i j : M} {S : Finset M} (h : ¬ i < j) :
    sgn i (insert j S) = sgn i S := by
  unfold sgn
  rw [Finset.filter_insert, if_neg h]

theorem ann_apply (i : M) (T S : Finset M) :
    ann R i T S = if i ∈ S then (if T = S.erase i then ((sgn i S : ℤ) : R) else 0) else 0 := by
  rw [ann, Matrix.of_apply]
  split_ifs <;> simp_all

theorem cre_apply (i : M) (T S : Finset M) :
    cre R i T S = if i ∉ S then (if T = insert i S then ((sgn i S : ℤ) : R) else 0) else 0 := by
  unfold cre ann
  rw [Matrix.transpose_apply, Matrix.of_apply]
  by_cases hi : i ∈ S
  · rw [if_neg, if_neg (by simpa using hi)]
    rintro ⟨-, h⟩
    rw [h] at hi; simp at hi
  · rw [if_pos hi]
    by_cases hT : T = insert i S
    · subst hT
      rw [if_pos rfl, if_pos]
      · rw [sgn_insert_of_not_gt (lt_irrefl i)]
      · simp [Finset.erase_insert hi]
    · rw [if_neg, if_neg hT]
      rintro ⟨h1, h2⟩
      apply hT
      rw [h2, Finset.insert_erase h1]

/-- Applying an operator after annihilation. -/
theorem mul_ann_apply (A : Matrix (Finset M) (Finset M) R) (i : M) (T S : Finset M) :
    (A * ann R i) T S = if i ∈ S then ((sgn i S : ℤ) : R) * A T (S.erase i) else 0 := by
  rw [Matrix.mul_apply]
  by_cases hi : i ∈ S
  · rw [if_pos hi, Finset.sum_eq_single (S.erase i)]
    · rw [ann_apply, if_pos hi, if_pos rfl, mul_comm]
    · intro b _ hb; rw [ann_apply, if_pos hi, if_neg hb, mul_zero]
    · intro h; simp at h
  · rw [if_neg hi]
    apply Finset.sum_eq_zero
    intro b _; rw [ann_apply, if_neg hi, mul_zero]

/-- Applying an operator after creation. -/
theorem mul_cre_apply (A : Matrix (Finset M) (Finset M) R) (i : M) (T S : Finset M) :
    (A * cre R i) T S = if i ∉ S then ((sgn i S : ℤ) : R) * A T (insert i S) else 0 := by
  rw [Matrix.mul_apply]
  by_cases hi : i ∉ S
  · rw [if_pos hi, Finset.sum_eq_single (insert i S)]
    · rw [cre_apply, if_pos hi, if_pos rfl, mul_comm]
    · intro b _ hb; rw [cre_apply, if_pos hi, if_neg hb, mul_zero]
    · intro h; simp at h
  · rw [if_neg hi]
    apply Finset.sum_eq_zero
    intro b _; rw [cre_apply, if_neg hi, mul_zero]

theorem num_apply (i : M) (T S : Finset M) :
    num R i T S = if i ∈ S then (if T = S then 1 else 0) else 0 := by
  unfold num
  rw [mul_ann_apply]
  split_ifs with h1 h2
  · rw [cre_apply, if_pos (by simp), Finset.insert_erase h1, if_pos h2,
      sgn_erase_of_not_gt (lt_irrefl i), ← Int.cast_mul, sgn_mul_self]; simp
  · rw [cre_apply, if_pos (by simp), Finset.insert_erase h1, if_neg h2, mul_zero]
  · rfl

theorem mul_num_apply (A : Matrix (Finset M) (Finset M) R) (i : M) (T S : Finset M) :
    (A * num R i) T S = if i ∈ S then A T S else 0 := by
  rw [Matrix.mul_apply]
  rw [Finset.sum_eq_single S]
  · rw [num_apply, if_pos rfl]; split_ifs <;> simp
  · intro b _ hb; rw [num_apply, if_neg hb]; simp
  · intro h; simp at h

/-- `{c_i, c_j} = 0`. -/
theorem ann_anticomm (i j : M) : ann R i * ann R j + ann R j * ann R i = 0 := by
  ext T S
  rw [Matrix.add_apply, mul_ann_apply, mul_ann_apply, Matrix.zero_apply, ann_apply, ann_apply]
  rcases lt_trichotomy i j with h | h | h
  · by_cases hi : i ∈ S <;> by_cases hj : j ∈ S
    · have e1 : i ∈ S.erase j := by simp [hi, ne_of_lt h]
      have e2 : j ∈ S.erase i := by simp [hj, ne_of_gt h]
      rw [if_pos hj, if_pos e1, if_pos hi, if_pos e2, sgn_erase_of_gt hj h,
        sgn_erase_of_not_gt (not_lt.mpr h.le), Finset.erase_right_comm]
      split_ifs
      · push_cast; ring
      · simp
    · simp [hj]
    · simp [hi]
    · simp [hi, hj]
  · subst h; simp
  · by_cases hi : i ∈ S <;> by_cases hj : j ∈ S
    · have e1 : i ∈ S.erase j := by simp [hi, ne_of_gt h]
      have e2 : j ∈ S.erase i := by simp [hj, ne_of_lt h]
      rw [if_pos hj, if_pos e1, if_pos hi, if_pos e2, sgn_erase_of_gt hi h,
        sgn_erase_of_not_gt (not_lt.mpr h.le), Finset.erase_right_comm]
      split_ifs
      · push_cast; ring
      · simp
    · simp [hj]
    · simp [hi]
    · simp [hi, hj]

/-- `{c_i^+, c_j^+} = 0`. -/
theorem cre_anticomm (i j : M) : cre R i * cre R j + cre R j * cre R i = 0 := by
  have h := congrArg Matrix.transpose (ann_anticomm (R := R) j i)
  rw [Matrix.transpose_add, Matrix.transpose_mul, Matrix.transpose_mul, Matrix.transpose_zero] at h
  exact h

/-- `{c_i, c_j^+} = δ_ij`. -/
theorem ann_cre_anticomm (i j : M) :
    ann R i * cre R j + cre R j * ann R i = if i = j then 1 else 0 := by
  ext T S
  rw [Matrix.add_apply, mul_ann_apply, mul_cre_apply, ann_apply, cre_apply]
  by_cases hij : i = j
  · subst hij
    rw [if_pos rfl]
    by_cases hi : i ∈ S
    · rw [if_neg (by simpa using hi), if_pos hi, if_pos (by simp), Finset.insert_erase hi,
        sgn_erase_of_not_gt (lt_irrefl i), zero_add, Matrix.one_apply]
      split_ifs
      · rw [← Int.cast_mul, sgn_mul_self]; simp
      · simp
    · rw [if_pos hi, if_neg hi, if_pos (by simp), Finset.erase_insert hi,
        sgn_insert_of_not_gt (lt_irrefl i), add_zero, Matrix.one_apply]
      split_ifs
      · rw [← Int.cast_mul, sgn_mul_self]; simp
      · simp
  · rw [if_neg hij, Matrix.zero_apply]
    by_cases hi : i ∈ S <;> by_cases hj : j ∈ S
    · have : ¬ j = i := fun h => hij h.symm
      simp [hj, this]
    · have e1 : i ∈ insert j S := by simp [hi]
      have e2 : j ∉ S.erase i := by simp [hj]
      have e3 : (insert j S).erase i = insert j (S.erase i) :=
        Finset.erase_insert_of_ne (fun h => hij h.symm)
      rw [if_pos hj, if_pos e1, if_pos hi, if_pos e2, e3]
      rcases lt_or_gt_of_ne hij with h | h
      · rw [sgn_insert_of_gt hj h, sgn_erase_of_not_gt (not_lt.mpr h.le)]
        split_ifs
        · push_cast; ring
        · simp
      · rw [sgn_insert_of_not_gt (not_lt.mpr h.le), sgn_erase_of_gt hi h]
        split_ifs
        · push_cast; ring
        · simp
    · simp [hi, hj]
    · simp [hi, hj, hij]

end Edpyt.Spec
