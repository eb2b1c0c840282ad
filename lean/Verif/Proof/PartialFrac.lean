import Mathlib.LinearAlgebra.Lagrange
import Mathlib.Algebra.Polynomial.BigOperators
import Mathlib.Algebra.Polynomial.Derivative
import Mathlib.Algebra.BigOperators.Field
import Mathlib.Tactic.FieldSimp
import Mathlib.Tactic.LinearCombination
/-!
Rational functions with simple poles and their inverses.
-/
namespace Edpyt
open Polynomial

variable {K : Type*} [Field K]

/-- `∏_{i<n} (X - p i)`. -/
noncomputable def nodePoly (n : ℕ) (p : ℕ → K) : K[X] := ∏ i ∈ Finset.range n, (X - C (p i))

theorem nodePoly_succ (n : ℕ) (p : ℕ → K) : nodePoly (n + 1) p = nodePoly n p * (X - C (p n)) := by
  rw [nodePoly, Finset.prod_range_succ]; rfl

theorem nodePoly_monic (n : ℕ) (p : ℕ → K) : (nodePoly n p).Monic := monic_prod_of_monic _ _ fun i _ => monic_X_sub_C _

theorem nodePoly_natDegree (n : ℕ) (p : ℕ → K) : (nodePoly n p).natDegree = n := by
  have := natDegree_finset_prod_X_sub_C_eq_card (Finset.range n) p
  rwa [Finset.card_range] at this

theorem nodePoly_coeff_top (n : ℕ) (p : ℕ → K) : (nodePoly n p).coeff n = 1 := by
  have := nodePoly_monic n p
  rwa [Monic, leadingCoeff, nodePoly_natDegree] at this

theorem nodePoly_coeff_gt {n m : ℕ} (p : ℕ → K) (h : n < m) : (nodePoly n p).coeff m = 0 :=
  coeff_eq_zero_of_natDegree_lt (by rwa [nodePoly_natDegree])

theorem nodePoly_coeff_pred (n : ℕ) (p : ℕ → K) : (nodePoly (n + 1) p).coeff n = -∑ i ∈ Finset.range (n + 1), p i := by
  have := prod_X_sub_C_coeff_card_pred (Finset.range (n + 1)) p (by simp)
  simpa [nodePoly] using this

theorem nodePoly_eval (n : ℕ) (p : ℕ → K) (z : K) : (nodePoly n p).eval z = ∏ i ∈ Finset.range n, (z - p i) := by
  simp [nodePoly, eval_prod]

theorem nodePoly_eval_ne {n : ℕ} {p : ℕ → K} {z : K} (h : ∀ i, i < n → z ≠ p i) : (nodePoly n p).eval z ≠ 0 := by
  rw [nodePoly_eval, Finset.prod_ne_zero_iff]
  exact fun i hi => sub_ne_zero.mpr (h i (Finset.mem_range.mp hi))

/-- Logarithmic derivatives. -/
theorem nodePoly_derivs {n : ℕ} {p : ℕ → K} {z : K} (h : ∀ i, i < n → z ≠ p i) :
    (derivative (nodePoly n p)).eval z = (nodePoly n p).eval z * ∑ i ∈ Finset.range n, (z - p i)⁻¹ ∧
    (derivative (derivative (nodePoly n p))).eval z =
      (nodePoly n p).eval z * ((∑ i ∈ Finset.range n, (z - p i)⁻¹) ^ 2 - ∑ i ∈ Finset.range n, (z - p i)⁻¹ ^ 2) := by
  induction n with
  | zero => simp [nodePoly]
  | succ n ih =>
    obtain ⟨h1, h2⟩ := ih fun i hi => h i (by omega)
    have hd : z - p n ≠ 0 := sub_ne_zero.mpr (h n (by omega))
    rw [nodePoly_succ, Finset.sum_range_succ, Finset.sum_range_succ]
    simp only [derivative_mul, derivative_add, derivative_sub, derivative_X, derivative_C, sub_zero, derivative_one, mul_one, mul_zero, add_zero,
      eval_add, eval_mul, eval_sub, eval_X, eval_C, eval_one, h1, h2]
    constructor
    · field_simp
    · field_simp
      ring

variable {n : ℕ} {p e : ℕ → K}

/-- If the `n` distinct values `e` are zeros of the derivative, the derivative is known. -/
theorem derivative_nodePoly (he : Set.InjOn e (Finset.range n)) (hz : ∀ k, k < n → (derivative (nodePoly (n + 1) p)).eval (e k) = 0) :
    derivative (nodePoly (n + 1) p) = C ((n : K) + 1) * nodePoly n e := by
  refine eq_of_degree_sub_lt_of_eval_index_eq (Finset.range n) he ?_ fun k hk => ?_
  · rw [Finset.card_range, degree_lt_iff_coeff_zero]
    intro m hm
    rw [coeff_sub, coeff_derivative, coeff_C_mul]
    rcases hm.eq_or_lt with rfl | hm
    · rw [nodePoly_coeff_top, nodePoly_coeff_top]; ring
    · rw [nodePoly_coeff_gt p (by omega), nodePoly_coeff_gt e hm]; ring
  · rw [hz k (Finset.mem_range.mp hk), eval_mul, nodePoly_eval, Finset.prod_eq_zero hk (sub_self _), mul_zero]

theorem erasePoly_eval (k : ℕ) (z : K) : (∏ j ∈ (Finset.range n).erase k, (X - C (e j))).eval z = ∏ j ∈ (Finset.range n).erase k, (z - e j) := by
  simp [eval_prod]

theorem nodePoly_derivative_node {k : ℕ} (hk : k < n) : (derivative (nodePoly n e)).eval (e k) = ∏ j ∈ (Finset.range n).erase k, (e k - e j) := by
  rw [nodePoly, derivative_prod_finset, eval_finset_sum, Finset.sum_eq_single k]
  · simp [eval_prod]
  · intro a ha hak
    rw [eval_mul, erasePoly_eval, Finset.prod_eq_zero (Finset.mem_erase.mpr ⟨hak.symm, Finset.mem_range.mpr hk⟩) (sub_self _), zero_mul]
  · intro h; exact absurd (Finset.mem_range.mpr hk) h

/-- Division with remainder of the numerator, in partial fractions. -/
theorem nodePoly_division [CharZero K] (he : Set.InjOn e (Finset.range n)) (hz : ∀ k, k < n → (derivative (nodePoly (n + 1) p)).eval (e k) = 0) :
    C ((n : K) + 1) * nodePoly (n + 1) p - (X - C ((∑ i ∈ Finset.range (n + 1), p i) / ((n : K) + 1))) * derivative (nodePoly (n + 1) p) =
      C ((n : K) + 1) * ∑ k ∈ Finset.range n, C ((nodePoly (n + 1) p).eval (e k) / (derivative (nodePoly n e)).eval (e k)) *
        ∏ j ∈ (Finset.range n).erase k, (X - C (e j)) := by
  have hN : (n : K) + 1 ≠ 0 := by exact_mod_cast Nat.succ_ne_zero n
  have hder : ∀ k, k < n → (derivative (nodePoly n e)).eval (e k) ≠ 0 := by
    intro k hk
    rw [nodePoly_derivative_node hk, Finset.prod_ne_zero_iff]
    intro j hj
    rw [Finset.mem_erase] at hj
    exact sub_ne_zero.mpr fun h => hj.1 (he (by simpa using hj.2) (by simpa using hk) h.symm)
  refine eq_of_degree_sub_lt_of_eval_index_eq (Finset.range n) he ?_ fun k hk => ?_
  · refine lt_of_le_of_lt (degree_sub_le _ _) (max_lt ?_ ?_)
    · rw [Finset.card_range, degree_lt_iff_coeff_zero]
      intro m hm
      rw [sub_mul, coeff_sub, coeff_sub, coeff_C_mul, coeff_C_mul, coeff_derivative]
      have hX : (X * derivative (nodePoly (n + 1) p)).coeff m = (m : K) * (nodePoly (n + 1) p).coeff m := by
        rcases m with _ | m
        · simp
        · rw [coeff_X_mul, coeff_derivative]; push_cast; ring
      rw [hX]
      rcases hm.eq_or_lt with rfl | hm
      · rw [nodePoly_coeff_pred, nodePoly_coeff_top]
        field_simp
        ring
      · rw [nodePoly_coeff_gt p (show n + 1 < m + 1 by omega)]
        rcases (Nat.succ_le_iff.mpr hm).eq_or_lt with h | hm
        · rw [← h]; push_cast; ring
        · rw [nodePoly_coeff_gt p hm]; ring
    · rw [Finset.card_range, degree_lt_iff_coeff_zero]
      intro m hm
      rw [coeff_C_mul, finset_sum_coeff, Finset.sum_eq_zero, mul_zero]
      intro k hk
      rw [coeff_C_mul]
      have : (∏ j ∈ (Finset.range n).erase k, (X - C (e j))).natDegree = n - 1 := by
        have := natDegree_finset_prod_X_sub_C_eq_card ((Finset.range n).erase k) e
        rwa [Finset.card_erase_of_mem hk, Finset.card_range] at this
      rw [coeff_eq_zero_of_natDegree_lt, mul_zero]
      rw [this]
      have := Finset.mem_range.mp hk
      omega
  · have hk' := Finset.mem_range.mp hk
    rw [eval_sub, eval_mul, eval_mul, hz k hk', mul_zero, sub_zero, eval_mul, eval_finset_sum, Finset.sum_eq_single k]
    · rw [eval_mul, erasePoly_eval, ← nodePoly_derivative_node hk', eval_C, eval_C, div_mul_cancel₀ _ (hder k hk')]
    · intro a ha hak
      rw [eval_mul, erasePoly_eval, Finset.prod_eq_zero (Finset.mem_erase.mpr ⟨hak.symm, hk⟩) (sub_self _), mul_zero]
    · intro h; exact absurd hk h

/-- The inverse of `1/N Σ 1/(z - p)` in partial fractions: the bath picture. -/
theorem inverse_partial_fractions [CharZero K] (he : Set.InjOn e (Finset.range n)) (hpe : ∀ k, k < n → ∀ i, i < n + 1 → e k ≠ p i)
    (hz : ∀ k, k < n → ∑ i ∈ Finset.range (n + 1), (e k - p i)⁻¹ = 0) {z : K} (hzp : ∀ i, i < n + 1 → z ≠ p i) (hze : ∀ k, k < n → z ≠ e k) :
    (z - (∑ i ∈ Finset.range (n + 1), p i) / ((n : K) + 1) - ∑ k ∈ Finset.range n,
      (-1 / ((∑ i ∈ Finset.range (n + 1), -1 / (e k - p i) ^ 2) / ((n : K) + 1))) * (z - e k)⁻¹)⁻¹ =
      1 / ((n : K) + 1) * ∑ i ∈ Finset.range (n + 1), (z - p i)⁻¹ := by
  have hN : (n : K) + 1 ≠ 0 := by exact_mod_cast Nat.succ_ne_zero n
  have hz' : ∀ k, k < n → (derivative (nodePoly (n + 1) p)).eval (e k) = 0 := fun k hk => by
    rw [(nodePoly_derivs (hpe k hk)).1, hz k hk, mul_zero]
  have hder := derivative_nodePoly he hz'
  have hP := nodePoly_eval_ne hzp
  have hQ := nodePoly_eval_ne hze
  have hdiv := congrArg (eval z) (nodePoly_division he hz')
  have hG : ∑ i ∈ Finset.range (n + 1), (z - p i)⁻¹ = ((n : K) + 1) * (nodePoly n e).eval z / (nodePoly (n + 1) p).eval z := by
    have h1 := (nodePoly_derivs hzp).1
    rw [hder, eval_mul, eval_C] at h1
    rw [h1, mul_div_cancel_left₀ _ hP]
  have hterm : ∀ k ∈ Finset.range n, (-1 / ((∑ i ∈ Finset.range (n + 1), -1 / (e k - p i) ^ 2) / ((n : K) + 1))) * (z - e k)⁻¹ =
      -((nodePoly (n + 1) p).eval (e k) / (derivative (nodePoly n e)).eval (e k) * ∏ j ∈ (Finset.range n).erase k, (z - e j)) / (nodePoly n e).eval z := by
    intro k hk
    have hk' := Finset.mem_range.mp hk
    have hPk := nodePoly_eval_ne (hpe k hk')
    have h2 := (nodePoly_derivs (hpe k hk')).2
    rw [hz k hk', hder, derivative_C_mul, eval_mul, eval_C] at h2
    have h3 : ∑ i ∈ Finset.range (n + 1), -1 / (e k - p i) ^ 2 = -∑ i ∈ Finset.range (n + 1), (e k - p i)⁻¹ ^ 2 := by
      rw [← Finset.sum_neg_distrib]
      exact Finset.sum_congr rfl fun i _ => by rw [inv_pow, neg_div, one_div]
    have h4 : ∑ i ∈ Finset.range (n + 1), -1 / (e k - p i) ^ 2 = ((n : K) + 1) * (derivative (nodePoly n e)).eval (e k) / (nodePoly (n + 1) p).eval (e k) := by
      rw [h3, h2]
      field_simp
      ring
    have h5 : (nodePoly n e).eval z = (z - e k) * ∏ j ∈ (Finset.range n).erase k, (z - e j) := by
      rw [nodePoly_eval, Finset.mul_prod_erase _ (fun j => z - e j) hk]
    have h6 : z - e k ≠ 0 := sub_ne_zero.mpr (hze k hk')
    have h7 : ∏ j ∈ (Finset.range n).erase k, (z - e j) ≠ 0 := right_ne_zero_of_mul (h5 ▸ hQ)
    rw [h4, h5]
    by_cases h8 : (derivative (nodePoly n e)).eval (e k) = 0
    · simp [h8]
    · field_simp
  rw [Finset.sum_congr rfl hterm, ← Finset.sum_div, Finset.sum_neg_distrib, hG]
  simp only [eval_sub, eval_mul, eval_C, eval_X, hder, eval_finset_sum, erasePoly_eval] at hdiv
  set R := ∑ k ∈ Finset.range n, (nodePoly (n + 1) p).eval (e k) / (derivative (nodePoly n e)).eval (e k) * ∏ j ∈ (Finset.range n).erase k, (z - e j)
  have hR : (z - (∑ i ∈ Finset.range (n + 1), p i) / ((n : K) + 1)) * (nodePoly n e).eval z + R = (nodePoly (n + 1) p).eval z := by
    have : ((n : K) + 1) * ((z - (∑ i ∈ Finset.range (n + 1), p i) / ((n : K) + 1)) * (nodePoly n e).eval z + R) = ((n : K) + 1) * (nodePoly (n + 1) p).eval z := by
      linear_combination -hdiv
    exact mul_left_cancel₀ hN this
  set c := (∑ i ∈ Finset.range (n + 1), p i) / ((n : K) + 1)
  have : z - c - -R / (nodePoly n e).eval z = (nodePoly (n + 1) p).eval z / (nodePoly n e).eval z := by
    rw [← hR]
    field_simp
    ring
  rw [this]
  field_simp

end Edpyt
