import Mathlib.Analysis.SpecialFunctions.Trigonometric.Series
import Mathlib.Topology.Algebra.Order.Floor
import Mathlib.Tactic.Ring
import Mathlib.Tactic.Linarith
import Mathlib.Tactic.FieldSimp
import Mathlib.Tactic.Positivity

/-! The continued fraction of the hyperbolic tangent and the error of its convergents. -/

namespace Edpyt

noncomputable section

/-- `1 / ((2k+1) + y² / ((2k+3) + y² / ...))` with `m` levels. -/
def tanhFrac (y : ℝ) : ℕ → ℕ → ℝ
  | 0, _ => 0
  | m + 1, k => 1 / ((2 * (k : ℝ) + 1) + y ^ 2 * tanhFrac y m (k + 1))

theorem tanhFrac_nonneg (y : ℝ) (m k : ℕ) : 0 ≤ tanhFrac y m k := by
  induction m generalizing k with
  | zero => exact le_rfl
  | succ m ih => unfold tanhFrac; have := ih (k + 1); positivity

/-- Coefficients of the auxiliary series. -/
def qc (k j : ℕ) : ℝ := 2 ^ k * ((j + k).factorial : ℝ) / ((j.factorial : ℝ) * ((2 * j + 2 * k).factorial : ℝ))

theorem qc_pos (k j : ℕ) : 0 < qc k j := by
  unfold qc; positivity

theorem qc_zero (k : ℕ) : qc k 0 = (2 * k + 1) * qc (k + 1) 0 := by
  unfold qc
  have h1 : (2 * 0 + 2 * (k + 1)).factorial = (2 * k + 2) * ((2 * k + 1) * (2 * k).factorial) := by
    rw [show 2 * 0 + 2 * (k + 1) = (2 * k + 1) + 1 by ring, Nat.factorial_succ, Nat.factorial_succ]
  have h2 : (0 + (k + 1)).factorial = (k + 1) * k.factorial := by rw [Nat.zero_add, Nat.factorial_succ]
  rw [h1, h2, show 2 * 0 + 2 * k = 2 * k by ring, Nat.zero_add]
  push_cast
  have := Nat.factorial_ne_zero k
  have := Nat.factorial_ne_zero (2 * k)
  field_simp
  ring

theorem qc_succ (k j : ℕ) : qc k (j + 1) = (2 * k + 1) * qc (k + 1) (j + 1) + qc (k + 2) j := by
  unfold qc
  have h1 : (2 * (j + 1) + 2 * (k + 1)).factorial = (2 * j + 2 * k + 4) * ((2 * j + 2 * k + 3) * (2 * (j + 1) + 2 * k).factorial) := by
    rw [show 2 * (j + 1) + 2 * (k + 1) = (2 * (j + 1) + 2 * k + 1) + 1 by ring, Nat.factorial_succ, Nat.factorial_succ]
    ring
  have h2 : (j + 1 + (k + 1)).factorial = (j + k + 2) * (j + 1 + k).factorial := by
    rw [show j + 1 + (k + 1) = (j + 1 + k) + 1 by ring, Nat.factorial_succ]; ring
  have h3 : (j + (k + 2)).factorial = (j + k + 2) * (j + 1 + k).factorial := by
    rw [show j + (k + 2) = (j + 1 + k) + 1 by ring, Nat.factorial_succ]; ring
  have h4 : (2 * j + 2 * (k + 2)).factorial = (2 * j + 2 * k + 4) * ((2 * j + 2 * k + 3) * (2 * (j + 1) + 2 * k).factorial) := by
    rw [← h1]; congr 1; ring
  rw [h1, h2, h3, h4, Nat.factorial_succ j]
  push_cast
  have := Nat.factorial_ne_zero j
  have := Nat.factorial_ne_zero (2 * (j + 1) + 2 * k)
  have := Nat.factorial_ne_zero (j + 1 + k)
  field_simp
  ring

theorem qc_le (k j : ℕ) : qc (k + 1) j ≤ qc k j := by
  have h : (1 : ℝ) ≤ 2 * k + 1 := by have : (0 : ℝ) ≤ k := Nat.cast_nonneg k; linarith
  have := qc_pos (k + 1) j
  cases j with
  | zero => rw [qc_zero k]; nlinarith
  | succ j => rw [qc_succ k]; have := qc_pos (k + 2) j; nlinarith

/-- The auxiliary function. -/
def Qf (k : ℕ) (y : ℝ) : ℝ := ∑' j, qc k j * y ^ (2 * j)

theorem qc_cosh (y : ℝ) : HasSum (fun j => qc 0 j * y ^ (2 * j)) (Real.cosh y) := by
  convert Real.hasSum_cosh y using 1
  funext j
  unfold qc
  have := Nat.factorial_ne_zero j
  simp
  field_simp

theorem qc_sinh (y : ℝ) : HasSum (fun j => y * (qc 1 j * y ^ (2 * j))) (Real.sinh y) := by
  convert Real.hasSum_sinh y using 1
  funext j
  unfold qc
  rw [show 2 * j + 2 * 1 = (2 * j + 1) + 1 by ring, Nat.factorial_succ (2 * j + 1), Nat.factorial_succ j]
  have := Nat.factorial_ne_zero j
  push_cast
  field_simp
  ring

theorem qc_summable (k : ℕ) (y : ℝ) : Summable fun j => qc k j * y ^ (2 * j) := by
  induction k with
  | zero => exact (qc_cosh y).summable
  | succ k ih =>
    refine Summable.of_nonneg_of_le (fun j => ?_) (fun j => ?_) ih
    · have := qc_pos (k + 1) j; rw [pow_mul]; positivity
    · have : 0 ≤ y ^ (2 * j) := by rw [pow_mul]; positivity
      exact mul_le_mul_of_nonneg_right (qc_le k j) this

theorem Qf_zero (y : ℝ) : Qf 0 y = Real.cosh y := (qc_cosh y).tsum_eq

theorem Qf_one (y : ℝ) : y * Qf 1 y = Real.sinh y := by
  rw [← (qc_sinh y).tsum_eq, tsum_mul_left]; rfl

theorem Qf_pos (k : ℕ) (y : ℝ) : 0 < Qf k y := by
  refine (qc_summable k y).tsum_pos (fun j => ?_) 0 (by simpa using qc_pos k 0)
  have := qc_pos k j; rw [pow_mul]; positivity

theorem Qf_rec (k : ℕ) (y : ℝ) : Qf k y = (2 * k + 1) * Qf (k + 1) y + y ^ 2 * Qf (k + 2) y := by
  unfold Qf
  have e1 := (qc_summable k y).tsum_eq_zero_add
  have e2 := (qc_summable (k + 1) y).tsum_eq_zero_add
  have s2 := (summable_nat_add_iff 1).mpr (qc_summable (k + 1) y)
  rw [e1, e2, qc_zero k, mul_add, ← tsum_mul_left, ← tsum_mul_left, add_assoc,
    ← (s2.mul_left (2 * (k : ℝ) + 1)).tsum_add ((qc_summable (k + 2) y).mul_left (y ^ 2))]
  congr 1
  · ring
  · congr 1
    funext j
    rw [qc_succ k]; ring

/-- `Qf (k+1) / Qf k` is the value of the infinite continued fraction from level `k` on. -/
theorem Qf_ratio (k : ℕ) (y : ℝ) : Qf (k + 1) y / Qf k y = 1 / ((2 * k + 1) + y ^ 2 * (Qf (k + 2) y / Qf (k + 1) y)) := by
  have h1 := Qf_pos (k + 1) y
  rw [Qf_rec k]
  field_simp

theorem Qf_ratio_le (k : ℕ) (y : ℝ) : Qf (k + 1) y / Qf k y ≤ 1 / (2 * k + 1) := by
  rw [Qf_ratio]
  have h1 := Qf_pos (k + 1) y
  have h2 := Qf_pos (k + 2) y
  apply one_div_le_one_div_of_le
  · positivity
  · have : 0 ≤ y ^ 2 * (Qf (k + 2) y / Qf (k + 1) y) := by positivity
    linarith

theorem tanhFrac_err (y : ℝ) (m k : ℕ) :
    |tanhFrac y m k - Qf (k + 1) y / Qf k y| ≤ (∏ j ∈ Finset.range m, y ^ 2 / (2 * (k + j : ℝ) + 1) ^ 2) * (1 / (2 * (k + m : ℝ) + 1)) := by
  induction m generalizing k with
  | zero =>
    have h0 : 0 ≤ Qf (k + 1) y / Qf k y := (div_pos (Qf_pos _ _) (Qf_pos _ _)).le
    simp only [tanhFrac, zero_sub, abs_neg, Finset.range_zero, Finset.prod_empty, one_mul, Nat.cast_zero, add_zero]
    rw [abs_of_nonneg h0]
    exact Qf_ratio_le k y
  | succ m ih =>
    have h1 := ih (k + 1)
    have hr : 0 ≤ Qf (k + 2) y / Qf (k + 1) y := (div_pos (Qf_pos _ _) (Qf_pos _ _)).le
    have hg := tanhFrac_nonneg y m (k + 1)
    have ha : 0 < (2 * (k : ℝ) + 1) := by positivity
    rw [Qf_ratio, tanhFrac]
    set r := Qf (k + 2) y / Qf (k + 1) y
    set g := tanhFrac y m (k + 1)
    have hA : 2 * (k : ℝ) + 1 ≤ (2 * (k : ℝ) + 1) + y ^ 2 * g := le_add_of_nonneg_right (by positivity)
    have hB : 2 * (k : ℝ) + 1 ≤ (2 * (k : ℝ) + 1) + y ^ 2 * r := le_add_of_nonneg_right (by positivity)
    have e1 : 1 / ((2 * (k : ℝ) + 1) + y ^ 2 * g) - 1 / ((2 * (k : ℝ) + 1) + y ^ 2 * r) =
        y ^ 2 * (r - g) / (((2 * (k : ℝ) + 1) + y ^ 2 * g) * ((2 * (k : ℝ) + 1) + y ^ 2 * r)) := by
      have := (lt_of_lt_of_le ha hA).ne'
      have := (lt_of_lt_of_le ha hB).ne'
      field_simp
      ring
    rw [e1, abs_div, abs_mul, abs_of_nonneg (sq_nonneg y), abs_sub_comm r g,
      abs_of_pos (mul_pos (lt_of_lt_of_le ha hA) (lt_of_lt_of_le ha hB))]
    rw [Finset.prod_range_succ']
    have h2 : y ^ 2 * |g - r| / (((2 * (k : ℝ) + 1) + y ^ 2 * g) * ((2 * (k : ℝ) + 1) + y ^ 2 * r)) ≤ y ^ 2 / (2 * (k : ℝ) + 1) ^ 2 * |g - r| := by
      rw [div_mul_eq_mul_div]
      apply div_le_div_of_nonneg_left
      · positivity
      · positivity
      · rw [sq]; exact mul_le_mul hA hB ha.le (le_trans ha.le hA)
    refine h2.trans ?_
    have h3 : |g - r| ≤ _ := h1
    refine (mul_le_mul_of_nonneg_left h3 (by positivity)).trans (le_of_eq ?_)
    push_cast
    have e2 : ∀ j : ℕ, y ^ 2 / (2 * ((k : ℝ) + 1 + j) + 1) ^ 2 = y ^ 2 / (2 * ((k : ℝ) + (j + 1)) + 1) ^ 2 := fun j => by
      rw [show (k : ℝ) + 1 + j = k + (j + 1) by ring]
    simp only [e2]
    rw [show (k : ℝ) + 1 + m = k + (m + 1) by ring, add_zero]
    ring

/-- Even convergents stay below. -/
theorem tanhFrac_even_le (y : ℝ) (m k : ℕ) : tanhFrac y (2 * m) k ≤ Qf (k + 1) y / Qf k y := by
  induction m generalizing k with
  | zero => exact (div_pos (Qf_pos _ _) (Qf_pos _ _)).le
  | succ m ih =>
    have h1 := ih (k + 2)
    have hr : 0 ≤ Qf (k + 2 + 1) y / Qf (k + 2) y := (div_pos (Qf_pos _ _) (Qf_pos _ _)).le
    have hg := tanhFrac_nonneg y (2 * m) (k + 2)
    rw [show 2 * (m + 1) = (2 * m + 1) + 1 by ring, tanhFrac, tanhFrac, Qf_ratio k, Qf_ratio (k + 1)]
    have h2 : y ^ 2 * tanhFrac y (2 * m) (k + 1 + 1) ≤ y ^ 2 * (Qf (k + 1 + 2) y / Qf (k + 1 + 1) y) := mul_le_mul_of_nonneg_left h1 (sq_nonneg y)
    have p0 : 0 ≤ y ^ 2 * tanhFrac y (2 * m) (k + 1 + 1) := by positivity
    push_cast
    have h3 : 1 / (2 * ((k : ℝ) + 1) + 1 + y ^ 2 * (Qf (k + 1 + 2) y / Qf (k + 1 + 1) y)) ≤ 1 / (2 * ((k : ℝ) + 1) + 1 + y ^ 2 * tanhFrac y (2 * m) (k + 1 + 1)) := by
      apply one_div_le_one_div_of_le
      · positivity
      · linarith
    apply one_div_le_one_div_of_le
    · have : 0 ≤ 1 / (2 * ((k : ℝ) + 1) + 1 + y ^ 2 * (Qf (k + 1 + 2) y / Qf (k + 1 + 1) y)) := by
        have : 0 ≤ Qf (k + 1 + 2) y / Qf (k + 1 + 1) y := hr
        positivity
      positivity
    · have := mul_le_mul_of_nonneg_left h3 (sq_nonneg y)
      linarith

theorem tanh_eq (y : ℝ) : y * (Qf 1 y / Qf 0 y) = Real.tanh y := by
  rw [Qf_zero, ← mul_div_assoc, Qf_one, Real.tanh_eq_sinh_div_cosh]

/-- The convergents of the continued fraction of `tanh`, with an explicit error. -/
theorem tanhFrac_tanh (y : ℝ) (m : ℕ) :
    |y * tanhFrac y m 0 - Real.tanh y| ≤ |y| * ((∏ j ∈ Finset.range m, y ^ 2 / (2 * (j : ℝ) + 1) ^ 2) * (1 / (2 * (m : ℝ) + 1))) := by
  rw [← tanh_eq, ← mul_sub, abs_mul]
  have := tanhFrac_err y m 0
  simp only [Nat.cast_zero, zero_add] at this
  exact mul_le_mul_of_nonneg_left this (abs_nonneg _)

/-- The error bound tends to zero. -/
theorem tanhBound_tendsto (y : ℝ) : Filter.Tendsto (fun m : ℕ => (∏ j ∈ Finset.range m, y ^ 2 / (2 * (j : ℝ) + 1) ^ 2) * (1 / (2 * (m : ℝ) + 1))) Filter.atTop (nhds 0) := by
  refine squeeze_zero (fun m => ?_) (fun m => ?_) (FloorSemiring.tendsto_pow_div_factorial_atTop (y ^ 2))
  · have : 0 ≤ ∏ j ∈ Finset.range m, y ^ 2 / (2 * (j : ℝ) + 1) ^ 2 := Finset.prod_nonneg fun j _ => by positivity
    positivity
  · have h1 : ∏ j ∈ Finset.range m, y ^ 2 / (2 * (j : ℝ) + 1) ^ 2 ≤ (y ^ 2) ^ m / (m.factorial : ℝ) := by
      induction m with
      | zero => simp
      | succ m ih =>
        rw [Finset.prod_range_succ, pow_succ (y ^ 2) m, Nat.factorial_succ, Nat.cast_mul, mul_comm ((m + 1 : ℕ) : ℝ), ← div_mul_div_comm]
        apply mul_le_mul ih _ (by positivity) (by positivity)
        apply div_le_div_of_nonneg_left (sq_nonneg y) (by positivity)
        push_cast
        have : (0 : ℝ) ≤ m := Nat.cast_nonneg m
        nlinarith
    have h0 : 0 ≤ ∏ j ∈ Finset.range m, y ^ 2 / (2 * (j : ℝ) + 1) ^ 2 := Finset.prod_nonneg fun j _ => by positivity
    have h2 : 1 / (2 * (m : ℝ) + 1) ≤ 1 := by
      rw [div_le_one (by positivity)]
      have : (0 : ℝ) ≤ m := Nat.cast_nonneg m
      linarith
    calc _ ≤ (∏ j ∈ Finset.range m, y ^ 2 / (2 * (j : ℝ) + 1) ^ 2) * 1 := mul_le_mul_of_nonneg_left h2 h0
      _ ≤ _ := by rw [mul_one]; exact h1

end

end Edpyt
