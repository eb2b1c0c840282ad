import Verif.Props.CoBalance
/-!
C148: the exact cotunnelling integrals at small bias.
-/
namespace Edpyt
open Spec

/-! ### Specification -/

/-- The formula for the integral, valid whenever the chemical potentials differ. -/
noncomputable def closedI1 (psi : ℕ → ℂ → ℂ) (C eps mu0 mu1 beta : ℝ) : ℝ :=
  C ^ 2 * beta / (2 * Real.pi) * (1 / (Real.exp ((mu1 - mu0) * beta) - 1)) *
    (psi 1 (0.5 + Complex.I * beta / (2 * Real.pi) * (mu1 - eps)) - psi 1 (0.5 + Complex.I * beta / (2 * Real.pi) * (mu0 - eps))).im

/-! ### The expansion of the Bose function -/

/-- The four terms of `Taylor`. -/
noncomputable def boseSeries (x : ℝ) : ℝ := 1 / x - 0.5 + 1 / 12 * x - 1 / 720 * x ^ 3

theorem exp_sub_one_abs {x : ℝ} (hx : |x| ≤ 1 / 2) : |x| / 2 ≤ |Real.exp x - 1| := by
  have h := Real.abs_exp_sub_one_sub_id_le (show |x| ≤ 1 by linarith)
  have h1 : x ^ 2 ≤ |x| / 2 := by rw [← sq_abs]; nlinarith [abs_nonneg x]
  have h2 : |x| - |Real.exp x - 1| ≤ |Real.exp x - 1 - x| := by
    rw [abs_sub_comm (Real.exp x - 1) x]
    exact abs_sub_abs_le_abs_sub _ _
  linarith

theorem boseSeries_close {x : ℝ} (h0 : x ≠ 0) (hx : |x| ≤ 1 / 2) : |boseSeries x - 1 / (Real.exp x - 1)| ≤ |x| ^ 5 / 500 := by
  have hb := Real.exp_bound (show |x| ≤ 1 by linarith) (show 0 < 7 by norm_num)
  have hsum : ∑ m ∈ Finset.range 7, x ^ m / (m.factorial : ℝ) = 1 + x + x ^ 2 / 2 + x ^ 3 / 6 + x ^ 4 / 24 + x ^ 5 / 120 + x ^ 6 / 720 := by
    simp [Finset.sum_range_succ, Nat.factorial]
  rw [hsum] at hb
  set R := Real.exp x - (1 + x + x ^ 2 / 2 + x ^ 3 / 6 + x ^ 4 / 24 + x ^ 5 / 120 + x ^ 6 / 720) with hR
  have hR' : |R| ≤ |x| ^ 7 / 4410 := by
    refine hb.trans (le_of_eq ?_)
    norm_num [Nat.factorial]
    ring
  have hE : Real.exp x - 1 = x + x ^ 2 / 2 + x ^ 3 / 6 + x ^ 4 / 24 + x ^ 5 / 120 + x ^ 6 / 720 + R := by rw [hR]; ring
  have hpos : 0 < |x| := abs_pos.mpr h0
  have hden := exp_sub_one_abs hx
  have hdne : Real.exp x - 1 ≠ 0 := by
    intro h
    rw [h, abs_zero] at hden
    linarith
  have key : boseSeries x * (Real.exp x - 1) - 1 = x ^ 6 * (-1 / 4320 + x / 17280 - x ^ 2 / 86400 - x ^ 3 / 518400) + (1 - 0.5 * x + 1 / 12 * x ^ 2 - 1 / 720 * x ^ 4) * (R / x) := by
    rw [hE]
    unfold boseSeries
    field_simp
    ring
  have hx1 := abs_le.mp hx
  have b1 : |x ^ 6 * (-1 / 4320 + x / 17280 - x ^ 2 / 86400 - x ^ 3 / 518400)| ≤ |x| ^ 6 / 2000 := by
    rw [abs_mul, abs_pow, div_eq_mul_inv]
    refine mul_le_mul_of_nonneg_left ?_ (by positivity)
    rw [abs_le]
    constructor <;> nlinarith [sq_nonneg x, sq_nonneg (x + 1), sq_nonneg (x - 1), mul_nonneg (sq_nonneg x) (show 0 ≤ 1 / 2 - x by linarith), mul_nonneg (sq_nonneg x) (show 0 ≤ x + 1 / 2 by linarith)]
  have b2 : |(1 - 0.5 * x + 1 / 12 * x ^ 2 - 1 / 720 * x ^ 4) * (R / x)| ≤ |x| ^ 6 / 2000 := by
    rw [abs_mul, abs_div]
    have c1 : |1 - 0.5 * x + 1 / 12 * x ^ 2 - 1 / 720 * x ^ 4| ≤ 2 := by
      have hsq : x ^ 2 ≤ 1 / 4 := by nlinarith
      have hsq4 : x ^ 4 ≤ 1 := by nlinarith [sq_nonneg x]
      have : 0 ≤ x ^ 4 := by positivity
      rw [abs_le]
      constructor <;> norm_num <;> nlinarith [sq_nonneg x]
    have c2 : |R| / |x| ≤ |x| ^ 6 / 4410 := by
      rw [div_le_iff₀ hpos]
      calc |R| ≤ |x| ^ 7 / 4410 := hR'
        _ = _ := by ring
    calc _ ≤ 2 * (|x| ^ 6 / 4410) := mul_le_mul c1 c2 (by positivity) (by norm_num)
      _ ≤ _ := by have : 0 ≤ |x| ^ 6 := by positivity
                  linarith
  have hfin : |boseSeries x * (Real.exp x - 1) - 1| ≤ |x| ^ 6 / 1000 := by
    rw [key]
    refine (abs_add_le _ _).trans ?_
    linarith
  have e : boseSeries x - 1 / (Real.exp x - 1) = (boseSeries x * (Real.exp x - 1) - 1) / (Real.exp x - 1) := by field_simp
  rw [e, abs_div, div_le_iff₀ (abs_pos.mpr hdne)]
  calc _ ≤ |x| ^ 6 / 1000 := hfin
    _ = |x| ^ 5 / 500 * (|x| / 2) := by ring
    _ ≤ _ := mul_le_mul_of_nonneg_left hden (by positivity)

/-! ### The theorems -/

/-- **C148** (partial: bias above `1e-16`) Wherever the code does not return zero, the integral of one level is that of the closed formula, up to a relative error of the window in which it uses the
expansion, far below the precision of the numbers. -/
theorem C148_partial (psi : ℕ → ℂ → ℂ) (C eps mu0 mu1 beta : ℝ) (hb : 0 < beta) (hx : 1e-16 ≤ |(mu1 - mu0) * beta|) :
    |integralI1 psi C eps mu0 mu1 beta - closedI1 psi C eps mu0 mu1 beta| ≤
      C ^ 2 * beta / (2 * Real.pi) * (1e-77 * |(Psi psi 1 mu1 eps beta - Psi psi 1 mu0 eps beta).im|) ∧
    (1e-15 ≤ |(mu1 - mu0) * beta| → integralI1 psi C eps mu0 mu1 beta = closedI1 psi C eps mu0 mu1 beta) := by
  have hpi := Real.pi_pos
  have hne : (mu1 - mu0) * beta ≠ 0 := by intro h; rw [h] at hx; norm_num at hx
  have hclosed : closedI1 psi C eps mu0 mu1 beta = C ^ 2 * beta / (2 * Real.pi) * nB ((mu1 - mu0) * beta) * (Psi psi 1 mu1 eps beta - Psi psi 1 mu0 eps beta).im := rfl
  have far : 1e-15 ≤ |(mu1 - mu0) * beta| → integralI1 psi C eps mu0 mu1 beta = closedI1 psi C eps mu0 mu1 beta := by
    intro h
    unfold integralI1
    simp only
    rw [if_neg (not_lt.mpr hx), if_neg (not_lt.mpr h), hclosed]
  refine ⟨?_, far⟩
  rcases le_or_gt 1e-15 |(mu1 - mu0) * beta| with h | h
  · rw [far h, sub_self, abs_zero]
    positivity
  · have e : integralI1 psi C eps mu0 mu1 beta = C ^ 2 * beta / (2 * Real.pi) * (boseSeries ((mu1 - mu0) * beta) * (Psi psi 1 mu1 eps beta - Psi psi 1 mu0 eps beta).im) := by
      unfold integralI1
      simp only
      rw [if_neg (not_lt.mpr hx), if_pos h]
      congr 1
      have t : ∀ a : ℝ, taylor psi 1 ((mu1 - mu0) * beta) a eps beta = ((boseSeries ((mu1 - mu0) * beta) : ℝ) : ℂ) * Psi psi 1 a eps beta := by
        intro a
        unfold taylor boseSeries
        push_cast
        ring
      rw [t, t, ← mul_sub, Complex.im_ofReal_mul]
    rw [e, hclosed, mul_assoc (C ^ 2 * beta / (2 * Real.pi)), ← mul_sub, abs_mul, abs_of_nonneg (by positivity), ← sub_mul, abs_mul]
    refine mul_le_mul_of_nonneg_left (mul_le_mul_of_nonneg_right ?_ (abs_nonneg _)) (by positivity)
    refine (boseSeries_close hne (by linarith [show (1e-15 : ℝ) < 1 / 2 by norm_num])).trans ?_
    calc |(mu1 - mu0) * beta| ^ 5 / 500 ≤ (1e-15) ^ 5 / 500 := by
          have := pow_le_pow_left₀ (abs_nonneg _) h.le 5
          linarith
      _ ≤ _ := by norm_num

/-- **C148 is false at zero bias**: the code returns zero, although the integral stays away from zero for arbitrarily small bias. -/
theorem C148_refuted {psi : ℕ → ℂ → ℂ} (h : IsTrigamma psi) : integralI1 psi 1 0 0 0 (2 * Real.pi) = 0 ∧
    ∀ t : ℝ, 1e-15 ≤ t * (2 * Real.pi) → t * (2 * Real.pi) ≤ 1 → integralI1 psi 1 0 0 t (2 * Real.pi) ≤ -(1 / Real.pi) := by
  have hpi := Real.pi_pos
  constructor
  · unfold integralI1
    norm_num
  intro t ht0 ht1
  have ht : 0 < t := by
    have : 0 < t * (2 * Real.pi) := lt_of_lt_of_le (by norm_num) ht0
    exact (mul_pos_iff_of_pos_right (by positivity)).mp this
  have hth : t ≤ 1 / 2 := by
    have := Real.two_le_pi
    nlinarith
  have hx : 1e-15 ≤ |(t - 0) * (2 * Real.pi)| := by rw [sub_zero, abs_of_pos (by positivity)]; exact ht0
  rw [(C148_partial psi 1 0 0 t (2 * Real.pi) (by positivity) (le_trans (by norm_num) hx)).2 hx]
  unfold closedI1
  have e0 : (0.5 + Complex.I * ((2 * Real.pi : ℝ) : ℂ) / (2 * (Real.pi : ℂ)) * (((0 : ℝ) : ℂ) - ((0 : ℝ) : ℂ))) = 0.5 := by simp
  have e1 : (0.5 + Complex.I * ((2 * Real.pi : ℝ) : ℂ) / (2 * (Real.pi : ℂ)) * ((t : ℂ) - ((0 : ℝ) : ℂ))) = 0.5 + (t : ℂ) * Complex.I := by
    have : (Real.pi : ℂ) ≠ 0 := by exact_mod_cast hpi.ne'
    push_cast
    field_simp
    ring
  rw [e0, e1, Complex.sub_im, trigamma_im_zero h, sub_zero, sub_zero, one_pow, one_mul, div_self (by positivity), one_mul]
  have hs := le_hasSum (trigamma_im h t).neg 0 (fun k _ => by rw [neg_div, neg_neg]; positivity)
  have hfirst : 4 * t ≤ -(-(2 * (0.5 + ((0 : ℕ) : ℝ)) * t) / ((0.5 + ((0 : ℕ) : ℝ)) ^ 2 + t ^ 2) ^ 2) := by
    rw [neg_div, neg_neg, le_div_iff₀ (by positivity)]
    have hsq : t ^ 2 ≤ 1 / 4 := by nlinarith
    have : ((0.5 + ((0 : ℕ) : ℝ)) ^ 2 + t ^ 2) ^ 2 ≤ 1 / 4 := by
      norm_num
      nlinarith [sq_nonneg t]
    norm_num at this ⊢
    nlinarith
  have him : (psi 1 (0.5 + (t : ℂ) * Complex.I)).im ≤ -(4 * t) := by linarith
  have hexp : Real.exp (t * (2 * Real.pi)) - 1 ≤ 2 * (t * (2 * Real.pi)) := by
    have := Real.abs_exp_sub_one_le (x := t * (2 * Real.pi)) (by rw [abs_of_pos (by positivity)]; exact ht1)
    rw [abs_of_pos (show 0 < t * (2 * Real.pi) by positivity)] at this
    exact (le_abs_self _).trans this
  have hexp0 : 0 < Real.exp (t * (2 * Real.pi)) - 1 := by
    have : 1 < Real.exp (t * (2 * Real.pi)) := Real.one_lt_exp_iff.mpr (by positivity)
    linarith
  have hn : 1 / (2 * (t * (2 * Real.pi))) ≤ 1 / (Real.exp (t * (2 * Real.pi)) - 1) := one_div_le_one_div_of_le hexp0 hexp
  calc 1 / (Real.exp (t * (2 * Real.pi)) - 1) * (psi 1 (0.5 + (t : ℂ) * Complex.I)).im
      ≤ 1 / (Real.exp (t * (2 * Real.pi)) - 1) * (-(4 * t)) := mul_le_mul_of_nonneg_left him (by positivity)
    _ ≤ 1 / (2 * (t * (2 * Real.pi))) * (-(4 * t)) := mul_le_mul_of_nonpos_right hn (by linarith)
    _ = _ := by field_simp; ring

/-- **C148 is false for two levels**: for a bias in the window the function raises `TypeError`. -/
theorem C148_two_levels_refuted (psi : ℕ → ℂ → ℂ) (A B epsA epsB mu0 mu1 beta : ℝ) (h1 : 1e-16 ≤ |(mu1 - mu0) * beta|) (h2 : |(mu1 - mu0) * beta| < 1e-15) :
    gamma2 psi A B epsA epsB mu0 mu1 beta = .error .typeError := by
  unfold gamma2 integralI2
  simp only
  rw [if_neg (not_lt.mpr h1), if_pos h2]
  rfl

/-- There is a function that meets the contract of `mpmath.psi` used in the refutations of C55, C147 and C148. -/
example : ∃ psi, IsTrigamma psi := by
  refine ⟨fun _ z => ∑' k : ℕ, 1 / (z + k) ^ 2, fun z hz => Summable.hasSum ?_⟩
  have hs : Summable fun k : ℕ => 1 / |(k : ℝ) + z.re| ^ (2 : ℝ) := (Real.summable_one_div_nat_add_rpow z.re 2).mpr (by norm_num)
  refine Summable.of_norm_bounded hs fun k => ?_
  rw [norm_div, norm_one, norm_pow, Real.rpow_two]
  have hp : 0 < (k : ℝ) + z.re := by positivity
  have h1 : |(k : ℝ) + z.re| ≤ ‖z + k‖ := by
    have := Complex.abs_re_le_norm (z + k)
    rw [Complex.add_re, Complex.natCast_re, add_comm] at this
    exact this
  exact one_div_le_one_div_of_le (pow_pos (abs_pos.mpr hp.ne') 2) (pow_le_pow_left₀ (abs_nonneg _) h1 2)

/-- A bias in the window, and one at which the refutation applies. -/
example : (1e-16 : ℝ) ≤ |(5e-16 - 0) * 1| ∧ |(5e-16 - 0) * 1| < (1e-15 : ℝ) ∧ (1e-15 : ℝ) ≤ 1 / 100 * (2 * Real.pi) ∧ 1 / 100 * (2 * Real.pi) ≤ 1 := by
  have h1 := Real.two_le_pi
  have h2 := Real.pi_le_four
  refine ⟨?_, ?_, by linarith, by linarith⟩ <;> rw [abs_of_pos (by norm_num)] <;> norm_num

end Edpyt
