import Verif.Props.Cotunneling
import Mathlib.Analysis.Complex.Order
import Mathlib.Topology.Algebra.InfiniteSum.Order
import Mathlib.Analysis.PSeries
import Mathlib.Analysis.Complex.Basic
/-!
C55 for the exact integration of cotunnelling: probability is conserved, but rates can be negative.
-/
namespace Edpyt
open Spec

/-- Contract of `mpmath.psi(1, z)` in the right half plane: the trigamma function. -/
def IsTrigamma (psi : ℕ → ℂ → ℂ) : Prop := ∀ z : ℂ, 0 < z.re → HasSum (fun k : ℕ => 1 / (z + k) ^ 2) (psi 1 z)

theorem trigamma_term_im (y : ℝ) (k : ℕ) :
    (1 / ((0.5 + y * Complex.I : ℂ) + k) ^ 2).im = -(2 * (0.5 + k) * y) / (((0.5 + k) ^ 2 + y ^ 2) ^ 2) := by
  have h : ((0.5 + y * Complex.I : ℂ) + k) ^ 2 = (((0.5 + k) ^ 2 - y ^ 2 : ℝ) : ℂ) + ((2 * (0.5 + k) * y : ℝ) : ℂ) * Complex.I := by
    push_cast
    have := Complex.I_sq
    linear_combination ((y : ℂ) ^ 2) * this
  rw [h, one_div, Complex.inv_im]
  have hn : Complex.normSq ((((0.5 + k) ^ 2 - y ^ 2 : ℝ) : ℂ) + ((2 * (0.5 + k) * y : ℝ) : ℂ) * Complex.I) = ((0.5 + k) ^ 2 + y ^ 2) ^ 2 := by
    rw [Complex.normSq_add_mul_I]
    ring
  rw [hn]
  simp only [Complex.add_im, Complex.ofReal_im, Complex.mul_im, Complex.ofReal_re, Complex.I_im, Complex.I_re, mul_one, mul_zero, zero_add, add_zero]

theorem trigamma_im {psi : ℕ → ℂ → ℂ} (h : IsTrigamma psi) (y : ℝ) :
    HasSum (fun k : ℕ => -(2 * (0.5 + (k : ℝ)) * y) / (((0.5 + k) ^ 2 + y ^ 2) ^ 2)) (psi 1 (0.5 + y * Complex.I)).im := by
  have h1 := h (0.5 + y * Complex.I) (by simp; norm_num)
  have h2 := Complex.hasSum_im h1
  simpa only [trigamma_term_im] using h2

theorem trigamma_im_zero {psi : ℕ → ℂ → ℂ} (h : IsTrigamma psi) : (psi 1 0.5).im = 0 := by
  have h1 := trigamma_im h 0
  simp only [mul_zero, neg_zero, zero_div, Complex.ofReal_zero, zero_mul, add_zero] at h1
  exact h1.unique hasSum_zero

theorem trigamma_im_neg {psi : ℕ → ℂ → ℂ} (h : IsTrigamma psi) {y : ℝ} (hy : 0 < y) : (psi 1 (0.5 + y * Complex.I)).im < 0 := by
  have h1 := (trigamma_im h y).neg
  have h2 := le_hasSum h1 0 (fun k _ => by
    rw [neg_div, neg_neg]; positivity)
  have h3 : 0 < -(-(2 * (0.5 + ((0 : ℕ) : ℝ)) * y) / ((0.5 + ((0 : ℕ) : ℝ)) ^ 2 + y ^ 2) ^ 2) := by
    rw [neg_div, neg_neg]; positivity
  linarith

/-- The exact integral is negative when the intermediate level is aligned with the first chemical potential. -/
theorem integralI1_neg {psi : ℕ → ℂ → ℂ} (h : IsTrigamma psi) {C beta mu0 mu1 : ℝ} (hC : C ≠ 0) (hb : 0 < beta) (hx : 1e-15 ≤ (mu1 - mu0) * beta) :
    integralI1 psi C mu0 mu0 mu1 beta < 0 := by
  have hx0 : 0 < (mu1 - mu0) * beta := lt_of_lt_of_le (by norm_num) hx
  have hmu : 0 < mu1 - mu0 := (mul_pos_iff_of_pos_right hb).mp hx0
  unfold integralI1
  simp only
  rw [abs_of_pos hx0, if_neg (by linarith [show (1e-16 : ℝ) < 1e-15 by norm_num]), if_neg (by linarith), Complex.sub_im]
  have e0 : (Psi psi 1 mu0 mu0 beta).im = 0 := by
    unfold Psi
    rw [sub_self, mul_zero, add_zero]
    exact trigamma_im_zero h
  have e1 : (Psi psi 1 mu1 mu0 beta).im < 0 := by
    unfold Psi
    have : (0.5 + Complex.I * (beta : ℂ) / (2 * (Real.pi : ℂ)) * ((mu1 : ℂ) - mu0)) = 0.5 + ((beta / (2 * Real.pi) * (mu1 - mu0) : ℝ) : ℂ) * Complex.I := by
      push_cast
      ring
    rw [this]
    exact trigamma_im_neg h (mul_pos (div_pos hb (by positivity)) hmu)
  rw [e0, sub_zero]
  have hn : 0 < nB ((mu1 - mu0) * beta) := by
    unfold nB
    have : 1 < Real.exp ((mu1 - mu0) * beta) := Real.one_lt_exp_iff.mpr hx0
    exact one_div_pos.mpr (by linarith)
  have hC2 : 0 < C ^ 2 := by positivity
  exact mul_neg_of_pos_of_neg (by positivity) e1

/-- A spin flip on one site through a level one unit below the chemical potentials, and the reverse transition. -/
noncomputable def flipDict : SigmaDict :=
  [(((0, 1, 0), (1, 0, 0)), [.e ⟨(0, 1, 0), (1, 0, 0), [[1]], [[1]], [-1], 1⟩]),
   (((1, 0, 0), (0, 1, 0)), [.e ⟨(1, 0, 0), (0, 1, 0), [[1]], [[1]], [-2], -1⟩])]

/-- C55 is false for the exact integration: a matrix of `build_rate_matrix` (with the default `approx_integral=False`) has a
negative rate, for every implementation of the trigamma function. -/
theorem C55_exact_refuted {psi : ℕ → ℂ → ℂ} (h : IsTrigamma psi) :
    ∃ f i, f < (coFinalIds flipDict).length ∧ i < (coFinalIds flipDict).length ∧ f ≠ i ∧
      coRate flipDict (CoSigma.integrate psi [[1], [1]] 1 [0, 0]) f i < 0 := by
  have hF : ((0, 1, 0) : TId) ∈ coFinalIds flipDict := by unfold coFinalIds; rw [mem_uniqueSorted]; simp [flipDict]
  have hI : ((1, 0, 0) : TId) ∈ coFinalIds flipDict := by unfold coFinalIds; rw [mem_uniqueSorted]; simp [flipDict]
  obtain ⟨f, hf, ef⟩ := List.mem_iff_getElem.mp hF
  obtain ⟨i, hi, ei⟩ := List.mem_iff_getElem.mp hI
  have hfi : f ≠ i := by
    rintro rfl
    rw [ef] at ei
    exact absurd ei (by decide)
  refine ⟨f, i, hf, hi, hfi, ?_⟩
  rw [coRate_off _ _ hf hi hfi]
  have hneg := integralI1_neg h (C := 1) (beta := 1) (mu0 := -1) (mu1 := 0) one_ne_zero one_pos (by norm_num)
  have hflow : ∀ l ∈ ndindex2 2 2, coFlow flipDict (CoSigma.integrate psi [[1], [1]] 1 [0, 0] l.1 l.2) (i, f) = integralI1 psi 1 (-1) (-1) 0 1 := by
    intro l hl
    obtain ⟨h1, h2⟩ := mem_ndindex2.mp hl
    have g1 : ∀ k : ℕ, k < 2 → getItem [[(1 : ℝ)], [1]] (k : ℤ) = .ok [1] := by
      intro k hk
      rw [getItem_natCast _ _ hk]
      interval_cases k <;> rfl
    have g2 : ∀ k : ℕ, k < 2 → getItem [(0 : ℝ), 0] (k : ℤ) = .ok 0 := by
      intro k hk
      rw [getItem_natCast _ _ hk]
      interval_cases k <;> rfl
    have g3 : dotFirst [[(1 : ℝ)]] [1] = .ok 1 := by
      simp [dotFirst, dotArr, getItem, pyIndex, bind, Except.bind]
    have g4 : getItem [(-1 : ℝ)] 0 = .ok (-1) := by simp [getItem, pyIndex]
    unfold coFlow
    simp only [List.getElem?_eq_getElem hf, List.getElem?_eq_getElem hi, ef, ei]
    unfold coGamma
    have hd : dictGet flipDict ((0, 1, 0), (1, 0, 0)) = .ok [.e ⟨(0, 1, 0), (1, 0, 0), [[1]], [[1]], [-1], 1⟩] := by
      unfold flipDict; rw [dictGet_cons, if_pos rfl]
    rw [hd]
    simp only [bind, Except.bind, forM', CoSigma.integrate, g1 _ h1, g1 _ h2, g2 _ h1, g2 _ h2, g3, g4, pure, Except.pure, Except.toOption, Option.getD_some]
    norm_num
  rw [List.map_congr_left hflow, List.map_const', List.sum_replicate]
  have : (ndindex2 2 2).length = 4 := by decide
  rw [this]
  rw [nsmul_eq_mul]
  exact mul_neg_of_pos_of_neg (by norm_num) hneg

/-- Non-vacuity: there is a trigamma function. -/
example : ∃ psi, IsTrigamma psi := by
  refine ⟨fun _ z => ∑' k : ℕ, 1 / (z + k) ^ 2, fun z hz => Summable.hasSum ?_⟩
  have h0 : Summable fun k : ℕ => 1 / ((k : ℝ) ^ 2) := Real.summable_one_div_nat_pow.mpr one_lt_two
  rw [← summable_nat_add_iff 1]
  have h1 : Summable fun k : ℕ => 1 / (((k + 1 : ℕ) : ℝ) ^ 2) := (summable_nat_add_iff 1).mpr h0
  refine Summable.of_norm_bounded h1 fun k => ?_
  rw [norm_div, norm_one, norm_pow]
  have hre : ((k + 1 : ℕ) : ℝ) ≤ ‖z + ((k + 1 : ℕ) : ℂ)‖ := by
    refine le_trans ?_ (Complex.re_le_norm _)
    simp only [Complex.add_re, Complex.natCast_re]
    linarith
  have : (0 : ℝ) < ((k + 1 : ℕ) : ℝ) := by positivity
  gcongr

end Edpyt
