import Verif.Props.IntegrateGf
/-!
A bound on the error of `matsum_gf` (`edpyt/integrate_gf.py:114-140`) with any number of frequencies.
-/
namespace Edpyt

open Filter Topology

theorem tail_w2 {beta : ℝ} (hb : 0 < beta) {N : ℕ} (hN : 0 < N) : ∑' i, 1 / msW beta (i + N) ^ 2 ≤ (beta / (2 * Real.pi)) ^ 2 / N := by
  have hpi := Real.pi_pos
  refine Real.tsum_le_of_sum_range_le (fun i => by positivity) fun n => ?_
  have hle : ∀ i : ℕ, 1 / msW beta (i + N) ^ 2 ≤ (beta / (2 * Real.pi)) ^ 2 * (1 / ((i + N : ℕ) : ℝ) - 1 / ((i + 1 + N : ℕ) : ℝ)) := fun i => by
    unfold msW
    set x : ℝ := ((i + N : ℕ) : ℝ) with hx
    have hx0 : 0 < x := by rw [hx]; exact_mod_cast (by omega : 0 < i + N)
    have e1 : ((i + 1 + N : ℕ) : ℝ) = x + 1 := by rw [hx]; push_cast; ring
    rw [e1, div_sub_div _ _ hx0.ne' (by positivity), show 1 * (x + 1) - x * 1 = 1 by ring, div_pow, div_pow, mul_pow, mul_pow, one_div_div, div_mul_div_comm, mul_one]
    refine div_le_div_of_nonneg_left (by positivity) (by positivity) ?_
    nlinarith [sq_nonneg Real.pi, mul_pos hpi hpi]
  refine (Finset.sum_le_sum fun i _ => hle i).trans ?_
  rw [← Finset.mul_sum, Finset.sum_range_sub' (fun i : ℕ => 1 / ((i + N : ℕ) : ℝ)), div_eq_mul_one_div (_ ^ 2) (N : ℝ)]
  refine mul_le_mul_of_nonneg_left ?_ (by positivity)
  have : (0 : ℝ) ≤ 1 / ((n + N : ℕ) : ℝ) := by positivity
  simp only [zero_add]
  linarith

/-- The error bound: `A1` and `A3` bound the first and the third absolute moment of the spectrum around the chemical potential. -/
noncomputable def matsumErr (beta A1 A3 : ℝ) (N : ℕ) : ℝ := beta / (2 * Real.pi ^ 2 * N) * (2 * A3 + A1 ^ 3) / msW beta (N - 1) ^ 2

theorem matsumErr_mono {beta A1 A3 B1 B3 : ℝ} (hb : 0 < beta) (h0 : 0 ≤ A1) (h1 : A1 ≤ B1) (h3 : A3 ≤ B3) (N : ℕ) : matsumErr beta A1 A3 N ≤ matsumErr beta B1 B3 N := by
  unfold matsumErr
  have := Real.pi_pos
  gcongr

theorem term_tail {w m W : ℝ} (hw : 0 < w) (hW : 0 < W) (hWw : W ≤ w) : |m / w ^ 2 - m / (w ^ 2 + m ^ 2)| ≤ |m| ^ 3 / W ^ 2 * (1 / w ^ 2) := by
  have h1 : m / w ^ 2 - m / (w ^ 2 + m ^ 2) = m ^ 3 / (w ^ 2 * (w ^ 2 + m ^ 2)) := by
    have : w ^ 2 + m ^ 2 ≠ 0 := by positivity
    field_simp
    ring
  rw [h1, abs_div, abs_pow, abs_of_pos (by positivity : 0 < w ^ 2 * (w ^ 2 + m ^ 2)), div_mul_div_comm, mul_one]
  refine div_le_div_of_nonneg_left (by positivity) (by positivity) ?_
  have : W ^ 2 ≤ w ^ 2 := by gcongr
  nlinarith [sq_nonneg m, mul_nonneg (sq_nonneg w) (sq_nonneg m), mul_pos (pow_pos hw 2) (pow_pos hw 2)]

/-- **C85** with a bound for every number of frequencies: for a Green function that is a finite sum of poles with weights of sum one, `matsum_gf` is the
Fermi occupation of its levels up to an error that decreases with the third power of `nmats`. -/
theorem C85_matsum_error {ι : Type} [Fintype ι] (a e : ι → ℝ) (ha : ∑ j, a j = 1) (mu beta : ℝ) (hb : 0 < beta) {N : ℕ} (hN : 0 < N) {g : ℕ → ℂ}
    (hg : ∀ i, g i = ∑ j, (a j : ℂ) / (msZ beta i + (mu : ℂ) - (e j : ℂ))) :
    |msSum N beta g - ∑ j, a j * Spec.fermiOcc beta (e j - mu)| ≤ matsumErr beta (∑ j, |a j| * |e j - mu|) (∑ j, |a j| * |e j - mu| ^ 3) N := by
  have hpi := Real.pi_pos
  have hre : ∀ i, (g i).re = -∑ j, a j * ((e j - mu) / (msW beta i ^ 2 + (e j - mu) ^ 2)) := fun i => by
    rw [hg]
    simp only [Complex.re_sum, ← Finset.sum_neg_distrib]
    refine Finset.sum_congr rfl fun j _ => ?_
    rw [div_eq_mul_inv, Complex.re_ofReal_mul, show msZ beta i + (mu : ℂ) - (e j : ℂ) = msZ beta i - ((e j - mu : ℝ) : ℂ) by push_cast; ring,
      re_simple hb]
    ring
  rw [msSum_eq hb]
  set W := msW beta (N - 1) with hWd
  have hW : 0 < W := msW_pos hb _
  set x : ι → ℝ := fun j => e j - mu with hx
  set m : ℝ := -(g (N - 1)).re * W ^ 2 with hm
  have hm' : m = ∑ j, a j * (x j * (W ^ 2 / (W ^ 2 + x j ^ 2))) := by
    rw [hm, hre, neg_neg, Finset.sum_mul]
    exact Finset.sum_congr rfl fun j _ => by rw [← hWd]; ring
  have hma : |m| ≤ ∑ j, |a j| * |x j| := by
    rw [hm']
    refine (Finset.abs_sum_le_sum_abs _ _).trans (Finset.sum_le_sum fun j _ => ?_)
    rw [abs_mul, abs_mul, ← mul_assoc, abs_of_nonneg (by positivity : 0 ≤ W ^ 2 / (W ^ 2 + x j ^ 2))]
    refine mul_le_of_le_one_right (by positivity) ((div_le_one (by positivity)).mpr (by nlinarith [sq_nonneg (x j)]))
  have hmM : |m - ∑ j, a j * x j| ≤ (∑ j, |a j| * |x j| ^ 3) / W ^ 2 := by
    rw [hm', ← Finset.sum_sub_distrib, Finset.sum_div]
    refine (Finset.abs_sum_le_sum_abs _ _).trans (Finset.sum_le_sum fun j _ => ?_)
    have : a j * (x j * (W ^ 2 / (W ^ 2 + x j ^ 2))) - a j * x j = -(a j * (x j ^ 3 / (W ^ 2 + x j ^ 2))) := by
      have : W ^ 2 + x j ^ 2 ≠ 0 := by positivity
      field_simp
      ring
    rw [this, abs_neg, abs_mul, abs_div, abs_pow, mul_div_assoc, abs_of_pos (by positivity : 0 < W ^ 2 + x j ^ 2)]
    gcongr
    nlinarith [sq_nonneg (x j)]
  -- the whole series
  set D : ℕ → ℝ := fun i => (g i).re + m / (msW beta i ^ 2 + m ^ 2) with hD
  have hsum : HasSum D (beta / 2 * (∑ j, a j * Spec.fermiOcc beta (x j) - Spec.fermiOcc beta m)) := by
    have h1 : HasSum (fun i => m / (msW beta i ^ 2 + m ^ 2)) (beta / 2 * (1 / 2 - Spec.fermiOcc beta m)) := hasSum_fermi hb m
    have h2 : HasSum (fun i => ∑ j, a j * (x j / (msW beta i ^ 2 + x j ^ 2))) (∑ j, a j * (beta / 2 * (1 / 2 - Spec.fermiOcc beta (x j)))) :=
      hasSum_sum fun j _ => (hasSum_fermi hb (x j)).mul_left (a j)
    have h3 := h1.sub h2
    have e : beta / 2 * (1 / 2 - Spec.fermiOcc beta m) - ∑ j, a j * (beta / 2 * (1 / 2 - Spec.fermiOcc beta (x j))) =
        beta / 2 * (∑ j, a j * Spec.fermiOcc beta (x j) - Spec.fermiOcc beta m) := by
      have : ∑ j, a j * (beta / 2 * (1 / 2 - Spec.fermiOcc beta (x j))) = beta / 2 * (1 / 2 * ∑ j, a j - ∑ j, a j * Spec.fermiOcc beta (x j)) := by
        rw [Finset.mul_sum, ← Finset.sum_sub_distrib, Finset.mul_sum]
        exact Finset.sum_congr rfl fun j _ => by ring
      rw [this, ha]
      ring
    rw [e] at h3
    have hDe : D = fun b => m / (msW beta b ^ 2 + m ^ 2) - ∑ j, a j * (x j / (msW beta b ^ 2 + x j ^ 2)) := by
      funext i
      simp only [hD, hre]
      ring
    rw [hDe]
    exact h3
  have hs := hsum.summable.sum_add_tsum_nat_add N
  rw [hsum.tsum_eq] at hs
  have he : Spec.fermiOcc beta m + 2 / beta * ∑ i ∈ Finset.range N, D i - ∑ j, a j * Spec.fermiOcc beta (x j) = -(2 / beta * ∑' i, D (i + N)) := by
    have : ∑ i ∈ Finset.range N, D i = beta / 2 * (∑ j, a j * Spec.fermiOcc beta (x j) - Spec.fermiOcc beta m) - ∑' i, D (i + N) := by linarith
    rw [this]
    field_simp
    ring
  change |Spec.fermiOcc beta m + 2 / beta * ∑ i ∈ Finset.range N, D i - ∑ j, a j * Spec.fermiOcc beta (x j)| ≤ _
  rw [he, abs_neg, abs_mul, abs_of_pos (by positivity : 0 < 2 / beta)]
  set A1 := ∑ j, |a j| * |x j| with hA1
  set A3 := ∑ j, |a j| * |x j| ^ 3 with hA3
  have hDle : ∀ i, ‖D (i + N)‖ ≤ (2 * A3 + A1 ^ 3) / W ^ 2 * (1 / msW beta (i + N) ^ 2) := fun i => by
    have hw := msW_pos hb (i + N)
    have hWw : W ≤ msW beta (i + N) := by
      rw [hWd]
      unfold msW
      have : ((N - 1 : ℕ) : ℝ) ≤ ((i + N : ℕ) : ℝ) := by exact_mod_cast (by omega)
      gcongr
    set w := msW beta (i + N)
    have h1 := term_tail (m := m) hw hW hWw
    have h3 : |∑ j, a j * (x j / w ^ 2 - x j / (w ^ 2 + x j ^ 2))| ≤ A3 / W ^ 2 * (1 / w ^ 2) := by
      rw [hA3, Finset.sum_div, Finset.sum_mul]
      refine (Finset.abs_sum_le_sum_abs _ _).trans (Finset.sum_le_sum fun j _ => ?_)
      rw [abs_mul]
      calc _ ≤ |a j| * (|x j| ^ 3 / W ^ 2 * (1 / w ^ 2)) := mul_le_mul_of_nonneg_left (term_tail hw hW hWw) (abs_nonneg _)
        _ = _ := by ring
    have h2 : |(m - ∑ j, a j * x j) / w ^ 2| ≤ A3 / W ^ 2 * (1 / w ^ 2) := by
      rw [abs_div, abs_of_pos (by positivity : 0 < w ^ 2), div_eq_mul_one_div |_|]
      gcongr
    have h4 : |m| ^ 3 / W ^ 2 * (1 / w ^ 2) ≤ A1 ^ 3 / W ^ 2 * (1 / w ^ 2) := by gcongr
    have hd : D (i + N) = -(m / w ^ 2 - m / (w ^ 2 + m ^ 2)) + (m - ∑ j, a j * x j) / w ^ 2 + ∑ j, a j * (x j / w ^ 2 - x j / (w ^ 2 + x j ^ 2)) := by
      have e1 : ∑ j, a j * (x j / w ^ 2 - x j / (w ^ 2 + x j ^ 2)) = (∑ j, a j * x j) / w ^ 2 - ∑ j, a j * (x j / (w ^ 2 + x j ^ 2)) := by
        rw [Finset.sum_div, ← Finset.sum_sub_distrib]
        exact Finset.sum_congr rfl fun j _ => by ring
      rw [e1]
      simp only [hD, hre]
      ring
    rw [Real.norm_eq_abs, hd]
    have h5 := abs_add_three (-(m / w ^ 2 - m / (w ^ 2 + m ^ 2))) ((m - ∑ j, a j * x j) / w ^ 2) (∑ j, a j * (x j / w ^ 2 - x j / (w ^ 2 + x j ^ 2)))
    rw [abs_neg] at h5
    have : (2 * A3 + A1 ^ 3) / W ^ 2 * (1 / w ^ 2) = A1 ^ 3 / W ^ 2 * (1 / w ^ 2) + A3 / W ^ 2 * (1 / w ^ 2) + A3 / W ^ 2 * (1 / w ^ 2) := by ring
    linarith
  have hss : Summable fun i => (2 * A3 + A1 ^ 3) / W ^ 2 * (1 / msW beta (i + N) ^ 2) := ((summable_nat_add_iff N).mpr (summable_w2 hb)).mul_left _
  have ht := tsum_of_norm_bounded hss.hasSum hDle
  rw [Real.norm_eq_abs, tsum_mul_left] at ht
  have hA : 0 ≤ (2 * A3 + A1 ^ 3) / W ^ 2 := by
    have h1 : 0 ≤ A1 := Finset.sum_nonneg fun j _ => by positivity
    have h3 : 0 ≤ A3 := Finset.sum_nonneg fun j _ => by positivity
    positivity
  calc 2 / beta * |∑' i, D (i + N)| ≤ 2 / beta * ((2 * A3 + A1 ^ 3) / W ^ 2 * ((beta / (2 * Real.pi)) ^ 2 / N)) :=
        mul_le_mul_of_nonneg_left (ht.trans (mul_le_mul_of_nonneg_left (tail_w2 hb hN) hA)) (by positivity)
    _ = matsumErr beta A1 A3 N := by
        unfold matsumErr
        rw [← hWd]
        have : (N : ℝ) ≠ 0 := by positivity
        field_simp

end Edpyt
