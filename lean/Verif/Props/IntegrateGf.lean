import Verif.Model.IntegrateGf
import Verif.Proof.Matsubara
import Verif.Props.FitCg
import Mathlib.Topology.Algebra.InfiniteSum.NatInt
/-!
Theorems about `matsum_gf` of `edpyt/integrate_gf.py`.
-/
namespace Edpyt

open Filter Topology

/-- **C72, partial.** When the call returns, the Green function has its own chemical potential again. -/
theorem C72_partial (call : ℝ → (ℕ → ℂ) → Except PyErr (ℕ → ℂ)) (gfMu mu : ℝ) (nmats : ℕ) (beta n : ℝ)
    (h : (matsumGf call gfMu mu nmats beta).1 = .ok n) : (matsumGf call gfMu mu nmats beta).2 = gfMu := by
  unfold matsumGf at h ⊢
  simp only at h ⊢
  split
  · simp_all
  · split_ifs <;> simp_all

/-- **C72 is false**: when the Green function raises, it is left with the trial chemical potential. -/
theorem C72_refuted (call : ℝ → (ℕ → ℂ) → Except PyErr (ℕ → ℂ)) (gfMu mu : ℝ) (nmats : ℕ) (beta : ℝ) (e : PyErr) (hmu : mu ≠ gfMu)
    (h : call mu (msZ beta) = .error e) : (matsumGf call gfMu mu nmats beta).1 = .error e ∧ (matsumGf call gfMu mu nmats beta).2 ≠ gfMu := by
  unfold matsumGf
  simp [h, hmu]

/-- Matsubara frequency. -/
noncomputable def msW (beta : ℝ) (i : ℕ) : ℝ := (2 * (i : ℝ) + 1) * Real.pi / beta

theorem msZ_eq (beta : ℝ) (i : ℕ) : msZ beta i = (msW beta i : ℂ) * Complex.I := by
  unfold msZ msW
  push_cast
  ring

theorem msW_pos {beta : ℝ} (hb : 0 < beta) (i : ℕ) : 0 < msW beta i := by
  have := Real.pi_pos
  unfold msW
  positivity

theorem re_simple {beta : ℝ} (hb : 0 < beta) (i : ℕ) (x : ℝ) : ((msZ beta i - (x : ℂ))⁻¹).re = -(x / (msW beta i ^ 2 + x ^ 2)) := by
  rw [msZ_eq, Complex.inv_re, Complex.normSq_apply]
  simp only [Complex.sub_re, Complex.sub_im, Complex.mul_re, Complex.mul_im, Complex.ofReal_re, Complex.ofReal_im, Complex.I_re, Complex.I_im, mul_zero, mul_one, zero_mul, sub_zero, zero_sub, add_zero]
  rw [show -x * -x + msW beta i * msW beta i = msW beta i ^ 2 + x ^ 2 by ring]
  ring

theorem msSum_eq {beta : ℝ} (hb : 0 < beta) (N : ℕ) (g : ℕ → ℂ) :
    msSum N beta g = Spec.fermiOcc beta (-(g (N - 1)).re * msW beta (N - 1) ^ 2) + 2 / beta * ∑ i ∈ Finset.range N, ((g i).re +
      (-(g (N - 1)).re * msW beta (N - 1) ^ 2) / (msW beta i ^ 2 + (-(g (N - 1)).re * msW beta (N - 1) ^ 2) ^ 2)) := by
  have him : ∀ i, (msZ beta i).im = msW beta i := fun i => by rw [msZ_eq]; simp
  have hre : ∀ i, (msZ beta i).re = 0 := fun i => by rw [msZ_eq]; simp
  unfold msSum
  simp only [him]
  generalize hm : -(g (N - 1)).re * msW beta (N - 1) ^ 2 = m
  rw [foldl_add_sum]
  have ht : ∀ i, (g i - -((m : ℂ) + msZ beta i) / ((m ^ 2 + msW beta i ^ 2 : ℝ) : ℂ)).re = (g i).re + m / (msW beta i ^ 2 + m ^ 2) := fun i => by
    rw [Complex.sub_re, Complex.div_ofReal_re, Complex.neg_re, Complex.add_re, hre, Complex.ofReal_re]
    rw [add_comm (m ^ 2)]
    ring
  simp only [ht, zero_add]
  have hf : -1 / (1 + Real.exp (-beta * m)) + 1 = Spec.fermiOcc beta m := by
    rw [Spec.fermiOcc, neg_mul, Real.exp_neg]
    have := Real.exp_pos (beta * m)
    field_simp
    ring
  rw [← hf]
  ring

theorem summable_w2 {beta : ℝ} (hb : 0 < beta) : Summable fun i : ℕ => 1 / msW beta i ^ 2 := by
  have h : Summable fun i : ℕ => (beta / Real.pi) ^ 2 * (1 / ((i + 1 : ℕ) : ℝ) ^ 2) :=
    ((summable_nat_add_iff 1).mpr (Real.summable_one_div_nat_pow.mpr (by norm_num : 1 < 2))).mul_left _
  refine Summable.of_nonneg_of_le (fun i => by positivity) (fun i => ?_) h
  have hpi := Real.pi_pos
  unfold msW
  rw [div_pow, mul_pow, one_div, inv_div, div_pow, mul_one_div, div_div]
  push_cast
  rw [mul_comm (Real.pi ^ 2)]
  have hi : (0 : ℝ) ≤ i := Nat.cast_nonneg i
  have : ((i : ℝ) + 1) ^ 2 ≤ (2 * (i : ℝ) + 1) ^ 2 := by gcongr; linarith
  gcongr

/-- The level `m` with all its frequencies but the first `N` summed. -/
theorem level_tail {beta : ℝ} (hb : 0 < beta) (N : ℕ) (m : ℝ) :
    |Spec.fermiOcc beta m + 2 / beta * ∑ i ∈ Finset.range N, m / (msW beta i ^ 2 + m ^ 2) - 1 / 2| ≤ 2 / beta * (|m| * ∑' i, 1 / msW beta (i + N) ^ 2) := by
  have h : HasSum (fun i => m / (msW beta i ^ 2 + m ^ 2)) (beta / 2 * (1 / 2 - Spec.fermiOcc beta m)) := hasSum_fermi hb m
  have hs := h.summable.sum_add_tsum_nat_add N
  rw [h.tsum_eq] at hs
  have he : Spec.fermiOcc beta m + 2 / beta * ∑ i ∈ Finset.range N, m / (msW beta i ^ 2 + m ^ 2) - 1 / 2 =
      -(2 / beta * ∑' i, m / (msW beta (i + N) ^ 2 + m ^ 2)) := by
    have : ∑ i ∈ Finset.range N, m / (msW beta i ^ 2 + m ^ 2) = beta / 2 * (1 / 2 - Spec.fermiOcc beta m) - ∑' i, m / (msW beta (i + N) ^ 2 + m ^ 2) := by
      linarith
    rw [this]
    field_simp
    ring
  rw [he, abs_neg, abs_mul, abs_of_pos (by positivity : 0 < 2 / beta)]
  gcongr
  rw [← tsum_mul_left]
  have hsum : Summable fun i => |m| * (1 / msW beta (i + N) ^ 2) := ((summable_nat_add_iff N).mpr (summable_w2 hb)).mul_left _
  rw [← Real.norm_eq_abs]
  refine tsum_of_norm_bounded hsum.hasSum fun i => ?_
  have hw := msW_pos hb (i + N)
  rw [Real.norm_eq_abs, abs_div, abs_of_pos (by positivity : 0 < msW beta (i + N) ^ 2 + m ^ 2), mul_one_div]
  gcongr
  nlinarith [sq_nonneg m]

/-- **C85.** For every Green function that is a finite sum of poles with weights of sum one, at every chemical potential and temperature, `matsum_gf`
tends to the Fermi occupation of its levels as the number of frequencies grows. -/
theorem C85_matsum_limit {ι : Type} [Fintype ι] (a e : ι → ℝ) (ha : ∑ j, a j = 1) (gfMu mu beta : ℝ) (hb : 0 < beta) :
    ∃ n : ℕ → ℝ, (∀ N, 0 < N → (matsumGf (fun m z => .ok fun i => ∑ j, (a j : ℂ) / (z i + (m : ℂ) - (e j : ℂ))) gfMu mu N beta).1 = .ok (n N)) ∧
      Tendsto n atTop (𝓝 (∑ j, a j * Spec.fermiOcc beta (e j - mu))) := by
  set g : ℕ → ℂ := fun i => ∑ j, (a j : ℂ) / (msZ beta i + (mu : ℂ) - (e j : ℂ)) with hg
  refine ⟨fun N => msSum N beta g, fun N hN => by simp [matsumGf, hN.ne', hg], ?_⟩
  have hre : ∀ i, (g i).re = -∑ j, a j * ((e j - mu) / (msW beta i ^ 2 + (e j - mu) ^ 2)) := fun i => by
    rw [hg]
    simp only [Complex.re_sum, ← Finset.sum_neg_distrib]
    refine Finset.sum_congr rfl fun j _ => ?_
    rw [div_eq_mul_inv, Complex.re_ofReal_mul, show msZ beta i + (mu : ℂ) - (e j : ℂ) = msZ beta i - ((e j - mu : ℝ) : ℂ) by push_cast; ring,
      re_simple hb]
    ring
  set m : ℕ → ℝ := fun N => -(g (N - 1)).re * msW beta (N - 1) ^ 2 with hm
  have hbound : ∀ N, |m N| ≤ ∑ j, |a j| * |e j - mu| := fun N => by
    have hw := msW_pos hb (N - 1)
    rw [hm]
    simp only [hre, neg_neg]
    rw [Finset.sum_mul]
    refine (Finset.abs_sum_le_sum_abs _ _).trans (Finset.sum_le_sum fun j _ => ?_)
    rw [abs_mul, abs_mul, mul_assoc]
    refine mul_le_mul_of_nonneg_left ?_ (abs_nonneg _)
    rw [abs_div, abs_of_pos (by positivity : 0 < msW beta (N - 1) ^ 2 + (e j - mu) ^ 2), abs_of_pos (by positivity : 0 < msW beta (N - 1) ^ 2), div_mul_eq_mul_div,
      div_le_iff₀ (by positivity)]
    refine mul_le_mul_of_nonneg_left ?_ (abs_nonneg _)
    nlinarith [sq_nonneg (e j - mu)]
  have htail : Tendsto (fun N => ∑' i, 1 / msW beta (i + N) ^ 2) atTop (𝓝 0) := tendsto_sum_nat_add fun i => 1 / msW beta i ^ 2
  have h1 : Tendsto (fun N => Spec.fermiOcc beta (m N) + 2 / beta * ∑ i ∈ Finset.range N, m N / (msW beta i ^ 2 + m N ^ 2)) atTop (𝓝 (1 / 2)) := by
    rw [tendsto_iff_norm_sub_tendsto_zero]
    have hz : Tendsto (fun N => 2 / beta * ((∑ j, |a j| * |e j - mu|) * ∑' i, 1 / msW beta (i + N) ^ 2)) atTop (𝓝 0) := by
      simpa using (htail.const_mul (∑ j, |a j| * |e j - mu|)).const_mul (2 / beta)
    refine squeeze_zero (fun N => norm_nonneg _) (fun N => ?_) hz
    rw [Real.norm_eq_abs]
    refine (level_tail hb N (m N)).trans ?_
    have : 0 ≤ ∑' i, 1 / msW beta (i + N) ^ 2 := tsum_nonneg fun i => by positivity
    gcongr
    exact hbound N
  have h2 : Tendsto (fun N => 2 / beta * ∑ i ∈ Finset.range N, ∑ j, a j * ((e j - mu) / (msW beta i ^ 2 + (e j - mu) ^ 2))) atTop
      (𝓝 (2 / beta * ∑ j, a j * (beta / 2 * (1 / 2 - Spec.fermiOcc beta (e j - mu))))) := by
    refine Tendsto.const_mul _ ?_
    have : ∀ N, ∑ i ∈ Finset.range N, ∑ j, a j * ((e j - mu) / (msW beta i ^ 2 + (e j - mu) ^ 2)) =
        ∑ j, a j * ∑ i ∈ Finset.range N, ((e j - mu) / (msW beta i ^ 2 + (e j - mu) ^ 2)) := fun N => by
      rw [Finset.sum_comm]
      exact Finset.sum_congr rfl fun j _ => by rw [Finset.mul_sum]
    simp only [this]
    exact tendsto_finsetSum _ fun j _ => ((hasSum_fermi hb (e j - mu)).tendsto_sum_nat).const_mul _
  have h12 := h1.sub h2
  have hlim : (1 : ℝ) / 2 - 2 / beta * ∑ j, a j * (beta / 2 * (1 / 2 - Spec.fermiOcc beta (e j - mu))) = ∑ j, a j * Spec.fermiOcc beta (e j - mu) := by
    have : ∑ j, a j * (beta / 2 * (1 / 2 - Spec.fermiOcc beta (e j - mu))) = beta / 2 * (1 / 2 * ∑ j, a j - ∑ j, a j * Spec.fermiOcc beta (e j - mu)) := by
      rw [Finset.mul_sum, ← Finset.sum_sub_distrib, Finset.mul_sum]
      exact Finset.sum_congr rfl fun j _ => by ring
    rw [this, ha]
    field_simp
    ring
  rw [hlim] at h12
  refine h12.congr fun N => ?_
  rw [msSum_eq hb]
  change _ = Spec.fermiOcc beta (m N) + 2 / beta * ∑ i ∈ Finset.range N, ((g i).re + m N / (msW beta i ^ 2 + m N ^ 2))
  simp only [hre]
  rw [Finset.sum_add_distrib, Finset.sum_neg_distrib]
  ring

/-- Non-vacuity: one level. -/
example : ∃ n : ℕ → ℝ, (∀ N, 0 < N → (matsumGf (fun m z => .ok fun i => ∑ _j : Fin 1, ((1 : ℝ) : ℂ) / (z i + (m : ℂ) - ((2 : ℝ) : ℂ))) 5 1 N 10).1 = .ok (n N)) ∧
    Tendsto n atTop (𝓝 (∑ _j : Fin 1, 1 * Spec.fermiOcc 10 (2 - 1))) :=
  C85_matsum_limit (ι := Fin 1) (fun _ => 1) (fun _ => 2) (by simp) 5 1 10 (by norm_num)

end Edpyt
