import Mathlib.MeasureTheory.Integral.IntegralEqImproper
import Verif.Props.Cotnl
/-!
C173: the thermal factor `G` of the approximate cotunnelling rates (`edpyt/cotnl.py:210-216`, `edpyt/cotunneling.py:229-236`) and the phase space of the leads.
-/
namespace Edpyt
open Spec Filter Topology MeasureTheory Set

/-- A nonnegative function with an antiderivative that has limits at both ends. -/
theorem integral_line {g g' : ℝ → ℝ} {l m : ℝ} (hd : ∀ x, HasDerivAt g (g' x) x) (h0 : ∀ x, 0 ≤ g' x) (hl : Tendsto g atTop (𝓝 l)) (hm : Tendsto g atBot (𝓝 m)) :
    Integrable g' ∧ ∫ x, g' x = l - m := by
  have h1 : IntegrableOn g' (Ioi 0) := integrableOn_Ioi_deriv_of_nonneg' (fun x _ => hd x) (fun x _ => h0 x) hl
  have h2 : IntegrableOn (fun x => g' (-x)) (Ioi 0) := by
    refine integrableOn_Ioi_deriv_of_nonneg' (g := fun x => -g (-x)) (l := -m) (fun x _ => ?_) (fun x _ => h0 _) ((hm.comp tendsto_neg_atTop_atBot).neg)
    have := ((hd (-x)).comp x (hasDerivAt_neg x)).neg
    exact HasDerivAt.congr_deriv this (by simp)
  have h3 : IntegrableOn g' (Iic 0) := by
    rw [← integrableOn_Ici_iff_integrableOn_Ioi, ← neg_zero] at h2
    have := h2.comp_neg_Iic
    simpa using this
  have h4 : Integrable g' := by
    rw [← integrableOn_univ, ← Iic_union_Ioi (a := (0 : ℝ))]
    exact h3.union h1
  exact ⟨h4, integral_of_hasDerivAt_of_tendsto hd h4 hm hl⟩

theorem fermiProduct_nn (beta e muE muI : ℝ) : 0 ≤ fermiProduct beta e muE muI := by unfold fermiProduct; positivity

theorem tendsto_exp_bot {beta : ℝ} (hb : 0 < beta) (m : ℝ) : Tendsto (fun e => Real.exp (beta * (e - m))) atBot (𝓝 0) := by
  refine Real.tendsto_exp_atBot.comp ?_
  exact (tendsto_atBot_add_const_right atBot (-m) tendsto_id).const_mul_atBot hb

theorem tendsto_exp_top {beta : ℝ} (hb : 0 < beta) (m : ℝ) : Tendsto (fun e => Real.exp (-(beta * (e - m)))) atTop (𝓝 0) := by
  refine Real.tendsto_exp_neg_atTop_nhds_zero.comp ?_
  exact (tendsto_atTop_add_const_right atTop (-m) tendsto_id).const_mul_atTop hb

theorem exp_line (beta m e : ℝ) : HasDerivAt (fun e => Real.exp (beta * (e - m))) (beta * Real.exp (beta * (e - m))) e := by
  have := (((hasDerivAt_id e).sub_const m).const_mul beta).exp
  exact HasDerivAt.congr_deriv this (by simp; ring)

/-- The phase space for electrons that go from a lead at `muE` to a lead at `muI`. -/
theorem phase_space {beta muE muI : ℝ} (hb : 0 < beta) (hx : muI - muE ≠ 0) :
    Integrable (fun e => fermiProduct beta e muE muI) ∧ ∫ e, fermiProduct beta e muE muI = (muI - muE) / (Real.exp (beta * (muI - muE)) - 1) := by
  have hE : Real.exp (beta * (muI - muE)) - 1 ≠ 0 := by
    intro h
    have := (Real.exp_eq_one_iff _).mp (by linarith : Real.exp (beta * (muI - muE)) = 1)
    rcases mul_eq_zero.mp this with h | h
    · exact hb.ne' h
    · exact hx h
  set k := 1 / (beta * (Real.exp (beta * (muI - muE)) - 1)) with hk
  have h := integral_line (g := fun e => k * (Real.log (1 + Real.exp (beta * (e - muE))) - Real.log (1 + Real.exp (beta * (e - muI)))))
    (g' := fun e => fermiProduct beta e muE muI) (l := k * (beta * (muI - muE) + (0 - 0))) (m := k * (0 - 0)) ?_ (fun e => fermiProduct_nn _ _ _ _) ?_ ?_
  · refine ⟨h.1, h.2.trans ?_⟩
    rw [hk]
    field_simp
    ring
  · intro e
    have d1 := ((exp_line beta muE e).const_add 1).log (by positivity)
    have d2 := ((exp_line beta muI e).const_add 1).log (by positivity)
    refine HasDerivAt.congr_deriv ((d1.sub d2).const_mul k) ?_
    unfold fermiProduct
    have hp : Real.exp (beta * (e - muE)) = Real.exp (beta * (e - muI)) * Real.exp (beta * (muI - muE)) := by
      rw [← Real.exp_add]; congr 1; ring
    have hq : Real.exp (-beta * (e - muI)) = (Real.exp (beta * (e - muI)))⁻¹ := by rw [← Real.exp_neg]; congr 1; ring
    rw [hq, hp, hk]
    have q0 := Real.exp_pos (beta * (e - muI))
    have y0 := Real.exp_pos (beta * (muI - muE))
    generalize Real.exp (beta * (e - muI)) = q at *
    generalize Real.exp (beta * (muI - muE)) = y at *
    have z1 : 1 + q * y ≠ 0 := by positivity
    have z2 : 1 + q ≠ 0 := by positivity
    have z3 : q * y + 1 ≠ 0 := by positivity
    have z4 : q⁻¹ + 1 ≠ 0 := by positivity
    field_simp
    ring
  · have hl : ∀ m e : ℝ, Real.log (1 + Real.exp (beta * (e - m))) = beta * (e - m) + Real.log (1 + Real.exp (-(beta * (e - m)))) := by
      intro m e
      rw [← Real.log_exp (beta * (e - m)), ← Real.log_mul (Real.exp_pos _).ne' (by positivity), Real.log_exp, mul_add, mul_one, ← Real.exp_add, add_neg_cancel, Real.exp_zero, add_comm]
    have t : ∀ m : ℝ, Tendsto (fun e => Real.log (1 + Real.exp (-(beta * (e - m))))) atTop (𝓝 0) := by
      intro m
      have h1 := (tendsto_exp_top hb m).const_add 1
      rw [add_zero] at h1
      have h2 := (Real.continuousAt_log (one_ne_zero)).tendsto.comp h1
      rwa [Real.log_one] at h2
    have := ((tendsto_const_nhds (x := beta * (muI - muE))).add ((t muE).sub (t muI))).const_mul k
    refine this.congr fun e => ?_
    rw [hl muE e, hl muI e]
    ring
  · have t : ∀ m : ℝ, Tendsto (fun e => Real.log (1 + Real.exp (beta * (e - m)))) atBot (𝓝 0) := by
      intro m
      have h1 := (tendsto_exp_bot hb m).const_add 1
      rw [add_zero] at h1
      have h2 := (Real.continuousAt_log (one_ne_zero)).tendsto.comp h1
      rwa [Real.log_one] at h2
    exact ((t muE).sub (t muI)).const_mul k

/-- Without bias the phase space is the temperature. -/
theorem phase_space_zero {beta mu : ℝ} (hb : 0 < beta) : Integrable (fun e => fermiProduct beta e mu mu) ∧ ∫ e, fermiProduct beta e mu mu = 1 / beta := by
  have h := integral_line (g := fun e => -(1 / beta) * (1 + Real.exp (beta * (e - mu)))⁻¹) (g' := fun e => fermiProduct beta e mu mu) (l := 0) (m := -(1 / beta) * (1 + 0)⁻¹)
    ?_ (fun e => fermiProduct_nn _ _ _ _) ?_ ?_
  · refine ⟨h.1, h.2.trans (by simp)⟩
  · intro e
    have d1 := ((exp_line beta mu e).const_add 1).fun_inv (by positivity)
    refine HasDerivAt.congr_deriv (d1.const_mul (-(1 / beta))) ?_
    unfold fermiProduct
    have hq : Real.exp (-beta * (e - mu)) = (Real.exp (beta * (e - mu)))⁻¹ := by rw [← Real.exp_neg]; congr 1; ring
    rw [hq]
    have q0 := Real.exp_pos (beta * (e - mu))
    generalize Real.exp (beta * (e - mu)) = q at *
    have z2 : 1 + q ≠ 0 := by positivity
    have z4 : q⁻¹ + 1 ≠ 0 := by positivity
    field_simp
    ring
  · have h1 : Tendsto (fun e => Real.exp (beta * (e - mu))) atTop atTop := by
      refine Real.tendsto_exp_atTop.comp ?_
      exact (tendsto_atTop_add_const_right atTop (-mu) tendsto_id).const_mul_atTop hb
    have := (tendsto_inv_atTop_zero.comp (tendsto_atTop_add_const_left atTop 1 h1)).const_mul (-(1 / beta))
    rw [mul_zero] at this
    exact this
  · exact (((tendsto_exp_bot hb mu).const_add 1).inv₀ (by norm_num)).const_mul (-(1 / beta))

/-- **C173** (partial: away from zero and below the cutoff) The factor `G(beta, x)` is the phase space of the golden rule: the integral over all energies of the probability that
the state in the one lead is occupied and the state in the other lead is empty. -/
theorem C173_phase_space_partial {beta muE muI : ℝ} (hb : 0 < beta) (h0 : 1e-18 ≤ beta * |muI - muE|) (h1 : beta * (muI - muE) ≤ 1000) :
    Integrable (fun e => fermiProduct beta e muE muI) ∧ ∫ e, fermiProduct beta e muE muI = coG beta (muI - muE) := by
  have hx : muI - muE ≠ 0 := by
    intro h
    rw [h] at h0
    norm_num at h0
  obtain ⟨h2, h3⟩ := phase_space hb hx
  refine ⟨h2, h3.trans ?_⟩
  unfold coG
  rw [if_neg (not_lt.mpr h0), if_neg (not_lt.mpr h1)]

/-- **C173** (beyond the cutoff) Where `G` returns zero, the phase space is positive but below `x exp(-1000)`. -/
theorem C173_cutoff {beta muE muI : ℝ} (hb : 0 < beta) (h1 : 1000 < beta * (muI - muE)) :
    coG beta (muI - muE) = 0 ∧ 0 < ∫ e, fermiProduct beta e muE muI ∧ ∫ e, fermiProduct beta e muE muI ≤ (muI - muE) / (Real.exp 1000 - 1) := by
  have hx : 0 < muI - muE := by
    by_contra h
    have : beta * (muI - muE) ≤ 0 := mul_nonpos_of_nonneg_of_nonpos hb.le (not_lt.mp h)
    linarith
  obtain ⟨-, h3⟩ := phase_space hb hx.ne'
  have h4 : Real.exp 1000 ≤ Real.exp (beta * (muI - muE)) := Real.exp_le_exp.mpr h1.le
  have h5 : 1 < Real.exp 1000 := Real.one_lt_exp_iff.mpr (by norm_num)
  refine ⟨?_, ?_, ?_⟩
  · unfold coG
    rw [abs_of_pos hx, if_neg (by norm_num; linarith), if_pos h1]
  · rw [h3]
    exact div_pos hx (by linarith)
  · rw [h3]
    exact div_le_div_of_nonneg_left hx.le (by linarith) (by linarith)

/-- **C173 refuted** without bias: `G` returns 1, the phase space is `1/beta`. -/
theorem C173_refuted {beta : ℝ} (hb : 0 < beta) (h1 : beta ≠ 1) (mu : ℝ) : ∫ e, fermiProduct beta e mu mu ≠ coG beta (mu - mu) := by
  rw [(phase_space_zero hb).2]
  unfold coG
  rw [sub_self, abs_zero, mul_zero, if_pos (by norm_num)]
  intro h
  rw [div_eq_one_iff_eq hb.ne'] at h
  exact h1 h.symm

/-- Non-vacuity: a bias of one at temperature one. -/
example : (1e-18 : ℝ) ≤ 1 * |(1 : ℝ) - 0| ∧ (1 : ℝ) * (1 - 0) ≤ 1000 := by norm_num

end Edpyt
