import Verif.Spec.PhaseSpace
import Verif.Props.Cotunneling
import Mathlib.Analysis.SpecialFunctions.Log.Deriv
import Mathlib.MeasureTheory.Integral.IntervalIntegral.FundThmCalculus
/-!
Property C97: the approximate cotunnelling rate is the phase space integral with the amplitude at one energy.
-/
namespace Edpyt
open Spec MeasureTheory Filter Topology

theorem integral_of_nonneg_deriv {F F' : ℝ → ℝ} {m M : ℝ} (hd : ∀ x, HasDerivAt F (F' x) x) (hc : Continuous F') (h0 : ∀ x, 0 ≤ F' x)
    (hbot : Tendsto F atBot (𝓝 m)) (htop : Tendsto F atTop (𝓝 M)) : Integrable F' ∧ ∫ x, F' x = M - m := by
  have hi : Integrable F' := by
    refine integrable_of_intervalIntegral_norm_tendsto (a := fun x : ℝ => -x) (b := fun x : ℝ => x) (l := atTop) (M - m) (fun i => hc.integrableOn_Ioc) tendsto_neg_atTop_atBot tendsto_id ?_
    have : ∀ i : ℝ, ∫ x in (-i)..i, ‖F' x‖ = F i - F (-i) := by
      intro i
      rw [← intervalIntegral.integral_eq_sub_of_hasDerivAt (fun x _ => hd x) (hc.intervalIntegrable _ _)]
      congr 1
      funext x
      rw [Real.norm_of_nonneg (h0 x)]
    simp only [this]
    exact htop.sub (hbot.comp tendsto_neg_atTop_atBot)
  exact ⟨hi, integral_of_hasDerivAt_of_tendsto hd hi hbot htop⟩

/-- `log (1 + e^{-βx}) / β`, an antiderivative of minus the Fermi function. -/
noncomputable def softplus (β x : ℝ) : ℝ := Real.log (1 + Real.exp (-(β * x))) / β

theorem softplus_deriv {β : ℝ} (hb : 0 < β) (μ x : ℝ) : HasDerivAt (fun E => softplus β (E - μ)) (-(fermiDirac β μ x)) x := by
  unfold softplus fermiDirac
  have h1 : HasDerivAt (fun E : ℝ => -(β * (E - μ))) (-(β * 1)) x := (((hasDerivAt_id x).sub_const μ).const_mul β).neg
  have h2 := ((h1.exp.const_add 1).log (by positivity)).div_const β
  refine h2.congr_deriv ?_
  rw [Real.exp_neg]
  have := Real.exp_pos (β * (x - μ))
  field_simp

theorem softplus_top {β : ℝ} (hb : 0 < β) (μ : ℝ) : Tendsto (fun E => softplus β (E - μ)) atTop (𝓝 0) := by
  unfold softplus
  have h1 : Tendsto (fun E : ℝ => -(β * (E - μ))) atTop atBot :=
    tendsto_neg_atTop_atBot.comp ((tendsto_atTop_add_const_right _ (-μ) tendsto_id).const_mul_atTop hb)
  have h2 := ((Real.tendsto_exp_atBot.comp h1).const_add 1).log (by norm_num)
  simpa using h2.div_const β

/-- `softplus β x = -x + softplus β (-x)`. -/
theorem softplus_reflect {β : ℝ} (hb : 0 < β) (x : ℝ) : softplus β x = softplus β (-x) - x := by
  unfold softplus
  have h1 : 1 + Real.exp (-(β * x)) = Real.exp (-(β * x)) * (1 + Real.exp (-(β * -x))) := by
    rw [mul_add, mul_one, ← Real.exp_add]; ring_nf; simp; ring
  rw [h1, Real.log_mul (Real.exp_pos _).ne' (by positivity), Real.log_exp]
  field_simp
  ring

theorem softplus_diff_bot {β : ℝ} (hb : 0 < β) (a b : ℝ) : Tendsto (fun E => softplus β (E - a) - softplus β (E - b)) atBot (𝓝 (a - b)) := by
  have h1 : Tendsto (fun E => softplus β (-(E - a))) atBot (𝓝 0) := by
    have := (softplus_top hb (-a)).comp tendsto_neg_atBot_atTop
    refine this.congr fun E => ?_
    simp only [Function.comp]; congr 1; ring
  have h2 : Tendsto (fun E => softplus β (-(E - b))) atBot (𝓝 0) := by
    have := (softplus_top hb (-b)).comp tendsto_neg_atBot_atTop
    refine this.congr fun E => ?_
    simp only [Function.comp]; congr 1; ring
  have h3 := (h1.sub h2).add_const (a - b)
  rw [sub_zero, zero_add] at h3
  refine h3.congr fun E => ?_
  rw [softplus_reflect hb (E - a), softplus_reflect hb (E - b)]
  ring

theorem fermiDirac_continuous (β μ : ℝ) : Continuous (fermiDirac β μ) := by
  unfold fermiDirac
  refine continuous_const.div (by fun_prop) fun x => by positivity

theorem fermiDirac_pos (β μ E : ℝ) : 0 < fermiDirac β μ E := by unfold fermiDirac; positivity
theorem fermiDirac_lt_one (β μ E : ℝ) : fermiDirac β μ E < 1 := by
  unfold fermiDirac
  rw [div_lt_one (by positivity)]
  linarith [Real.exp_pos (β * (E - μ))]

theorem fermi_product {β μe μi dE : ℝ} (hx : Real.exp (β * (dE - μe + μi)) - 1 ≠ 0) (E : ℝ) :
    fermiDirac β μe (E + dE) * (1 - fermiDirac β μi E) =
      (-(fermiDirac β (μe - dE) E) - -(fermiDirac β μi E)) / (Real.exp (β * (dE - μe + μi)) - 1) := by
  unfold fermiDirac
  have e1 : Real.exp (β * (E + dE - μe)) = Real.exp (β * (E - μi)) * Real.exp (β * (dE - μe + μi)) := by rw [← Real.exp_add]; ring_nf
  have e2 : Real.exp (β * (E - (μe - dE))) = Real.exp (β * (E - μi)) * Real.exp (β * (dE - μe + μi)) := by rw [← Real.exp_add]; ring_nf
  rw [e1, e2]
  have p1 := Real.exp_pos (β * (E - μi))
  have p2 := Real.exp_pos (β * (dE - μe + μi))
  set u := Real.exp (β * (E - μi))
  set v := Real.exp (β * (dE - μe + μi))
  have : u * v + 1 ≠ 0 := by positivity
  have : u + 1 ≠ 0 := by positivity
  field_simp
  ring

theorem fermi_product_integral {β : ℝ} (hb : 0 < β) (μe μi dE : ℝ) (hx : dE - μe + μi ≠ 0) :
    Integrable (fun E => fermiDirac β μe (E + dE) * (1 - fermiDirac β μi E)) ∧
      phaseSpace β μe μi dE = (dE - μe + μi) / (Real.exp (β * (dE - μe + μi)) - 1) := by
  have hx' : Real.exp (β * (dE - μe + μi)) - 1 ≠ 0 := by
    intro h
    have : Real.exp (β * (dE - μe + μi)) = 1 := by linarith
    rw [Real.exp_eq_one_iff] at this
    rcases mul_eq_zero.mp this with h | h
    · exact hb.ne' h
    · exact hx h
  have hd : ∀ E, HasDerivAt (fun E => (softplus β (E - (μe - dE)) - softplus β (E - μi)) / (Real.exp (β * (dE - μe + μi)) - 1))
      (fermiDirac β μe (E + dE) * (1 - fermiDirac β μi E)) E := by
    intro E
    rw [fermi_product hx']
    exact ((softplus_deriv hb _ E).sub (softplus_deriv hb _ E)).div_const _
  have key := integral_of_nonneg_deriv hd
    (((fermiDirac_continuous β μe).comp (by fun_prop : Continuous fun E : ℝ => E + dE)).mul (continuous_const.sub (fermiDirac_continuous β μi)))
    (fun E => mul_nonneg (fermiDirac_pos _ _ _).le (by linarith [fermiDirac_lt_one β μi E]))
    ((softplus_diff_bot hb (μe - dE) μi).div_const _) (((softplus_top hb (μe - dE)).sub (softplus_top hb μi)).div_const _)
  refine ⟨key.1, ?_⟩
  unfold phaseSpace
  rw [key.2, sub_zero, zero_div, zero_sub, ← neg_div]
  congr 1
  ring

theorem phaseSpace_zero {β : ℝ} (hb : 0 < β) (μe μi dE : ℝ) (hx : dE - μe + μi = 0) : phaseSpace β μe μi dE = 1 / β := by
  have hd : ∀ E, HasDerivAt (fun E => -(fermiDirac β μi E) / β) (fermiDirac β μe (E + dE) * (1 - fermiDirac β μi E)) E := by
    intro E
    have e1 : fermiDirac β μe (E + dE) = fermiDirac β μi E := by
      unfold fermiDirac; rw [show E + dE - μe = E - μi by linarith]
    rw [e1]
    have h1 : HasDerivAt (fun E : ℝ => β * (E - μi)) (β * 1) E := ((hasDerivAt_id E).sub_const μi).const_mul β
    have h2 := (((h1.exp.add_const 1).inv (by positivity)).neg).div_const β
    unfold fermiDirac
    simp only [one_div]
    refine h2.congr_deriv ?_
    have := Real.exp_pos (β * (E - μi))
    field_simp
    ring
  have ht : Tendsto (fun E : ℝ => β * (E - μi)) atTop atTop := (tendsto_atTop_add_const_right _ (-μi) tendsto_id).const_mul_atTop hb
  have hbt : Tendsto (fun E : ℝ => β * (E - μi)) atBot atBot := (tendsto_atBot_add_const_right _ (-μi) tendsto_id).const_mul_atBot hb
  have l1 : Tendsto (fermiDirac β μi) atTop (𝓝 0) := by
    have : Tendsto (fun E => (Real.exp (β * (E - μi)) + 1)) atTop atTop := tendsto_atTop_add_const_right _ _ (Real.tendsto_exp_atTop.comp ht)
    refine this.inv_tendsto_atTop.congr fun E => ?_
    simp [fermiDirac]
  have l2 : Tendsto (fermiDirac β μi) atBot (𝓝 1) := by
    have := ((Real.tendsto_exp_atBot.comp hbt).add_const 1).inv₀ (by norm_num)
    simp only [zero_add, inv_one] at this
    refine this.congr fun E => ?_
    simp [fermiDirac]
  have key := integral_of_nonneg_deriv hd
    (((fermiDirac_continuous β μe).comp (by fun_prop : Continuous fun E : ℝ => E + dE)).mul (continuous_const.sub (fermiDirac_continuous β μi)))
    (fun E => mul_nonneg (fermiDirac_pos _ _ _).le (by linarith [fermiDirac_lt_one β μi E]))
    (l2.neg.div_const β) (l1.neg.div_const β)
  unfold phaseSpace
  rw [key.2]
  ring

/-- **C97**: wherever the code does not special-case the argument, the approximate rate of an element is its squared amplitude at the middle
of the energy window times the phase space integral. -/
theorem C97_partial {beta : ℝ} (hb : 0 < beta) (s : CoSigma) (A : List (List ℝ)) (mu : List ℝ) (extract inject : ℕ) {me mi r : ℝ}
    (he : mu[extract]? = some me) (hi : mu[inject]? = some mi) (hr : s.call (0.5 * (s.gf2.dE + mu.sum)) A extract inject = .ok r)
    (h1 : 1e-18 ≤ beta * |s.gf2.dE - me + mi|) (h2 : beta * (s.gf2.dE - me + mi) ≤ 1000) :
    s.approximate A beta mu extract inject = .ok (phaseSpace beta me mi s.gf2.dE * r) := by
  have hget : ∀ {m : ℕ} {x : ℝ}, mu[m]? = some x → getItem mu (m : ℤ) = .ok x := by
    intro m x hx
    obtain ⟨h1, h2⟩ := List.getElem?_eq_some_iff.mp hx
    rw [getItem_natCast _ _ h1, h2]
  have hx : s.gf2.dE - me + mi ≠ 0 := by
    intro h; rw [h] at h1; norm_num at h1
  simp only [CoSigma.approximate, hget he, hget hi, hr, Bind.bind, Except.bind, Pure.pure, Except.pure]
  rw [(fermi_product_integral hb me mi _ hx).2, coG, if_neg (by linarith), if_neg (by linarith)]

/-- **C97** is false for a process without energy cost: the rate of the code is `beta` times too large. -/
theorem C97_refuted {beta : ℝ} (hb : 0 < beta) (s : CoSigma) (A : List (List ℝ)) (mu : List ℝ) (extract inject : ℕ) {me mi r : ℝ}
    (he : mu[extract]? = some me) (hi : mu[inject]? = some mi) (hr : s.call (0.5 * (s.gf2.dE + mu.sum)) A extract inject = .ok r)
    (h0 : s.gf2.dE - me + mi = 0) : s.approximate A beta mu extract inject = .ok (beta * (phaseSpace beta me mi s.gf2.dE * r)) := by
  have hget : ∀ {m : ℕ} {x : ℝ}, mu[m]? = some x → getItem mu (m : ℤ) = .ok x := by
    intro m x hx
    obtain ⟨h1, h2⟩ := List.getElem?_eq_some_iff.mp hx
    rw [getItem_natCast _ _ h1, h2]
  simp only [CoSigma.approximate, hget he, hget hi, hr, Bind.bind, Except.bind, Pure.pure, Except.pure]
  rw [phaseSpace_zero hb me mi _ h0, h0, coG, if_pos (by norm_num)]
  congr 1
  field_simp

/-- **C97** is also false far above the threshold: the code drops a positive rate. -/
theorem C97_refuted_cutoff {beta : ℝ} (hb : 0 < beta) (s : CoSigma) (A : List (List ℝ)) (mu : List ℝ) (extract inject : ℕ) {me mi r : ℝ}
    (he : mu[extract]? = some me) (hi : mu[inject]? = some mi) (hr : s.call (0.5 * (s.gf2.dE + mu.sum)) A extract inject = .ok r)
    (h0 : 1000 < beta * (s.gf2.dE - me + mi)) : s.approximate A beta mu extract inject = .ok 0 ∧ 0 < phaseSpace beta me mi s.gf2.dE := by
  have hget : ∀ {m : ℕ} {x : ℝ}, mu[m]? = some x → getItem mu (m : ℤ) = .ok x := by
    intro m x hx
    obtain ⟨h1, h2⟩ := List.getElem?_eq_some_iff.mp hx
    rw [getItem_natCast _ _ h1, h2]
  have hx : 0 < s.gf2.dE - me + mi := by
    by_contra h
    have : beta * (s.gf2.dE - me + mi) ≤ 0 := mul_nonpos_of_nonneg_of_nonpos hb.le (by linarith)
    linarith
  constructor
  · simp only [CoSigma.approximate, hget he, hget hi, hr, Bind.bind, Except.bind, Pure.pure, Except.pure]
    rw [coG, if_neg (by rw [abs_of_pos hx]; linarith), if_pos h0, zero_mul]
  · rw [(fermi_product_integral hb me mi _ hx.ne').2]
    apply div_pos hx
    have := Real.one_lt_exp_iff.mpr (mul_pos hb hx)
    linarith

/-- An elastic element of a system with one site. -/
noncomputable def exElastic : CoSigma := .e ⟨(1, 0, 0), (1, 0, 0), [[1]], [[1]], [3], 0⟩

/-- C97 at a bias of one and temperature 1/10, and its failure without bias: the code is off by a factor ten. -/
example : ∃ r : ℝ, 0 < r ∧ exElastic.approximate [[1], [1]] 10 [1, 0] 0 1 = .ok (phaseSpace 10 1 0 0 * r) ∧
    ∃ r' : ℝ, 0 < r' ∧ exElastic.approximate [[1], [1]] 10 [0, 0] 0 1 = .ok (10 * (phaseSpace 10 0 0 0 * r')) := by
  have hc : ∀ z, exElastic.call z [[1], [1]] 0 1 = .ok (((z - 3)⁻¹) ^ 2) := by
    intro z
    simp [exElastic, CoSigma.call, CoGf2.call, dotRows, dotArr, getItem, pyIndex, Bind.bind, Except.bind, Pure.pure, Except.pure]
  refine ⟨_, ?_, C97_partial (me := 1) (mi := 0) (by norm_num) _ _ _ 0 1 rfl rfl (hc _) ?_ ?_, _, ?_,
    C97_refuted (me := 0) (mi := 0) (by norm_num) _ _ _ 0 1 rfl rfl (hc _) ?_⟩ <;> norm_num [exElastic, CoSigma.gf2]

end Edpyt
