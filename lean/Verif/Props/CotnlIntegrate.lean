import Mathlib.MeasureTheory.Integral.IntervalIntegral.TrapezoidalRule
import Mathlib.Analysis.Complex.ExponentialBounds
import Verif.Props.NScreen
/-!
C172: the numerical integration of a rate in `cotnl` (`Sigma.integrate`, `edpyt/cotnl.py:262-270`).
-/
namespace Edpyt
open Spec

/-! ## Specification -/

/-- The weight of the integrand: a Fermi function whose argument contains the second one. -/
noncomputable def Spec.nestedWeight (beta e muE muI : ℝ) : ℝ := 1 / (Real.exp (beta * (e - muE) * (1 / (Real.exp (-beta * (e - muI)) + 1))) + 1)

/-- The integrand for the couplings `u` of the extracting and `v` of the injecting lead: squared amplitude times weight. -/
noncomputable def Spec.coIntegrand (u v : List ℝ) (beta muE muI : ℝ) (s : NSigma) (e : ℝ) : ℝ := ampSigma u v e s ^ 2 * nestedWeight beta e muE muI

/-- The integrand of the golden rule: squared amplitude, times the probability that the state in the one lead is occupied and the one in the other lead empty. -/
noncomputable def Spec.goldenIntegrand (u v : List ℝ) (beta muE muI : ℝ) (s : NSigma) (e : ℝ) : ℝ := ampSigma u v e s ^ 2 * fermiProduct beta e muE muI

/-- The window of the integration. -/
noncomputable def Spec.windowLo (beta muE muI : ℝ) : ℝ := min muE muI - 4 / beta
noncomputable def Spec.windowHi (beta muE muI : ℝ) : ℝ := max muE muI + 4 / beta

/-! ## The trapezoidal sum -/

theorem trapz_points (f : ℝ → ℝ) (h : ℝ) : ∀ (k : ℕ) (a : ℝ), trapz (((List.range (k + 1)).map fun i : ℕ => a + (i : ℝ) * h).map f) ((List.range (k + 1)).map fun i : ℕ => a + (i : ℝ) * h) =
    ∑ i ∈ Finset.range k, h * (f (a + i * h) + f (a + (i + 1) * h)) / 2 := by
  intro k
  induction k with
  | zero => intro a; simp [trapz]
  | succ k ih =>
    intro a
    have hc : (List.range (k + 1 + 1)).map (fun i : ℕ => a + (i : ℝ) * h) = a :: (List.range (k + 1)).map fun i : ℕ => (a + h) + (i : ℝ) * h := by
      rw [List.range_succ_eq_map, List.map_cons, List.map_map]
      congr 1
      · simp
      · apply List.map_congr_left
        intro i _
        simp only [Function.comp, Nat.succ_eq_add_one]
        push_cast
        ring
    have hd : (List.range (k + 1)).map (fun i : ℕ => (a + h) + (i : ℝ) * h) = (a + h) :: ((List.range k).map Nat.succ).map fun i : ℕ => (a + h) + (i : ℝ) * h := by
      rw [List.range_succ_eq_map, List.map_cons]
      simp
    have := ih (a + h)
    rw [hc, Finset.sum_range_succ']
    rw [hd] at this ⊢
    simp only [List.map_cons] at this ⊢
    rw [trapz, this]
    have e : ∀ i ∈ Finset.range k, h * (f (a + h + i * h) + f (a + h + (i + 1) * h)) / 2 = h * (f (a + ((i + 1 : ℕ) : ℝ) * h) + f (a + (((i + 1 : ℕ) : ℝ) + 1) * h)) / 2 := by
      intro i _
      push_cast
      rw [show a + h + i * h = a + (i + 1) * h by ring, show a + h + (i + 1) * h = a + (i + 1 + 1) * h by ring]
    rw [Finset.sum_congr rfl e]
    simp only [Nat.cast_zero, zero_mul, add_zero, zero_add, one_mul]
    ring

theorem trapz_linspace (f : ℝ → ℝ) (a b : ℝ) :
    trapz ((linspace200 a b).map f) (linspace200 a b) = ∑ i ∈ Finset.range 199, (b - a) / 199 * (f (a + i * ((b - a) / 199)) + f (a + (i + 1) * ((b - a) / 199))) / 2 :=
  trapz_points f ((b - a) / 199) 199 a

theorem trapz_rule (f : ℝ → ℝ) (a b : ℝ) : trapz ((linspace200 a b).map f) (linspace200 a b) = trapezoidal_integral f 199 a b := by
  rw [trapz_linspace]
  have := sum_trapezoidal_integral_adjacent_intervals (f := f) (N := 199) (a := a) (h := (b - a) / 199) (by norm_num)
  rw [show a + ((199 : ℕ) : ℝ) * ((b - a) / 199) = b by push_cast; field_simp; ring] at this
  rw [← this]
  apply Finset.sum_congr rfl
  intro i _
  rw [trapezoidal_integral_one]
  ring

theorem mapM_ok_map {α β : Type} {f : α → Except PyErr β} {g : α → β} : ∀ (l : List α), (∀ x ∈ l, f x = .ok (g x)) → l.mapM f = .ok (l.map g) := by
  intro l
  induction l with
  | nil => intro _; rfl
  | cons x l ih =>
    intro h
    rw [List.mapM_cons, h x (by simp), ih fun y hy => h y (by simp [hy])]
    rfl

theorem integrate_sum {n : ℕ} {s : NSigma} (h : ∀ g ∈ s.gf2, ShapedGf n g) {A : List (List ℝ)} {extract inject : ℕ} {u v : List ℝ} (hu : A[extract]? = some u) (hv : A[inject]? = some v)
    (lu : u.length = n) (lv : v.length = n) (beta : ℝ) {mu : List ℝ} {me mi : ℝ} (hme : mu[extract]? = some me) (hmi : mu[inject]? = some mi) :
    s.integrate A beta mu extract inject = .ok (trapz ((linspace200 (windowLo beta (me - s.dE) mi) (windowHi beta (me - s.dE) mi)).map (coIntegrand u v beta (me - s.dE) mi s))
      (linspace200 (windowLo beta (me - s.dE) mi) (windowHi beta (me - s.dE) mi))) := by
  unfold NSigma.integrate
  rw [getItem_some hme, getItem_some hmi]
  simp only [bind, Except.bind]
  rw [mapM_ok_map (g := coIntegrand u v beta (me - s.dE) mi s) _ fun e _ => by rw [sigma_call h hu hv lu lv]; rfl]
  rfl

/-- **C172** (partial: with the weight the code uses) The numerical integration returns the trapezoidal sum with 199 intervals over the window from `4/beta` below the lower to
`4/beta` above the higher of the two chemical potentials. -/
theorem C172_rule_partial {n : ℕ} {s : NSigma} (h : ∀ g ∈ s.gf2, ShapedGf n g) {A : List (List ℝ)} {extract inject : ℕ} {u v : List ℝ} (hu : A[extract]? = some u) (hv : A[inject]? = some v)
    (lu : u.length = n) (lv : v.length = n) (beta : ℝ) {mu : List ℝ} {me mi : ℝ} (hme : mu[extract]? = some me) (hmi : mu[inject]? = some mi) :
    s.integrate A beta mu extract inject =
      .ok (trapezoidal_integral (coIntegrand u v beta (me - s.dE) mi s) 199 (windowLo beta (me - s.dE) mi) (windowHi beta (me - s.dE) mi)) := by
  rw [integrate_sum h hu hv lu lv beta hme hmi, trapz_rule]

/-! ## Error -/

theorem nested_contDiff (beta muE muI : ℝ) : ContDiff ℝ 2 fun e => nestedWeight beta e muE muI := by
  unfold nestedWeight
  have h1 : ContDiff ℝ 2 fun e : ℝ => 1 / (Real.exp (-beta * (e - muI)) + 1) :=
    contDiff_const.div ((Real.contDiff_exp.comp (by fun_prop)).add contDiff_const) fun x => by positivity
  exact contDiff_const.div ((Real.contDiff_exp.comp ((by fun_prop : ContDiff ℝ 2 fun e : ℝ => beta * (e - muE)).mul h1)).add contDiff_const) fun x => by positivity

theorem contDiffOn_list {α : Type} (S : Set ℝ) (F : α → ℝ → ℝ) : ∀ (l : List α), (∀ x ∈ l, ContDiffOn ℝ 2 (F x) S) → ContDiffOn ℝ 2 (fun z => (l.map fun x => F x z).sum) S := by
  intro l
  induction l with
  | nil => intro _; simpa using contDiffOn_const
  | cons x l ih =>
    intro h
    simp only [List.map_cons, List.sum_cons]
    exact (h x (by simp)).add (ih fun y hy => h y (by simp [hy]))

theorem amp_contDiff (u v : List ℝ) (s : NSigma) (S : Set ℝ) (hp : ∀ g ∈ s.gf2, ∀ E ∈ g.E, E ∉ S) : ContDiffOn ℝ 2 (fun z => ampSigma u v z s) S := by
  unfold ampSigma
  refine contDiffOn_list S (fun g z => ampGf u v z g) s.gf2 fun g hg => ?_
  unfold ampGf
  refine contDiffOn_list S (fun r z => (List.zipWith (· * ·) r.1 (if g.el then v else u)).sum * (List.zipWith (· * ·) r.2.1 (if g.el then u else v)).sum * (r.2.2 - z)⁻¹)
    (rowsOf g) fun r hr => ?_
  have hE : r.2.2 ∈ g.E := (List.of_mem_zip (List.of_mem_zip hr).2).2
  refine contDiffOn_const.mul (ContDiffOn.inv (by fun_prop) fun z hz h0 => ?_)
  have : r.2.2 = z := by linarith
  exact hp g hg _ hE (this ▸ hz)

/-- **C172** (error, partial) If no pole lies in the window, the error is at most `(b - a)³ ζ / (12 · 199²)`, where `ζ` bounds the second derivative of the integrand. -/
theorem C172_error_partial {n : ℕ} {s : NSigma} (h : ∀ g ∈ s.gf2, ShapedGf n g) {A : List (List ℝ)} {extract inject : ℕ} {u v : List ℝ} (hu : A[extract]? = some u) (hv : A[inject]? = some v)
    (lu : u.length = n) (lv : v.length = n) {beta : ℝ} (hb : 0 < beta) {mu : List ℝ} {me mi : ℝ} (hme : mu[extract]? = some me) (hmi : mu[inject]? = some mi)
    (hp : ∀ g ∈ s.gf2, ∀ E ∈ g.E, E ∉ Set.Icc (windowLo beta (me - s.dE) mi) (windowHi beta (me - s.dE) mi)) {ζ : ℝ}
    (hζ : ∀ x, |iteratedDerivWithin 2 (coIntegrand u v beta (me - s.dE) mi s) (Set.Icc (windowLo beta (me - s.dE) mi) (windowHi beta (me - s.dE) mi)) x| ≤ ζ) :
    ∃ r, s.integrate A beta mu extract inject = .ok r ∧
      |r - ∫ e in (windowLo beta (me - s.dE) mi)..(windowHi beta (me - s.dE) mi), coIntegrand u v beta (me - s.dE) mi s e| ≤
        (windowHi beta (me - s.dE) mi - windowLo beta (me - s.dE) mi) ^ 3 * ζ / (12 * 199 ^ 2) := by
  refine ⟨_, C172_rule_partial h hu hv lu lv beta hme hmi, ?_⟩
  have hle : windowLo beta (me - s.dE) mi ≤ windowHi beta (me - s.dE) mi := by
    unfold windowLo windowHi
    have h1 : 0 < 4 / beta := by positivity
    have h2 := min_le_max (a := me - s.dE) (b := mi)
    linarith
  have hI := Set.uIcc_of_le hle
  have hc : ContDiffOn ℝ 2 (coIntegrand u v beta (me - s.dE) mi s) (Set.uIcc (windowLo beta (me - s.dE) mi) (windowHi beta (me - s.dE) mi)) := by
    rw [hI]
    unfold coIntegrand
    exact ((amp_contDiff u v s _ hp).pow 2).mul (nested_contDiff _ _ _).contDiffOn
  have := trapezoidal_error_le_of_c2 hc (ζ := ζ) (by rw [hI]; exact hζ) (N := 199) (by norm_num)
  rw [abs_of_nonneg (sub_nonneg.mpr hle)] at this
  exact_mod_cast this

/-! ## Transitions against the bias -/

theorem nested_ge {beta e muE muI : ℝ} (hb : 0 < beta) (he : e ≤ (muE + muI) / 2) : 1 / 4 ≤ nestedWeight beta e muE muI := by
  unfold nestedWeight
  have hx : beta * (e - muE) * (1 / (Real.exp (-beta * (e - muI)) + 1)) ≤ 1 := by
    by_cases h : e ≤ muE
    · have : beta * (e - muE) * (1 / (Real.exp (-beta * (e - muI)) + 1)) ≤ 0 := mul_nonpos_of_nonpos_of_nonneg (by nlinarith) (by positivity)
      linarith
    · have h1 : beta * (e - muE) ≤ -beta * (e - muI) := by nlinarith
      have h2 := Real.add_one_le_exp (-beta * (e - muI))
      rw [mul_one_div, div_le_one (by positivity)]
      linarith
  have h3 : Real.exp (beta * (e - muE) * (1 / (Real.exp (-beta * (e - muI)) + 1))) ≤ 3 :=
    (Real.exp_le_exp.mpr hx).trans (by have := Real.exp_one_lt_d9; linarith)
  rw [div_le_div_iff₀ (by norm_num) (by positivity)]
  linarith

/-- **C172** (against the bias) If the electron has to gain the energy `V = mu[inject] - mu[extract] + dE > 0`, the computed rate is at least `m V / 9` where `m` bounds the squared
amplitude in the window from below, at every temperature. -/
theorem C172_against_bias {n : ℕ} {s : NSigma} (h : ∀ g ∈ s.gf2, ShapedGf n g) {A : List (List ℝ)} {extract inject : ℕ} {u v : List ℝ} (hu : A[extract]? = some u) (hv : A[inject]? = some v)
    (lu : u.length = n) (lv : v.length = n) {beta : ℝ} (hb : 0 < beta) {mu : List ℝ} {me mi : ℝ} (hme : mu[extract]? = some me) (hmi : mu[inject]? = some mi) {V m : ℝ}
    (hV : V = mi - (me - s.dE)) (hV0 : 0 ≤ V) (hm0 : 0 ≤ m)
    (hm : ∀ e ∈ Set.Icc (windowLo beta (me - s.dE) mi) (windowHi beta (me - s.dE) mi), m ≤ ampSigma u v e s ^ 2) :
    ∃ r, s.integrate A beta mu extract inject = .ok r ∧ m * V / 9 ≤ r := by
  refine ⟨_, integrate_sum h hu hv lu lv beta hme hmi, ?_⟩
  rw [trapz_linspace]
  generalize hM : me - s.dE = M at *
  have hlo : windowLo beta M mi = M - 4 / beta := by unfold windowLo; rw [min_eq_left (by linarith)]
  have hhi : windowHi beta M mi = mi + 4 / beta := by unfold windowHi; rw [max_eq_right (by linarith)]
  rw [hlo, hhi] at hm ⊢
  have hb4 : 0 < 4 / beta := by positivity
  set d := (mi + 4 / beta - (M - 4 / beta)) / 199 with hd
  have hd0 : 0 ≤ d := by rw [hd]; apply div_nonneg <;> linarith
  have hdV : V ≤ 199 * d := by rw [hd]; linarith
  have hin : ∀ i : ℕ, i ≤ 199 → M - 4 / beta + (i : ℝ) * d ∈ Set.Icc (M - 4 / beta) (mi + 4 / beta) := by
    intro i hi
    have hi' : (i : ℝ) ≤ 199 := by exact_mod_cast hi
    have h1 : (i : ℝ) * d ≤ 199 * d := mul_le_mul_of_nonneg_right hi' hd0
    have h2 : 0 ≤ (i : ℝ) * d := by positivity
    constructor
    · linarith
    · rw [hd] at h1 ⊢; linarith
  have hpos : ∀ i : ℕ, i ≤ 199 → 0 ≤ coIntegrand u v beta M mi s (M - 4 / beta + (i : ℝ) * d) := by
    intro i _
    unfold coIntegrand nestedWeight
    positivity
  have hlow : ∀ i : ℕ, i ≤ 99 → m / 4 ≤ coIntegrand u v beta M mi s (M - 4 / beta + (i : ℝ) * d) := by
    intro i hi
    have hi' : (i : ℝ) ≤ 99 := by exact_mod_cast hi
    have h1 : (i : ℝ) * d ≤ 99 * d := mul_le_mul_of_nonneg_right hi' hd0
    have h2 : M - 4 / beta + (i : ℝ) * d ≤ (M + mi) / 2 := by rw [hd] at h1 hd0 ⊢; linarith
    have h3 := nested_ge hb h2
    have h4 := hm _ (hin i (by omega))
    unfold coIntegrand
    have := mul_le_mul h4 h3 (by norm_num) (by positivity)
    linarith
  have hcell : ∀ i ∈ Finset.range 199, 0 ≤ d * (coIntegrand u v beta M mi s (M - 4 / beta + (i : ℝ) * d) + coIntegrand u v beta M mi s (M - 4 / beta + ((i : ℝ) + 1) * d)) / 2 := by
    intro i hi
    have hi := Finset.mem_range.mp hi
    have h1 := hpos i (by omega)
    have h2 := hpos (i + 1) (by omega)
    push_cast at h2
    positivity
  have hsub : Finset.range 99 ⊆ Finset.range 199 := Finset.range_mono (by norm_num)
  have h5 := Finset.sum_le_sum_of_subset_of_nonneg hsub fun i hi _ => hcell i hi
  have h6 : ∑ i ∈ Finset.range 99, d * (m / 4) ≤ ∑ i ∈ Finset.range 99, d * (coIntegrand u v beta M mi s (M - 4 / beta + (i : ℝ) * d) +
      coIntegrand u v beta M mi s (M - 4 / beta + ((i : ℝ) + 1) * d)) / 2 := by
    apply Finset.sum_le_sum
    intro i hi
    have hi := Finset.mem_range.mp hi
    have h1 := hlow i (by omega)
    have h2 := hlow (i + 1) (by omega)
    push_cast at h2
    have := mul_le_mul_of_nonneg_left (add_le_add h1 h2) hd0
    linarith
  rw [Finset.sum_const, Finset.card_range, nsmul_eq_mul] at h6
  push_cast at h6
  have h7 : m * V ≤ m * (199 * d) := mul_le_mul_of_nonneg_left hdV hm0
  have h8 : 0 ≤ m * d := mul_nonneg hm0 hd0
  nlinarith

theorem golden_le {u v : List ℝ} {beta muE muI : ℝ} {s : NSigma} {e M : ℝ} (hM : ampSigma u v e s ^ 2 ≤ M) :
    0 ≤ goldenIntegrand u v beta muE muI s e ∧ goldenIntegrand u v beta muE muI s e ≤ M * Real.exp (-(beta * (muI - muE))) := by
  unfold goldenIntegrand fermiProduct
  have h1 : 1 / (Real.exp (beta * (e - muE)) + 1) ≤ Real.exp (-(beta * (e - muE))) := by
    rw [Real.exp_neg, ← one_div]
    exact one_div_le_one_div_of_le (Real.exp_pos _) (by linarith)
  have h2 : 1 / (Real.exp (-beta * (e - muI)) + 1) ≤ Real.exp (beta * (e - muI)) := by
    have : beta * (e - muI) = -(-beta * (e - muI)) := by ring
    rw [this, Real.exp_neg, ← one_div]
    exact one_div_le_one_div_of_le (Real.exp_pos _) (by linarith)
  refine ⟨by positivity, mul_le_mul hM ?_ (by positivity) (le_trans (by positivity) hM)⟩
  have := mul_le_mul h1 h2 (by positivity) (by positivity)
  rw [← Real.exp_add] at this
  convert this using 2
  ring

/-- One site and one intermediate state at the energy 1000; the couplings make the amplitude about 1 near zero. -/
def farSigma : NSigma := ⟨(0, 0), [⟨true, [[1]], [[1]], [1000], 0⟩], 0⟩

theorem far_shaped : ∀ g ∈ farSigma.gf2, ShapedGf 1 g := by
  intro g hg
  simp only [farSigma, List.mem_singleton] at hg
  subst hg
  exact ⟨rfl, rfl, by simp, by simp, by simp⟩

theorem far_amp (e : ℝ) : ampSigma [1000] [1] e farSigma = 1000 / (1000 - e) := by
  simp [ampSigma, ampGf, rowsOf, farSigma, div_eq_mul_inv]

/-- **C172 refuted**: "the numerical integration gives the golden-rule rate" is false. At temperature 1, for a transition in which an electron goes from a lead at 0 to a lead at 20,
the golden-rule integral over the window is below `1e-4`, and `integrate` returns more than 2. -/
theorem C172_refuted : ∃ r, farSigma.integrate [[1000], [1]] 1 [0, 20] 0 1 = .ok r ∧ 2 < r ∧
    |∫ e in (windowLo 1 0 20)..(windowHi 1 0 20), goldenIntegrand [1000] [1] 1 0 20 farSigma e| ≤ 1e-4 := by
  have hlo : windowLo 1 0 20 = -4 := by norm_num [windowLo]
  have hhi : windowHi 1 0 20 = 24 := by norm_num [windowHi]
  have hdE : (0 : ℝ) - farSigma.dE = 0 := by simp [farSigma]
  have hb : ∀ e ∈ Set.Icc (-4 : ℝ) 24, 0.98 ≤ ampSigma [1000] [1] e farSigma ^ 2 ∧ ampSigma [1000] [1] e farSigma ^ 2 ≤ 1.1 := by
    intro e ⟨h1, h2⟩
    rw [far_amp, div_pow]
    have h0 : 0 < (1000 - e) ^ 2 := by have : 0 < 1000 - e := by linarith
                                       positivity
    rw [le_div_iff₀ h0, div_le_iff₀ h0]
    constructor <;> nlinarith
  obtain ⟨r, h1, h2⟩ := C172_against_bias far_shaped (A := [[1000], [1]]) (extract := 0) (inject := 1) (u := [1000]) (v := [1]) rfl rfl rfl rfl (beta := 1) one_pos (mu := [0, 20])
    (me := 0) (mi := 20) rfl rfl (V := 20) (m := 0.98) (by rw [hdE]; norm_num) (by norm_num) (by norm_num) (by
      rw [hdE, hlo, hhi]
      exact fun e he => (hb e he).1)
  refine ⟨r, h1, lt_of_lt_of_le (by norm_num) h2, ?_⟩
  rw [hlo, hhi]
  have h3 : ∀ e ∈ Set.uIoc (-4 : ℝ) 24, ‖goldenIntegrand [1000] [1] 1 0 20 farSigma e‖ ≤ 1.1 * Real.exp (-(1 * (20 - 0))) := by
    intro e he
    rw [Set.uIoc_of_le (by norm_num)] at he
    have := golden_le (beta := 1) (muE := 0) (muI := 20) (hb e ⟨he.1.le, he.2⟩).2
    rw [Real.norm_eq_abs, abs_of_nonneg this.1]
    exact this.2
  have h4 := intervalIntegral.norm_integral_le_of_norm_le_const h3
  rw [Real.norm_eq_abs] at h4
  refine h4.trans ?_
  have h5 : Real.exp (-(1 * (20 - 0))) ≤ 1 / 2 ^ 20 := by
    rw [Real.exp_neg, ← one_div]
    apply one_div_le_one_div_of_le (by norm_num)
    have h6 : (2 : ℝ) ≤ Real.exp 1 := by have := Real.add_one_le_exp 1; linarith
    calc (2 : ℝ) ^ 20 ≤ Real.exp 1 ^ 20 := pow_le_pow_left₀ (by norm_num) h6 20
      _ = Real.exp (1 * (20 - 0)) := by rw [← Real.exp_nat_mul]; norm_num
  have h7 : |(24 : ℝ) - (-4)| = 28 := by norm_num
  rw [h7]
  have := mul_le_mul_of_nonneg_left h5 (by norm_num : (0 : ℝ) ≤ 1.1)
  norm_num at this ⊢
  linarith

/-- Non-vacuity of the error bound: the pole of this element is outside the window. -/
example : ∀ g ∈ farSigma.gf2, ∀ E ∈ g.E, E ∉ Set.Icc (windowLo 1 (0 - farSigma.dE) 20) (windowHi 1 (0 - farSigma.dE) 20) := by
  intro g hg E hE
  simp only [farSigma, List.mem_singleton] at hg
  subst hg
  simp only [List.mem_singleton] at hE
  subst hE
  norm_num [windowLo, windowHi, farSigma]

end Edpyt
