import Verif.Model.BathC
import Verif.Model.FitCg
import Verif.Props.FitCg
import Verif.Props.LineSearch
import Mathlib.Analysis.Calculus.Deriv.Prod
import Mathlib.Data.Real.Basic
/-!
Theorems about the compiled fit of the hybridisation, `edpyt_backend/bath.c` and `edpyt_backend/fit.c`.
-/
namespace Edpyt

/-- **C81.** The compiled hybridisation equals that of `edpyt/fit_cg.py`. -/
theorem C81_delta (nb : ℕ) (x : ℕ → ℝ) (z : ℂ) : cDelta nb x z = fitDelta nb x z := by
  simp [cDelta, fitDelta, deltaEval, fitEk, fitVk]

/-- **C81.** The compiled derivative equals that of `edpyt/fit_cg.py`. -/
theorem C81_ddelta (nb : ℕ) (x : ℕ → ℝ) (z : ℂ) (k : ℕ) : cDDelta nb x z k = fitDDelta nb x z k := by
  simp [cDDelta, fitDDelta, fitEk, fitVk]

/-- **C81.** The compiled objective equals that of `edpyt/fit_cg.py`. -/
theorem C81_chi2 (nb m : ℕ) (z vals : ℕ → ℂ) (x : ℕ → ℝ) : cChi2 nb m z vals x = fitChi2 nb m z vals x := by
  unfold cChi2 fitChi2
  congr 2
  funext acc i
  rw [C81_delta, ← Complex.normSq_eq_norm_sq, Complex.normSq_apply]
  simp only [Complex.sub_re, Complex.sub_im]
  ring

/-- **C81.** The compiled gradient equals that of `edpyt/fit_cg.py`. -/
theorem C81_dchi2 (nb m : ℕ) (z vals : ℕ → ℂ) (x : ℕ → ℝ) (k : ℕ) : cDChi2 nb m z vals x k = fitDChi2 nb m z vals x k := by
  unfold cDChi2 fitDChi2
  rw [foldl_add_sum, foldl_add_sum, foldl_add_sum, ← Finset.sum_add_distrib]
  congr 2
  refine Finset.sum_congr rfl fun i _ => ?_
  rw [C81_delta, C81_ddelta]
  ring

theorem carr_eq {N : ℕ} (p : Fin N → ℝ) : carr p = arr p := rfl

theorem cMats_im (beta : ℝ) (hb : 0 < beta) (i : ℕ) : (cMats beta i).im ≠ 0 := by
  have : 0 < (2 * (i : ℝ) + 1) * (Real.pi / beta) := by have := Real.pi_pos; positivity
  unfold cMats
  simp only [Complex.mul_im, Complex.ofReal_re, Complex.I_im, mul_one, Complex.ofReal_im, Complex.I_re, mul_zero, add_zero]
  exact this.ne'

/-- **C81.** For every target, temperature and number of sites and frequencies, the slope that the compiled line search uses is the derivative of the
function that it minimises. -/
theorem C81_slope {nb : ℕ} (m : ℕ) (beta : ℝ) (hb : 0 < beta) (vals : ℕ → ℂ) (p xi : Fin (nb + nb) → ℝ) (t : ℝ) :
    HasDerivAt (f1dim (fun p => cChi2 nb m (cMats beta) vals (carr p)) p xi)
      (df1dim (fun (p : Fin (nb + nb) → ℝ) k => cDChi2 nb m (cMats beta) vals (carr p) k) p xi t) t := by
  have h := C52_gradient nb m (cMats beta) vals (fun j => p j + t * xi j) (fun i _ j _ h => cMats_im beta hb i (by rw [h]; exact Complex.ofReal_im _))
  have hl : HasDerivAt (fun s : ℝ => fun j => p j + s * xi j) xi t := by
    rw [hasDerivAt_pi]
    intro j
    simpa using ((hasDerivAt_id t).mul_const (xi j)).const_add (p j)
  have hc := h.comp_hasDerivAt t hl
  refine (hc.congr_deriv ?_).congr_of_eventuallyEq (Filter.Eventually.of_forall fun s => ?_)
  · simp [df1dim, C81_dchi2, carr_eq]
  · simp [f1dim, C81_chi2, carr_eq]

/-- **C82.** For every start, target and temperature, if the compiled fit returns, the objective of `edpyt/fit_cg.py` at the returned parameters is the
returned value and not larger than at the start. -/
theorem C82_fit_improves {nb : ℕ} (junk : ℝ) (m : ℕ) (vals : ℕ → ℂ) (beta : ℝ) (x p : Fin (nb + nb) → ℝ) (its : ℕ) (fret : ℝ)
    (h : CFit junk m vals beta x (.ok (p, its, fret))) : fret = fitChi2 nb m (cMats beta) vals (arr p) ∧
      fitChi2 nb m (cMats beta) vals (arr p) ≤ fitChi2 nb m (cMats beta) vals (arr x) ∧ its ≤ 2000 := by
  obtain ⟨a, b, -, d⟩ := C67_frprmn _ _ _ _ _ h
  simp only [C81_chi2, carr_eq] at a b
  exact ⟨a, b, d⟩

/-- With a vanishing gradient at the start, the minimiser returns the start. -/
theorem frprmn_stationary {n : ℕ} (junk : ℝ) (func : (Fin n → ℝ) → ℝ) (dfunc : (Fin n → ℝ) → Fin n → ℝ) (ftol : ℝ) (p0 : Fin n → ℝ) (h0 : ∀ j, dfunc p0 j = 0)
    {p : Fin n → ℝ} {its : ℕ} {fret : ℝ} (h : Frprmn junk func dfunc ftol p0 (.ok (p, its, fret))) : p = p0 := by
  have hd : ∀ {p' xi' : Fin n → ℝ} {fret' : ℝ}, Dlinmin junk func dfunc p0 (fun j => -dfunc p0 j) (.ok (p', xi', fret')) → p' = p0 ∧ fret' = func p0 := by
    intro p' xi' fret' hl
    obtain ⟨a, -, t, ht⟩ := C67_dlinmin _ _ _ _ _ hl
    have : p' = p0 := by
      funext j
      rw [ht j, h0 j]
      ring
    rw [this] at a
    exact ⟨this, a⟩
  unfold Frprmn at h
  cases h with
  | conv h1 _ => exact (hd h1).1
  | zero h1 _ _ => exact (hd h1).1
  | again h1 hc _ _ =>
    exfalso
    apply hc
    rw [(hd h1).2]
    simp only [sub_self, abs_zero, mul_zero]
    positivity

/-- **C83.** `fit_hybrid` of `edpyt_backend/fit_wrap.py` starts from uninitialised memory. If the memory holds zero couplings, what it returns is that
memory, whatever the target. -/
theorem C83_returns_memory {nb : ℕ} (junk : ℝ) (m : ℕ) (vals : ℕ → ℂ) (beta : ℝ) (mem : Fin (nb + nb) → ℝ) (hm : ∀ j : Fin (nb + nb), nb ≤ j → mem j = 0)
    {x : Fin (nb + nb) → ℝ} (h : WrapFitHybrid mem junk m vals beta (.ok x)) : x = mem := by
  obtain ⟨r', h1, h2⟩ := h
  cases r' with
  | error e => cases h2
  | ok r =>
    obtain ⟨p, its, fret⟩ := r
    simp only [Except.map, Except.ok.injEq] at h2
    rw [h2]
    have hv : ∀ k, k < nb → carr mem (nb + k) = 0 := fun k hk => by
      unfold carr
      rw [dif_pos (by omega)]
      exact hm _ (by simp)
    refine frprmn_stationary _ _ _ _ _ (fun k => ?_) h1
    have hz : ∀ i, cDDelta nb (carr mem) (cMats beta i) k = 0 := fun i => by
      unfold cDDelta
      split_ifs with hk
      · rw [hv _ hk]; simp
      · rw [hv _ (by omega)]; simp
    unfold cDChi2
    rw [foldl_add_sum]
    simp [hz]

/-- Without slope the search halves the distance to the lower end. -/
theorem dbMove_flat {tol1 tol2 xm : ℝ} {s : DbSt ℝ} (h1 : s.dx = 0) (h2 : s.dw = 0) (h3 : s.dv = 0) (ha : s.a ≤ s.x) (hb : s.a ≤ s.b) :
    dbMove tol1 tol2 xm s = (1 / 2 * (s.a - s.x), s.a - s.x) := by
  have hno : ¬ (s.a - (s.x + 2 * (s.b - s.a))) * (s.x + 2 * (s.b - s.a) - s.b) > 0 := by
    rw [gt_iff_lt, not_lt]
    exact mul_nonpos_of_nonpos_of_nonneg (by linarith) (by linarith)
  unfold dbMove
  simp only [h1, h2, h3, ne_eq, not_true_eq_false, if_false, hno, false_and, or_self, ge_iff_le, le_refl, if_true]
  split_ifs <;> rfl

theorem dbLoop_flat (c : ℝ) : ∀ (k fuel : ℕ) (s : DbSt ℝ), k < fuel → s.a = 0 → s.b = 2 * s.x → 0 < s.x → s.x ≤ 2 / 10 ^ 10 * 2 ^ k → s.fx = c → s.dx = 0 → s.dw = 0 → s.dv = 0 →
    ∃ r, dbLoop (fun _ => c) (fun _ => 0) (2 / 10 ^ 4) fuel s = .ok r := by
  intro k
  induction k with
  | zero =>
    intro fuel s hf ha hb hx hk hc h1 h2 h3
    obtain ⟨fuel, rfl⟩ : ∃ j, fuel = j + 1 := ⟨fuel - 1, by omega⟩
    refine ⟨(s.x, s.fx), ?_⟩
    have : |s.x - 1 / 2 * (s.a + s.b)| ≤ 2 * (2 / 10 ^ 4 * |s.x| + zeps) - 1 / 2 * (s.b - s.a) := by
      rw [ha, hb, show s.x - 1 / 2 * (0 + 2 * s.x) = 0 by ring, abs_zero, abs_of_pos hx]
      unfold zeps
      norm_num at hk ⊢
      linarith
    simp only [dbLoop, dbStep, this, if_true]
  | succ k ih =>
    intro fuel s hf ha hb hx hk hc h1 h2 h3
    obtain ⟨fuel, rfl⟩ : ∃ j, fuel = j + 1 := ⟨fuel - 1, by omega⟩
    by_cases hret : |s.x - 1 / 2 * (s.a + s.b)| ≤ 2 * (2 / 10 ^ 4 * |s.x| + zeps) - 1 / 2 * (s.b - s.a)
    · exact ⟨(s.x, s.fx), by simp only [dbLoop, dbStep, hret, if_true]⟩
    · have hbig : |1 / 2 * (s.a - s.x)| ≥ 2 / 10 ^ 4 * |s.x| + zeps := by
        rw [ha, hb, show s.x - 1 / 2 * (0 + 2 * s.x) = 0 by ring, abs_zero] at hret
        rw [ha, show 1 / 2 * (0 - s.x) = -(s.x / 2) by ring, abs_neg, abs_of_pos (by linarith : 0 < s.x / 2)]
        linarith [not_le.mp hret]
      have hstep : dbStep (fun _ => c) (fun _ => 0) (2 / 10 ^ 4) s =
          .inr { a := 0, b := s.x, d := 1 / 2 * (s.a - s.x), e := s.a - s.x, x := s.x / 2, w := s.x, v := s.w, fx := c, fw := c, fv := s.fw, dx := 0, dw := 0, dv := 0 } := by
        have hu : ¬ s.x + 1 / 2 * (s.a - s.x) ≥ s.x := by rw [ha]; linarith
        unfold dbStep
        simp only [hret, if_false, dbMove_flat h1 h2 h3 (ha ▸ hx.le) (by rw [ha, hb]; linarith), hbig, if_true, dbUpdate, hc, le_refl, hu, h1, h2]
        rw [ha]
        congr 2
        ring
      unfold dbLoop
      rw [hstep]
      exact ih fuel _ (by omega) rfl (by simp only; ring) (by simp only; linarith) (by simp only; rw [pow_succ (2 : ℝ) k] at hk; linarith) rfl rfl rfl rfl

/-- The line search ends on a constant function. -/
theorem dbrent_flat (junk c : ℝ) : ∃ r, dbrent junk 0 1 (1 + gold * (1 - 0)) (fun _ => c) (fun _ => 0) (2 / 10 ^ 4) = .ok r := by
  rw [C67_dbrent_junk junk 0 _ _ _ _ _ _ (by norm_num)]
  have hstep : dbStep (fun _ => c) (fun _ => 0) (2 / 10 ^ 4) (dbInit 0 (fun _ => c) (fun _ => 0) 0 1 (1 + gold * (1 - 0))) =
      .inr { a := 0, b := 1, d := -(1 / 2), e := -1, x := 1 / 2, w := 1, v := 1, fx := c, fw := c, fv := c, dx := 0, dw := 0, dv := (0 : ℝ) } := by
    have hg : (0 : ℝ) < 1 + gold * (1 - 0) := by unfold gold; norm_num
    have hg' : ¬ (0 : ℝ) > 1 + gold * (1 - 0) := not_lt.mpr hg.le
    have hret : ¬ |(1 : ℝ) - 1 / 2 * (0 + (1 + gold * (1 - 0)))| ≤ 2 * (2 / 10 ^ 4 * |1| + zeps) - 1 / 2 * (1 + gold * (1 - 0) - 0) := by
      rw [not_le]
      refine lt_of_lt_of_le ?_ (abs_nonneg _)
      rw [abs_one]
      unfold gold zeps
      norm_num
    have hbig : |(1 : ℝ) / 2 * (0 - 1)| ≥ 2 / 10 ^ 4 * |1| + zeps := by
      rw [abs_one, show (1 : ℝ) / 2 * (0 - 1) = -(1 / 2) by ring, abs_neg, abs_of_pos (by norm_num)]
      unfold zeps
      norm_num
    have hu : ¬ (1 : ℝ) + 1 / 2 * (0 - 1) ≥ 1 := by norm_num
    unfold dbStep dbInit
    simp only [hg, hg', if_true, if_false, hret]
    rw [dbMove_flat rfl rfl rfl (by norm_num) hg.le]
    simp only [hbig, if_true, dbUpdate, le_refl, hu, if_false]
    norm_num
  unfold dbrent dbLoop
  rw [hstep]
  exact dbLoop_flat c 33 1999 _ (by norm_num) rfl (by norm_num) (by norm_num) (by norm_num) rfl rfl rfl rfl

/-- Non-vacuity of `C83_returns_memory`, `C83_partial` and `C82_fit_improves`: from memory without couplings the compiled fit returns, for every target. -/
theorem wrapFit_returns {nb : ℕ} (junk : ℝ) (m : ℕ) (vals : ℕ → ℂ) (beta : ℝ) (mem : Fin (nb + nb) → ℝ) (hm : ∀ j : Fin (nb + nb), nb ≤ j → mem j = 0) :
    WrapFitHybrid mem junk m vals beta (.ok mem) := by
  have hv : ∀ k, k < nb → carr mem (nb + k) = 0 := fun k hk => by
    unfold carr
    rw [dif_pos (by omega)]
    exact hm _ (by simp)
  have h0 : ∀ k : Fin (nb + nb), cDChi2 nb m (cMats beta) vals (carr mem) k = 0 := fun k => by
    have hz : ∀ i, cDDelta nb (carr mem) (cMats beta i) k = 0 := fun i => by
      unfold cDDelta
      split_ifs with hk
      · rw [hv _ hk]; simp
      · rw [hv _ (by omega)]; simp
    unfold cDChi2
    rw [foldl_add_sum]
    simp [hz]
  set func : (Fin (nb + nb) → ℝ) → ℝ := fun p => cChi2 nb m (cMats beta) vals (carr p)
  set dfunc : (Fin (nb + nb) → ℝ) → Fin (nb + nb) → ℝ := fun p k => cDChi2 nb m (cMats beta) vals (carr p) k
  have hxi : (fun j => -dfunc mem j) = fun _ => 0 := by funext j; simp [dfunc, h0]
  have hf : f1dim func mem (fun _ => 0) = fun _ => func mem := by funext t; simp [f1dim]
  have hdf : df1dim dfunc mem (fun _ => 0) = fun _ => 0 := by funext t; simp [df1dim]
  obtain ⟨r, hr⟩ := dbrent_flat junk (func mem)
  have hl : Dlinmin junk func dfunc mem (fun _ => 0) (.ok (mem, fun _ => 0, r.2)) := by
    refine ⟨mnInit (fun _ => func mem) 0 1, ?_, ?_⟩
    · rw [hf]
      exact MnLoop.stop (by simp [mnInit])
    · rw [hf, hdf]
      have e1 : (mnInit (fun _ => func mem) (0 : ℝ) 1).ax = 0 := by simp [mnInit]
      have e2 : (mnInit (fun _ => func mem) (0 : ℝ) 1).bx = 1 := by simp [mnInit]
      have e3 : (mnInit (fun _ => func mem) (0 : ℝ) 1).cx = 1 + gold * (1 - 0) := by simp [mnInit]
      rw [e1, e2, e3, hr]
      simp [Except.map]
  have hfret : r.2 = func mem := (C67_dlinmin _ _ _ _ _ hl).1
  refine ⟨.ok (mem, 1, r.2), ?_, rfl⟩
  unfold CFit Frprmn
  simp only
  change FrLoop junk func dfunc 2000 ⟨mem, fun j => -dfunc mem j, fun j => -dfunc mem j, fun j => -dfunc mem j, func mem⟩ _
  rw [hxi]
  refine FrLoop.conv (left := 1999) hl ?_
  simp only [hfret, sub_self, abs_zero, mul_zero]
  positivity

/-- **C83 is false**: for every number of bath sites but zero, every target and every temperature, two runs of the same call return different parameters. -/
theorem C83_refuted {nb : ℕ} (hnb : 0 < nb) (junk : ℝ) (m : ℕ) (vals : ℕ → ℂ) (beta : ℝ) :
    ∃ (mem mem' x x' : Fin (nb + nb) → ℝ), WrapFitHybrid mem junk m vals beta (.ok x) ∧ WrapFitHybrid mem' junk m vals beta (.ok x') ∧ x ≠ x' := by
  refine ⟨fun _ => 0, fun j => if (j : ℕ) < nb then 1 else 0, _, _, wrapFit_returns junk m vals beta _ fun _ _ => rfl,
    wrapFit_returns junk m vals beta _ fun j hj => if_neg (by omega), fun h => ?_⟩
  have := congrFun h ⟨0, by omega⟩
  simp [hnb] at this

theorem mnLoop_det {f : ℝ → ℝ} {s r r' : Brak ℝ} (h : MnLoop f s r) (h' : MnLoop f s r') : r = r' := by
  induction h with
  | stop h => cases h' with
    | stop _ => rfl
    | ret h2 _ => exact absurd h2 h
    | again h2 _ _ => exact absurd h2 h
  | ret h hs => cases h' with
    | stop h2 => exact absurd h h2
    | ret _ h2 => rw [hs] at h2; exact (Prod.mk.inj h2).1
    | again _ h2 _ => rw [hs] at h2; cases h2
  | again h hs _ ih => cases h' with
    | stop h2 => exact absurd h h2
    | ret _ h2 => rw [hs] at h2; cases h2
    | again _ h2 h3 => rw [hs] at h2; obtain ⟨rfl, -⟩ := Prod.mk.inj h2; exact ih h3

theorem dlinmin_det {n : ℕ} {j1 j2 : ℝ} {func : (Fin n → ℝ) → ℝ} {dfunc : (Fin n → ℝ) → Fin n → ℝ} {p xi : Fin n → ℝ} {r r' : Except PyErr ((Fin n → ℝ) × (Fin n → ℝ) × ℝ)}
    (h : Dlinmin j1 func dfunc p xi r) (h' : Dlinmin j2 func dfunc p xi r') : r = r' := by
  obtain ⟨s, a, rfl⟩ := h
  obtain ⟨s', b, rfl⟩ := h'
  rw [mnLoop_det a b, C67_dbrent_junk j1 j2 _ _ _ _ _ _ (by norm_num)]

theorem frLoop_det {n : ℕ} {j1 j2 : ℝ} {func : (Fin n → ℝ) → ℝ} {dfunc : (Fin n → ℝ) → Fin n → ℝ} {left : ℕ} {s : FrSt ℝ n} {r r' : Except PyErr ((Fin n → ℝ) × ℕ × ℝ)}
    (h : FrLoop j1 func dfunc left s r) (h' : FrLoop j2 func dfunc left s r') : r = r' := by
  induction h with
  | exhausted => cases h'; rfl
  | fail h => cases h' with
    | fail h2 => cases dlinmin_det h h2; rfl
    | conv h2 _ => cases dlinmin_det h h2
    | zero h2 _ _ => cases dlinmin_det h h2
    | again h2 _ _ _ => cases dlinmin_det h h2
  | conv h hc => cases h' with
    | fail h2 => cases dlinmin_det h h2
    | conv h2 _ => cases dlinmin_det h h2; rfl
    | zero h2 h3 _ => cases dlinmin_det h h2; exact absurd hc h3
    | again h2 h3 _ _ => cases dlinmin_det h h2; exact absurd hc h3
  | zero h hc hn => cases h' with
    | fail h2 => cases dlinmin_det h h2
    | conv h2 h3 => cases dlinmin_det h h2; exact absurd h3 hc
    | zero h2 _ _ => cases dlinmin_det h h2; rfl
    | again h2 _ h4 _ => cases dlinmin_det h h2; rw [hn] at h4; cases h4
  | again h hc hn _ ih => cases h' with
    | fail h2 => cases dlinmin_det h h2
    | conv h2 h3 => cases dlinmin_det h h2; exact absurd h3 hc
    | zero h2 _ h4 => cases dlinmin_det h h2; rw [hn] at h4; cases h4
    | again h2 _ h4 h5 => cases dlinmin_det h h2; rw [hn] at h4; cases h4; exact ih h5

/-- **C83, partial.** From the same memory for the start the outcome is determined by the arguments: no other uninitialised variable (`d` of `dbrent`)
has an influence. -/
theorem C83_partial {nb : ℕ} (mem : Fin (nb + nb) → ℝ) (junk junk' : ℝ) (m : ℕ) (vals : ℕ → ℂ) (beta : ℝ) (r r' : Except PyErr (Fin (nb + nb) → ℝ))
    (h : WrapFitHybrid mem junk m vals beta r) (h' : WrapFitHybrid mem junk' m vals beta r') : r = r' := by
  obtain ⟨q, a, rfl⟩ := h
  obtain ⟨q', b, rfl⟩ := h'
  rw [frLoop_det a b]

/-- Non-vacuity of `C82_fit_improves`. -/
example : ∃ (p : Fin (1 + 1) → ℝ) (its : ℕ) (fret : ℝ), CFit 0 5 (fun _ => 1) 2 (fun _ => 0) (.ok (p, its, fret)) := by
  obtain ⟨r, h, hr⟩ := wrapFit_returns (nb := 1) 0 5 (fun _ => 1) 2 (fun _ => 0) fun _ _ => rfl
  cases r with
  | error e => cases hr
  | ok r => exact ⟨r.1, r.2.1, r.2.2, h⟩

end Edpyt
