import Verif.Proof.LinMix
import Verif.Props.SpinLoop
/-!
C192: how a DMFT run with linear mixing ends.
-/
namespace Edpyt

/-- Every step of the loop, from any state that it reaches, maps a hybridisation `d` of `N` values to `f d` and reports an occupation. -/
def Spec.StepsBy (P : DmftPar) (N : ℕ) (f : List ℂ → List ℂ) (Inv : DmftState → Prop) : Prop :=
  ∀ (s : DmftState) (d : List ℂ), Inv s → d.length = N → (f d).length = N ∧ ∃ s' o, s.step P d = .ok (s', some o, f d) ∧ ∀ it, Inv { s' with it := it }

open Spec

variable {P : DmftPar} {beta a alpha q : ℝ} {N : ℕ} {f : List ℂ → List ℂ} {Inv : DmftState → Prop}

theorem step_it {s s' : DmftState} {d : List ℂ} {o : Option ℝ} {e : List ℂ} (h : s.step P d = .ok (s', o, e)) : s'.it = s.it := by
  unfold DmftState.step DmftState.dmftStep at h
  cases h1 : P.fit s.imp d with
  | error e => rw [h1] at h; cases h
  | ok x =>
    rw [h1] at h
    simp only [bind, Except.bind, pure, Except.pure] at h
    cases hm : s.loc.mu with
    | none => simp only [hm] at h; cases h
    | some mu =>
      cases he : s.loc.ed with
      | none => simp only [hm, he] at h; cases h
      | some ed =>
        simp only [hm, he] at h
        cases hs : P.solve ((s.imp.step P.n (.fit x.1 x.2)).step P.n (.update (mu - ed).re)) with
        | error e => rw [hs] at h; cases h
        | ok gf =>
          rw [hs] at h
          simp only at h
          cases ha : P.adjust with
          | none =>
            simp only [ha] at h
            split at h
            · cases h
            · cases h; rfl
          | some root =>
            simp only [ha] at h
            split at h
            · cases h
            · split at h
              · cases h
              · split at h
                · cases h
                · cases h; rfl

/-- What `distance` does if the steps of the loop are given by `f`. -/
theorem distance_of_step (hf : StepsBy P N f Inv) {s : DmftState} (hs : Inv s) {d : List ℂ} (hd : d.length = N) :
    ∃ s', (∀ it, Inv { s' with it := it }) ∧ s'.it = s.it ∧ s.distance P beta a d =
      if deltaNorm (f d) d < P.tol then .ok (s', .converged) else if P.maxIter < s.it + 1 then .ok ({ s' with it := s.it + 1 }, .failed)
        else .ok ({ s' with it := s.it + 1 }, .value (distVec beta a (f d) d)) := by
  obtain ⟨-, s', o, h, hi⟩ := hf s d hs hd
  have hit := step_it h
  refine ⟨s', hi, hit, ?_⟩
  have hc : (clampNonCausal d).2 = d := rfl
  simp only [DmftState.distance, DmftState.call, hc, h, bind, Except.bind, pure, Except.pure, dmftCall, hit]
  by_cases h1 : deltaNorm (f d) d < P.tol
  · simp only [h1, if_true]
    rw [← hit]
  · by_cases h2 : P.maxIter < s.it + 1
    · simp only [h1, h2, if_true, if_false]
    · simp only [h1, h2, if_false]

/-- What a call of `distance` that returns says, whatever the steps are. -/
theorem distance_value {s s' : DmftState} {d F : List ℂ} (h : s.distance P beta a d = .ok (s', .value F)) :
    s'.it = s.it + 1 ∧ s.it + 1 ≤ P.maxIter ∧ ∃ dnew, F = distVec beta a dnew d ∧ P.tol ≤ deltaNorm dnew d := by
  unfold DmftState.distance DmftState.call at h
  have hc : (clampNonCausal d).2 = d := rfl
  rw [hc] at h
  cases h1 : s.step P d with
  | error e => rw [h1] at h; cases h
  | ok x =>
    obtain ⟨s1, o, dnew⟩ := x
    have hit := step_it h1
    rw [h1] at h
    cases o with
    | none => simp only [bind, Except.bind, pure, Except.pure, dmftCall] at h; cases h
    | some o =>
      simp only [bind, Except.bind, pure, Except.pure, dmftCall, hc] at h
      by_cases h2 : deltaNorm dnew d < P.tol
      · simp only [h2, if_true] at h; cases h
      · by_cases h3 : P.maxIter < s1.it + 1
        · simp only [h2, h3, if_true, if_false] at h; cases h
        · simp only [h2, h3, if_false] at h
          cases h
          exact ⟨by simp [hit], by rw [← hit]; omega, dnew, rfl, not_lt.mp h2⟩

theorem distVec_ne_zero (hb : 0 < beta) {dnew d : List ℂ} {t : ℝ} (ht : 0 < t) (h : t ≤ deltaNorm dnew d) : vecSq (distVec beta a dnew d) ≠ 0 := by
  intro h0
  have hall : ∀ e ∈ distVec beta a dnew d, Complex.normSq e = 0 := by
    intro e he
    refine List.all_zero_of_le_zero_le_of_sum_eq_zero (l := (distVec beta a dnew d).map Complex.normSq) (fun x hx => ?_) h0 (List.mem_map_of_mem he)
    obtain ⟨e, -, rfl⟩ := List.mem_map.mp hx
    exact Complex.normSq_nonneg e
  have hz : (List.zipWith (fun a b => Complex.normSq (a - b)) dnew d).sum = 0 := by
    refine List.sum_eq_zero fun x hx => ?_
    obtain ⟨k, hk, rfl⟩ := List.mem_iff_getElem.mp hx
    rw [List.length_zipWith] at hk
    have hl : k < (distVec beta a dnew d).length := by simpa [distVec] using hk
    have := hall _ (List.getElem_mem hl)
    simp only [distVec, List.getElem_mapIdx, List.getElem_zipWith, Complex.normSq_mul, mul_eq_zero] at this
    rw [List.getElem_zipWith]
    rcases this with h1 | h1
    · exfalso
      rw [Complex.normSq_eq_zero, Complex.ofReal_eq_zero] at h1
      have : 0 < distWeight beta a k := Real.rpow_pos_of_pos (by unfold matsFreq; have := Real.pi_pos; positivity) _
      exact this.ne' h1
    · exact h1
  rw [deltaNorm, hz, Real.sqrt_zero] at h
  linarith

theorem linSearch_it {x dx : List ℂ} {s : DmftState} {r} (h : LinSearch P beta a x dx s r) :
    ∀ s2 x2 F2, r = .inl (s2, x2, F2) → s.it + 1 ≤ s2.it ∧ s2.it ≤ P.maxIter ∧ ∃ d dnew, F2 = distVec beta a dnew d ∧ P.tol ≤ deltaNorm dnew d := by
  induction h with
  | take t h =>
    rintro s2 x2 F2 ⟨⟩
    obtain ⟨h1, h2, dnew, h3, h4⟩ := distance_value h
    exact ⟨by omega, by omega, _, dnew, h3, h4⟩
  | again t h h' ih =>
    intro s2 x2 F2 e
    obtain ⟨h1, h2, h3⟩ := ih s2 x2 F2 e
    obtain ⟨h4, -⟩ := distance_value h
    exact ⟨by omega, h2, h3⟩
  | raise t h h' => rintro s2 x2 F2 ⟨⟩
  | error t h => rintro s2 x2 F2 ⟨⟩

theorem linSearch_end {x dx : List ℂ} {s : DmftState} {r} (h : LinSearch P beta a x dx s r) : ∀ s2 x2, r ≠ .inr (.finished s2 x2) := by
  induction h with
  | take t h => rintro s2 x2 ⟨⟩
  | again t h h' ih => exact ih
  | raise t h h' => rintro s2 x2 ⟨⟩
  | error t h => rintro s2 x2 ⟨⟩

theorem linLoop_verdict (hb : 0 < beta) (ht : 0 < P.tol) {k : ℕ} {s : DmftState} {x F : List ℂ} {r : LinOut} (h : LinLoop P beta a alpha k s x F r) (hk : P.maxIter < s.it + k)
    (hm : s.it ≤ P.maxIter) (hF : ∃ d dnew, F = distVec beta a dnew d ∧ P.tol ≤ deltaNorm dnew d) : ∀ s2 x2, r ≠ .finished s2 x2 := by
  induction h with
  | zero h =>
    obtain ⟨d, dnew, rfl, h2⟩ := hF
    exact absurd h (distVec_ne_zero hb ht h2)
  | done h => omega
  | stuck h h' => rintro s2 x2 ⟨⟩
  | error h h' hd => rintro s2 x2 ⟨⟩
  | raise h h' hd ho => rintro s2 x2 ⟨⟩
  | accept h h' hd ha hr ih =>
    obtain ⟨h1, h2, dnew, h3, h4⟩ := distance_value hd
    exact ih (by omega) (by omega) ⟨_, dnew, h3, h4⟩
  | search h h' hd ha hs hr ih =>
    obtain ⟨h1, -⟩ := distance_value hd
    obtain ⟨h2, h3, h4⟩ := linSearch_it hs _ _ _ rfl
    exact ih (by omega) h3 h4
  | searchEnd h h' hd ha hs => exact fun s2 x2 e => linSearch_end hs s2 x2 (e ▸ rfl)

/-- **C192** (verdict, `_partial`: for `max_iter ≤ iter`) If the `DMFT` object allows no more iterations than linear mixing makes steps, as by default (20 and 60), every run of `solve_with_linear_mixing`
ends by an exception: `Converged`, `FailedToConverge`, or an error; it never returns silently. Missing: larger `max_iter`, for which it does, see `C192_refuted`. -/
theorem C192_verdict_partial (hb : 0 < beta) (ht : 0 < P.tol) {iter : ℕ} {s : DmftState} (hi : P.maxIter ≤ s.it + iter) {x : List ℂ} {r : LinOut} (h : LinearMixing P beta a iter alpha s x r) :
    (∃ e, r = .error e) ∨ ∃ s' out d, r = .raised s' out d ∧ ∀ v, out ≠ .value v := by
  have hraise : ∀ {k s x F r}, LinLoop P beta a alpha k s x F r → ∀ s' out d, r = .raised s' out d → ∀ v, out ≠ .value v := by
    have hsearch : ∀ {x dx s r}, LinSearch P beta a x dx s r → ∀ s' out d, r = .inr (.raised s' out d) → ∀ v, out ≠ .value v := by
      intro x dx s r h
      induction h with
      | take t h => rintro _ _ _ ⟨⟩
      | again t h h' ih => exact ih
      | raise t h h' => rintro _ _ _ ⟨⟩; exact h'
      | error t h => rintro _ _ _ ⟨⟩
    intro k s x F r h
    induction h with
    | zero h => rintro _ _ _ ⟨⟩
    | done h => rintro _ _ _ ⟨⟩
    | stuck h h' => rintro _ _ _ ⟨⟩
    | error h h' hd => rintro _ _ _ ⟨⟩
    | raise h h' hd ho => rintro _ _ _ ⟨⟩; exact ho
    | accept h h' hd ha hr ih => exact ih
    | search h h' hd ha hs hr ih => exact ih
    | searchEnd h h' hd ha hs => exact fun s' out d e => hsearch hs s' out d (e ▸ rfl)
  cases h with
  | error h => exact Or.inl ⟨_, rfl⟩
  | raise h ho => exact Or.inr ⟨_, _, _, rfl, ho⟩
  | run h hr =>
    obtain ⟨h1, h2, dnew, h3, h4⟩ := distance_value h
    have := linLoop_verdict hb ht hr (by omega) (by omega) ⟨_, dnew, h3, h4⟩
    cases r with
    | finished s2 x2 => exact absurd rfl (this s2 x2)
    | raised s2 out d => exact Or.inr ⟨_, _, _, rfl, hraise hr _ _ _ rfl⟩
    | error e => exact Or.inl ⟨e, rfl⟩

theorem linSearch_exists (x dx : List ℂ) (s : DmftState) : ∃ r, LinSearch P beta a x dx s r := by
  cases h : s.distance P beta a (stepTo x 0 dx) with
  | error e => exact ⟨_, .error 0 h⟩
  | ok v =>
    obtain ⟨s', out⟩ := v
    cases out with
    | value F => exact ⟨_, .take 0 h⟩
    | converged => exact ⟨_, .raise 0 h (by simp)⟩
    | failed => exact ⟨_, .raise 0 h (by simp)⟩
    | typeError => exact ⟨_, .raise 0 h (by simp)⟩

theorem linLoop_exists (k : ℕ) : ∀ (s : DmftState) (x F : List ℂ), ∃ r, LinLoop P beta a alpha k s x F r := by
  induction k with
  | zero =>
    intro s x F
    by_cases h : vecSq F = 0
    exacts [⟨_, .zero h⟩, ⟨_, .done h⟩]
  | succ k ih =>
    intro s x F
    by_cases h : vecSq F = 0
    · exact ⟨_, .zero h⟩
    by_cases h' : alpha = 0
    · exact ⟨_, .stuck h h'⟩
    cases hd : s.distance P beta a (stepTo x alpha F) with
    | error e => exact ⟨_, .error h h' hd⟩
    | ok v =>
      obtain ⟨s', out⟩ := v
      cases out with
      | converged => exact ⟨_, .raise h h' hd (by simp)⟩
      | failed => exact ⟨_, .raise h h' hd (by simp)⟩
      | typeError => exact ⟨_, .raise h h' hd (by simp)⟩
      | value F' =>
        by_cases ha : vecSq F' ≤ (1 - 1e-4) * vecSq F
        · obtain ⟨r, hr⟩ := ih s' (stepTo x alpha F) F'
          exact ⟨r, .accept h h' hd ha hr⟩
        · obtain ⟨r, hr⟩ := linSearch_exists (P := P) (beta := beta) (a := a) x (F.map fun f => alpha * f) s'
          cases r with
          | inr r => exact ⟨r, .searchEnd h h' hd ha hr⟩
          | inl y =>
            obtain ⟨r, hr'⟩ := ih y.1 y.2.1 y.2.2
            exact ⟨r, .search h h' hd ha hr hr'⟩

/-- Non-vacuity of `C192_verdict_partial`: there is always a run. -/
theorem linearMixing_exists (P : DmftPar) (beta a : ℝ) (iter : ℕ) (alpha : ℝ) (s : DmftState) (x : List ℂ) : ∃ r, LinearMixing P beta a iter alpha s x r := by
  cases hd : s.distance P beta a x with
  | error e => exact ⟨_, .error hd⟩
  | ok v =>
    obtain ⟨s', out⟩ := v
    cases out with
    | converged => exact ⟨_, .raise hd (by simp)⟩
    | failed => exact ⟨_, .raise hd (by simp)⟩
    | typeError => exact ⟨_, .raise hd (by simp)⟩
    | value F =>
      obtain ⟨r, hr⟩ := linLoop_exists (P := P) (beta := beta) (a := a) (alpha := alpha) iter s' x F
      exact ⟨r, .run hd hr⟩

theorem linLoop_contract (hf : StepsBy P N f Inv) (hq : ∀ d d', d.length = N → d'.length = N → deltaNorm (f d) (f d') ≤ q * deltaNorm d d') (h0 : 0 ≤ q) (ha : 0 < alpha) (ha1 : alpha ≤ 1)
    (hr : (1 - alpha * (1 - q)) ^ 2 ≤ 1 - 1e-4) (ht : 0 < P.tol) (k : ℕ) : ∀ (s : DmftState) (x : List ℂ) (m : ℕ), Inv s → x.length = N → P.tol ≤ deltaNorm (f x) x →
      (1 - alpha * (1 - q)) ^ m * deltaNorm (f x) x < P.tol → m ≤ k → s.it + m ≤ P.maxIter + 1 →
      (∃ r, LinLoop P beta 0 alpha k s x (distVec beta 0 (f x) x) r) ∧ ∀ r, LinLoop P beta 0 alpha k s x (distVec beta 0 (f x) x) r →
        ∃ s' d, r = .raised s' .converged d ∧ d.length = N ∧ deltaNorm (f d) d < P.tol ∧ s'.it + 1 ≤ s.it + m := by
  induction k with
  | zero =>
    intro s x m _ _ h1 h2 hm
    obtain rfl : m = 0 := by omega
    rw [pow_zero, one_mul] at h2
    linarith
  | succ k ih =>
    intro s x m hs hx h1 h2 hm hit
    obtain ⟨hfx, -⟩ := hf s x hs hx
    obtain ⟨hFl, hFv⟩ := distVec_zero beta hfx hx
    have hx' := stepTo_length hx hFl alpha
    obtain ⟨hfx', -⟩ := hf s _ hs hx'
    have hnF : ‖vecOf N (distVec beta 0 (f x) x)‖ = deltaNorm (f x) x := by rw [hFv, deltaNorm_eq hfx hx]
    have hne : vecSq (distVec beta 0 (f x) x) ≠ 0 := by
      rw [vecSq_eq hFl, hnF]
      have : 0 < deltaNorm (f x) x := by linarith
      positivity
    have hle : deltaNorm (f (stepTo x alpha (distVec beta 0 (f x) x))) (stepTo x alpha (distVec beta 0 (f x) x)) ≤ (1 - alpha * (1 - q)) * deltaNorm (f x) x := by
      have hl := hq _ _ hx' hx
      rw [deltaNorm_eq hfx' hfx, deltaNorm_eq hx' hx, vecOf_stepTo hx hFl, add_sub_cancel_left, norm_smul, hnF, Complex.norm_real, Real.norm_eq_abs, abs_of_pos ha] at hl
      rw [deltaNorm_eq hfx' hx', vecOf_stepTo hx hFl, hFv]
      have e : vecOf N (f (stepTo x alpha (distVec beta 0 (f x) x))) - (vecOf N x + (alpha : ℂ) • (vecOf N (f x) - vecOf N x)) =
          (vecOf N (f (stepTo x alpha (distVec beta 0 (f x) x))) - vecOf N (f x)) + ((1 - alpha : ℝ) : ℂ) • (vecOf N (f x) - vecOf N x) := by
        push_cast
        module
      rw [e]
      refine (norm_add_le _ _).trans ?_
      rw [norm_smul, Complex.norm_real, Real.norm_eq_abs, abs_of_nonneg (by linarith), ← deltaNorm_eq hfx hx]
      linarith
    have hacc : vecSq (distVec beta 0 (f (stepTo x alpha (distVec beta 0 (f x) x))) (stepTo x alpha (distVec beta 0 (f x) x))) ≤ (1 - 1e-4) * vecSq (distVec beta 0 (f x) x) := by
      obtain ⟨h3, h4⟩ := distVec_zero beta hfx' hx'
      rw [vecSq_eq h3, vecSq_eq hFl, h4, ← deltaNorm_eq hfx' hx', hnF]
      calc _ ≤ ((1 - alpha * (1 - q)) * deltaNorm (f x) x) ^ 2 := by
            refine pow_le_pow_left₀ ?_ hle 2
            unfold deltaNorm; exact Real.sqrt_nonneg _
        _ = (1 - alpha * (1 - q)) ^ 2 * deltaNorm (f x) x ^ 2 := by ring
        _ ≤ _ := mul_le_mul_of_nonneg_right hr (sq_nonneg _)
    obtain ⟨s1, hs1, hs1i, hd⟩ := distance_of_step (beta := beta) (a := 0) hf hs hx'
    have hm0 : m ≠ 0 := by
      rintro rfl
      rw [pow_zero, one_mul] at h2
      linarith
    by_cases hc : deltaNorm (f (stepTo x alpha (distVec beta 0 (f x) x))) (stepTo x alpha (distVec beta 0 (f x) x)) < P.tol
    · rw [if_pos hc] at hd
      refine ⟨⟨_, .raise hne ha.ne' hd (by simp)⟩, fun r hr => ?_⟩
      cases hr with
      | zero h => exact absurd h hne
      | stuck _ h => exact absurd h ha.ne'
      | error _ _ h => rw [hd] at h; cases h
      | raise _ _ h _ =>
        rw [hd] at h
        cases h
        exact ⟨_, _, rfl, hx', hc, by omega⟩
      | accept _ _ h => rw [hd] at h; cases h
      | search _ _ h => rw [hd] at h; cases h
      | searchEnd _ _ h => rw [hd] at h; cases h
    · have hpow : (1 - alpha * (1 - q)) ^ (m - 1) * deltaNorm (f (stepTo x alpha (distVec beta 0 (f x) x))) (stepTo x alpha (distVec beta 0 (f x) x)) < P.tol := by
        refine lt_of_le_of_lt ?_ h2
        have : 0 ≤ 1 - alpha * (1 - q) := by nlinarith
        calc _ ≤ (1 - alpha * (1 - q)) ^ (m - 1) * ((1 - alpha * (1 - q)) * deltaNorm (f x) x) := mul_le_mul_of_nonneg_left hle (by positivity)
          _ = (1 - alpha * (1 - q)) ^ (m - 1 + 1) * deltaNorm (f x) x := by rw [pow_succ]; ring
          _ = _ := by rw [Nat.sub_add_cancel (by omega)]
      have hm1 : m - 1 ≠ 0 := by
        intro h
        rw [h, pow_zero, one_mul] at hpow
        exact hc hpow
      rw [if_neg hc, if_neg (by omega)] at hd
      obtain ⟨hex, hall⟩ := ih { s1 with it := s.it + 1 } _ (m - 1) (hs1 _) hx' (not_lt.mp hc) hpow (by omega) (by simp only; omega)
      obtain ⟨r0, hr0⟩ := hex
      refine ⟨⟨r0, .accept hne ha.ne' hd hacc hr0⟩, fun r hr => ?_⟩
      cases hr with
      | zero h => exact absurd h hne
      | stuck _ h => exact absurd h ha.ne'
      | error _ _ h => rw [hd] at h; cases h
      | raise _ _ h ho => rw [hd] at h; cases h; exact absurd rfl (ho _)
      | accept _ _ h _ h5 =>
        rw [hd] at h
        cases h
        obtain ⟨s', d, e1, e2, e3, e4⟩ := hall _ h5
        exact ⟨s', d, e1, e2, e3, by simp only at e4; omega⟩
      | search _ _ h h5 => rw [hd] at h; cases h; exact absurd hacc h5
      | searchEnd _ _ h h5 => rw [hd] at h; cases h; exact absurd hacc h5

/-- **C192** (convergence) Suppose that a step of the loop maps the hybridisation `d` to `f d`, and that `f` is a contraction with the factor `q < 1`. Then `solve_with_linear_mixing` with the mixing
`alpha`, whose line search accepts the full step as soon as it reduces the residual by `1e-4`, multiplies the distance between `f d` and `d` by `1 - alpha (1 - q)` or less in each step, and the run ends by
`Converged` after the number `K` of steps in which this falls below `tol`, if `max_iter` and `iter` allow that many. The hybridisation it ends with is within `tol / (1 - q)` of the fixed point of the loop. -/
theorem C192_contraction (hf : StepsBy P N f Inv) (hq : ∀ d d', d.length = N → d'.length = N → deltaNorm (f d) (f d') ≤ q * deltaNorm d d') (h0 : 0 ≤ q) (hq1 : q < 1) (ha : 0 < alpha) (ha1 : alpha ≤ 1)
    (hr : (1 - alpha * (1 - q)) ^ 2 ≤ 1 - 1e-4) (ht : 0 < P.tol) {iter : ℕ} {s : DmftState} (hs : Inv s) {x : List ℂ} (hx : x.length = N) {K : ℕ}
    (hK : (1 - alpha * (1 - q)) ^ K * deltaNorm (f x) x < P.tol) (hi : K ≤ iter) (hm : s.it + K ≤ P.maxIter) :
    (∃ r, LinearMixing P beta 0 iter alpha s x r) ∧ ∀ r, LinearMixing P beta 0 iter alpha s x r →
      ∃ s' d, r = .raised s' .converged d ∧ d.length = N ∧ deltaNorm (f d) d < P.tol ∧ s'.it ≤ s.it + K ∧ ∀ d0, d0.length = N → f d0 = d0 → deltaNorm d d0 ≤ P.tol / (1 - q) := by
  have hfix : ∀ d, d.length = N → deltaNorm (f d) d < P.tol → ∀ d0, d0.length = N → f d0 = d0 → deltaNorm d d0 ≤ P.tol / (1 - q) := by
    intro d hd h d0 hd0 e
    obtain ⟨hfd, -⟩ := hf s d hs hd
    have h1 := hq d d0 hd hd0
    rw [e, deltaNorm_eq hfd hd0, deltaNorm_eq hd hd0] at h1
    rw [deltaNorm_eq hfd hd] at h
    rw [deltaNorm_eq hd hd0, le_div_iff₀ (by linarith)]
    have h2 : ‖vecOf N d - vecOf N d0‖ ≤ ‖vecOf N (f d) - vecOf N d‖ + ‖vecOf N (f d) - vecOf N d0‖ := by
      rw [← norm_sub_rev (vecOf N d)]
      exact norm_sub_le_norm_sub_add_norm_sub _ _ _
    linarith
  obtain ⟨s1, hs1, hs1i, hd⟩ := distance_of_step (beta := beta) (a := 0) hf hs hx
  by_cases hc : deltaNorm (f x) x < P.tol
  · rw [if_pos hc] at hd
    refine ⟨⟨_, .raise hd (by simp)⟩, fun r hr => ?_⟩
    cases hr with
    | error h => rw [hd] at h; cases h
    | raise h _ =>
      rw [hd] at h
      cases h
      exact ⟨_, _, rfl, hx, hc, by omega, hfix x hx hc⟩
    | run h => rw [hd] at h; cases h
  · have hK0 : K ≠ 0 := by
      rintro rfl
      rw [pow_zero, one_mul] at hK
      exact hc hK
    rw [if_neg hc, if_neg (by omega)] at hd
    obtain ⟨hex, hall⟩ := linLoop_contract (beta := beta) hf hq h0 ha ha1 hr ht iter { s1 with it := s.it + 1 } x K (hs1 _) hx (not_lt.mp hc) hK hi (by simp only; omega)
    obtain ⟨r0, hr0⟩ := hex
    refine ⟨⟨r0, .run hd hr0⟩, fun r hr => ?_⟩
    cases hr with
    | error h => rw [hd] at h; cases h
    | raise h ho => rw [hd] at h; cases h; exact absurd rfl (ho _)
    | run h h5 =>
      rw [hd] at h
      cases h
      obtain ⟨s', d, e1, e2, e3, e4⟩ := hall _ h5
      exact ⟨s', d, e1, e2, e3, by simp only at e4; omega, hfix d e2 e3⟩

/-- A loop at one frequency whose step returns the hybridisation 1 whatever the argument. -/
noncomputable def oneLoop (tol : ℝ) (maxIter : ℕ) : DmftPar :=
  ⟨2, [matsZ 1 0], tol, maxIter, some 1, fun _ _ => .ok (fun _ => 0, fun _ => 0), fun _ => .ok fun z => 1 / z, none, fun _ => .ok 1⟩

theorem oneLoop_steps (tol : ℝ) (maxIter : ℕ) : StepsBy (oneLoop tol maxIter) 1 (fun _ => [1]) (fun s => s.loc.inv = (fun mu sig z => z + mu - 1 - sig z) ∧ s.loc.mu = some 0 ∧ s.loc.ed = some 0) := by
  rintro ⟨imp, gf, ⟨inv, mu, sigma, ed⟩, it⟩ d ⟨rfl, rfl, rfl⟩ hd
  have e : ∀ a b c : ℂ, a + b - (c + (a + b - 1 - c)) = 1 := fun a b c => by ring
  refine ⟨rfl, ?_⟩
  simp only [DmftState.step, DmftState.dmftStep, oneLoop, bind, Except.bind, pure, Except.pure, List.mapM_cons, List.mapM_nil, Loc.delta, Loc.weiss, e]
  exact ⟨_, 1, rfl, fun _ => ⟨rfl, rfl, rfl⟩⟩

/-- Non-vacuity of `C192_contraction`: with the default mixing 0.2 and 60 steps, a loop with the tolerance 1e-3 and at most 40 iterations. -/
example : ∃ s' d, LinearMixing (oneLoop (1 / 10 ^ 3) 40) 1 0 60 (1 / 5) flatState [0] (.raised s' .converged d) ∧ deltaNorm [1] d < 1 / 10 ^ 3 := by
  have hn : deltaNorm [1] [0] = 1 := by simp [deltaNorm]
  obtain ⟨⟨r, hr⟩, h⟩ := C192_contraction (beta := 1) (alpha := 1 / 5) (q := 0) (oneLoop_steps (1 / 10 ^ 3) 40) (fun d d' _ _ => by simp [deltaNorm]) le_rfl one_pos (by norm_num) (by norm_num) (by norm_num)
    (by norm_num [oneLoop]) (iter := 60) (s := flatState) ⟨rfl, rfl, rfl⟩ (x := [0]) rfl (K := 40) (by rw [hn]; norm_num [oneLoop]) (by norm_num) (by simp [oneLoop, flatState])
  obtain ⟨s', d, rfl, -, hd, -⟩ := h r hr
  exact ⟨s', d, hr, hd⟩

theorem oneLoop_run {tol : ℝ} {maxIter : ℕ} (ht : 0 < tol) (k : ℕ) : ∀ (s : DmftState) (c : ℝ), s.loc.inv = (fun mu sig z => z + mu - 1 - sig z) ∧ s.loc.mu = some 0 ∧ s.loc.ed = some 0 → s.it + k ≤ maxIter →
    0 ≤ c → tol ≤ c * (4 / 5) ^ k →
    ∃ s', LinLoop (oneLoop tol maxIter) 1 0 (1 / 5) k s [((1 - c : ℝ) : ℂ)] [(c : ℂ)] (.finished s' [((1 - c * (4 / 5) ^ k : ℝ) : ℂ)]) ∧
      s'.loc.inv = (fun mu sig z => z + mu - 1 - sig z) ∧ s'.loc.mu = some 0 ∧ s'.loc.ed = some 0 := by
  induction k with
  | zero =>
    intro s c hs _ hc h
    refine ⟨s, ?_, hs⟩
    rw [pow_zero, mul_one] at h ⊢
    refine .done ?_
    have : 0 < c := by linarith
    simp [vecSq, this.ne']
  | succ k ih =>
    intro s c hs hit hc h
    have hc0 : 0 < c := by
      rcases hc.lt_or_eq with h1 | h1
      · exact h1
      · rw [← h1, zero_mul] at h; linarith
    have hst : stepTo [((1 - c : ℝ) : ℂ)] (1 / 5) [(c : ℂ)] = [((1 - c * (4 / 5) : ℝ) : ℂ)] := by
      simp only [stepTo, List.zipWith_cons_cons, List.zipWith_nil_left]
      congr 1
      push_cast
      ring
    obtain ⟨s1, hs1, hi1, hd⟩ := distance_of_step (beta := 1) (a := 0) (oneLoop_steps tol maxIter) hs (d := [((1 - c * (4 / 5) : ℝ) : ℂ)]) rfl
    have hnorm : deltaNorm [1] [((1 - c * (4 / 5) : ℝ) : ℂ)] = c * (4 / 5) := by
      have e : (1 : ℂ) - ((1 - c * (4 / 5) : ℝ) : ℂ) = ((c * (4 / 5) : ℝ) : ℂ) := by push_cast; ring
      simp only [deltaNorm, List.zipWith_cons_cons, List.zipWith_nil_left, List.sum_cons, List.sum_nil, add_zero, e, Complex.normSq_ofReal]
      exact Real.sqrt_mul_self (by positivity)
    have hle : tol ≤ c * (4 / 5) := by
      refine h.trans ?_
      have : (4 / 5 : ℝ) ^ (k + 1) ≤ 4 / 5 := by
        rw [pow_succ]
        have : (4 / 5 : ℝ) ^ k ≤ 1 := pow_le_one₀ (by norm_num) (by norm_num)
        linarith
      nlinarith
    rw [hnorm, if_neg (by rw [not_lt]; exact hle), if_neg (by simp only [oneLoop]; omega)] at hd
    have hv : distVec 1 0 [1] [((1 - c * (4 / 5) : ℝ) : ℂ)] = [((c * (4 / 5) : ℝ) : ℂ)] := by
      simp only [distVec, distWeight, neg_zero, Real.rpow_zero, List.zipWith_cons_cons, List.zipWith_nil_left, List.mapIdx_cons, List.mapIdx_nil]
      congr 1
      push_cast
      ring
    rw [hv] at hd
    obtain ⟨s', hr, hs'⟩ := ih { s1 with it := s.it + 1 } (c * (4 / 5)) (hs1 _) (by simp only; omega) (by positivity) (by rw [pow_succ] at h; linarith)
    refine ⟨s', .accept (s' := { s1 with it := s.it + 1 }) (F' := [((c * (4 / 5) : ℝ) : ℂ)]) ?_ (by norm_num) (by rw [hst]; exact hd) ?_ ?_, hs'⟩
    · simp [vecSq, hc0.ne']
    · simp only [vecSq, List.map_cons, List.map_nil, List.sum_cons, List.sum_nil, add_zero, Complex.normSq_ofReal]
      nlinarith [mul_pos hc0 hc0]
    · rw [hst]
      convert hr using 3
      rw [pow_succ]
      push_cast
      ring

/-- **C192 is false for `max_iter` above `iter`**: with the default 60 steps and mixing of `solve_with_linear_mixing`, and an object that allows 100 iterations, a run can return without `Converged` and without
`FailedToConverge` although the residual is far above the tolerance. -/
theorem C192_refuted : ∃ (P : DmftPar) (s s' : DmftState) (x d : List ℂ), P.maxIter = 100 ∧ LinearMixing P 1 0 60 (1 / 5) s x (.finished s' d) ∧ P.tol * 100 < deltaNorm [1] d ∧
    ∃ s1 o, s'.step P d = .ok (s1, some o, [1]) := by
  obtain ⟨s1, hs1, hi1, hd⟩ := distance_of_step (beta := 1) (a := 0) (oneLoop_steps (1 / 10 ^ 9) 100) (s := flatState) ⟨rfl, rfl, rfl⟩ (d := [((1 - 1 : ℝ) : ℂ)]) rfl
  have hn : deltaNorm [1] [((1 - 1 : ℝ) : ℂ)] = 1 := by simp [deltaNorm]
  rw [hn, if_neg (by norm_num [oneLoop]), if_neg (by simp [oneLoop, flatState])] at hd
  have hv : distVec 1 0 [1] [((1 - 1 : ℝ) : ℂ)] = [((1 : ℝ) : ℂ)] := by simp [distVec, distWeight]
  rw [hv] at hd
  obtain ⟨s', hr, hs'⟩ := oneLoop_run (tol := 1 / 10 ^ 9) (maxIter := 100) (by norm_num) 60 { s1 with it := 1 } 1 (hs1 _) (by norm_num) (by norm_num) (by norm_num)
  obtain ⟨-, s2, o, h2, -⟩ := oneLoop_steps (1 / 10 ^ 9) 100 s' [((1 - 1 * (4 / 5) ^ 60 : ℝ) : ℂ)] hs' rfl
  refine ⟨oneLoop (1 / 10 ^ 9) 100, flatState, s', _, _, rfl, .run hd hr, ?_, s2, o, h2⟩
  have e : (1 : ℂ) - ((1 - 1 * (4 / 5) ^ 60 : ℝ) : ℂ) = (((4 / 5) ^ 60 : ℝ) : ℂ) := by push_cast; ring
  simp only [deltaNorm, List.zipWith_cons_cons, List.zipWith_nil_left, List.sum_cons, List.sum_nil, add_zero, e, Complex.normSq_ofReal]
  rw [Real.sqrt_mul_self (by positivity)]
  norm_num [oneLoop]

end Edpyt
