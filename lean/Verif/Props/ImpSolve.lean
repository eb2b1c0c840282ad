import Verif.Model.ImpSolve
import Verif.Props.GfScreened
import Verif.Props.SelfEnergy
import Verif.Props.Atomic
import Verif.Proof.LanczosStop
/-!
# C119: `Gfimp.solve` and the temperature
-/

namespace Edpyt
open Spec Matrix

variable {es : Espace (ℕ × ℕ)} {cfg : LancCfg} {w junk : ℕ} {a : HamArgs} {beta : ℝ} {spin : Bool} {neig : Option (List ℕ)} {adjust : Bool}

/-- The weight at `β` of what `screen_espace(espace, egs, bs, cutoff)` removes. -/
theorem screen_weights' (ha : a.Valid) (hw : a.n ≤ w) {egs : ℝ} (h : BuildEspace w a none (.ok (es, (egs : WithTop ℝ)))) {β bs cutoff : ℝ} (hbs : 0 < bs) (hβ : 0 ≤ β)
    (hc0 : 0 ≤ cutoff) (hc1 : cutoff < 1) {es' : Espace (ℕ × ℕ)} (hs : screenEspace es egs bs cutoff = .ok es') :
    1 ≤ partition es' β egs ∧ partition es β egs - partition es' β egs ≤ 4 ^ a.n * cutoff ^ (β / bs) := by
  obtain ⟨E, hE, ⟨p, hp, hEp⟩, hmin⟩ := buildEspace_least ha hw h
  have hE' : egs = E := by exact_mod_cast hE
  subst hE'
  have hes := buildEspace_eigen ha hw h
  have hok := hes.subEspace.espaceOk
  constructor
  · obtain ⟨p', h1, -, h2⟩ := C30_ground_state es es' hok egs bs cutoff hc1 p hp hEp hs
    exact one_le_partition ⟨p', h1, h2⟩
  · rw [partition_screen hok β egs bs cutoff hs]
    refine screenedOut_le (Real.rpow_nonneg hc0 _) hes.toCompleteEspace fun p hp E hE hle => ?_
    have h1 : Real.exp (-β * (E - egs)) = Real.exp (-bs * (E - egs)) ^ (β / bs) := by
      rw [← Real.exp_mul]; congr 1; field_simp
    rw [h1]
    exact Real.rpow_le_rpow (Real.exp_pos _).le hle (by positivity)

theorem adjustIf_false (es : Espace (ℕ × ℕ)) (neig : Option (List ℕ)) (n : ℕ) : adjustIf false es neig n = .ok neig := rfl

/-- The bound of C118 with the weight of the removed states. -/
theorem loss_le {Z0 K κ η : ℝ} (hη : η ≠ 0) (hK : 1 ≤ K) (hκ : 0 ≤ κ) (h : Z0 - K ≤ κ) : 2 * (Z0 - K) / (|η| * K) ≤ 2 * κ / |η| := by
  have h0 : 0 < |η| := abs_pos.mpr hη
  rw [div_le_div_iff₀ (by positivity) h0]
  have : κ ≤ κ * K := by nlinarith
  nlinarith

/-- `build_espace` without `neig_sector` succeeds. -/
theorem buildEspace_none_ok (ha : a.Valid) (hw : a.n ≤ w) : (∃ x, BuildEspace w a none (.ok x)) ∧ ∀ e, ¬ BuildEspace w a none (.error e) := by
  obtain ⟨l, hl, hlb⟩ := C25_default_neig a.n
  obtain ⟨⟨x, h⟩, h'⟩ := C25_build_espace_partial ha hw l hlb
  have e : ∀ r, BuildEspace w a none r ↔ BuildEspace w a (some l) r := by
    intro r
    simp only [BuildEspace, hl]
    simp only [neigOrDefault]
  exact ⟨⟨x, (e _).mpr h⟩, fun er hcon => by
    have := h' _ ((e _).mp hcon)
    simp at this⟩

/-- What every call of `solve` without `neig` and `adjust_neig` comes down to. -/
theorem impSolve_cases (ha : a.Valid) (hw : a.n ≤ w) {r : Except PyErr SolveOut} (hr : ImpSolve cfg w junk a beta spin none false r) :
    ∃ (es : Espace (ℕ × ℕ)) (egs : ℝ), BuildEspace w a none (.ok (es, (egs : WithTop ℝ))) ∧ ∃ es', screenEspace es egs (10 ^ 6) (1 / 10 ^ 9) = .ok es' ∧ SubEspace a.n a.ham es' ∧
      BindR (BuildGfLanczos ⟨cfg, .sp, w, junk, a, beta, egs, spin⟩ 0 false es') (fun out => DetR (.ok ⟨out.gfe, out.es, egs, none, out.log⟩)) r := by
  have hall := (buildEspace_none_ok ha hw).2
  rcases hr with ⟨⟨es, e1⟩, h1, hr⟩ | ⟨e, h1, -⟩
  · obtain ⟨E, rfl, -⟩ := buildEspace_least ha hw h1
    obtain ⟨es', h2, h3⟩ := (buildEspace_eigen ha hw h1).subEspace.screen E (10 ^ 6) (1 / 10 ^ 9)
    refine ⟨es, E, h1, es', h2, h3, ?_⟩
    simp only [WithTop.untopD_coe, screenDefault, DetR, h2] at hr
    rcases hr with ⟨x, hx, hr⟩ | ⟨e, hx, -⟩
    · injection hx with hx; subst hx
      rw [adjustIf_false] at hr
      rcases hr with ⟨x, hx, hr⟩ | ⟨e, hx, -⟩
      · injection hx with hx; subst hx
        exact hr
      · cases hx
    · cases hx
  · exact absurd h1 (hall e)

theorem impSolve_exists (ha : a.Valid) (hw : a.n ≤ w) (hc : cfg.Ok) (h0 : 0 < a.n) (beta : ℝ) (spin : Bool) : ∃ r, ImpSolve cfg w junk a beta spin none false r := by
  refine bindR_exists ⟨_, (buildEspace_none_ok ha hw).1.choose_spec⟩ fun x hx => ?_
  obtain ⟨es, e0⟩ := x
  obtain ⟨E, rfl, -⟩ := buildEspace_least ha hw hx
  obtain ⟨es', h2, h3⟩ := (buildEspace_eigen ha hw hx).subEspace.screen E (10 ^ 6) (1 / 10 ^ 9)
  refine bindR_exists ⟨_, rfl⟩ fun y hy => ?_
  simp only [screenDefault, WithTop.untopD_coe] at hy
  obtain rfl : y = es' := by rw [h2] at hy; injection hy
  refine bindR_exists ⟨_, rfl⟩ fun z _ => bindR_exists ?_ fun _ _ => ⟨_, rfl⟩
  exact gfBuild_sub_exists (g := ⟨cfg, .sp, w, junk, a, beta, E, spin⟩) ha hw hc h0 h3

/-- **C119** (partial) `Gfimp.solve` at any temperature, without `neig`: `self.gf` is the thermal Green function at `self.beta` up to the errors of the Lanczos
runs and `2 · 4ⁿ · (10⁻⁹)^(beta / 10⁶) / |η|`, since the states are screened at `beta = 10⁶`. Missing: the claim for smaller `beta`, which is false (`C119_refuted`). -/
theorem C119_solve_partial (jk : ℝ) (ha : a.Valid) (hw : a.n ≤ w) (hc : cfg.Ok) (h0 : 0 < a.n) (hβ : 0 ≤ beta) :
    (∃ r, ImpSolve cfg w junk a beta spin none false r) ∧ ∀ r, ImpSolve cfg w junk a beta spin none false r →
      ∃ out, r = .ok out ∧ ∀ (e eta ε : ℝ), eta ≠ 0 → 0 ≤ ε → (∀ run ∈ out.log, run.ResLe ε) → ∀ gr,
        IsGreen beta a.ham (ann ℝ (orb spin (⟨0, h0⟩ : Fin a.n))) (cre ℝ (orb spin (⟨0, h0⟩ : Fin a.n))) (e + Complex.I * eta) gr →
        ‖out.gf.call jk e eta - gr‖ ≤ ε / eta ^ 2 + 2 * (cfg.delta ^ 2 / |eta|) + 2 * (4 ^ a.n * (1 / 10 ^ 9 : ℝ) ^ (beta / 10 ^ 6)) / |eta| := by
  refine ⟨impSolve_exists ha hw hc h0 beta spin, fun r hr => ?_⟩
  obtain ⟨es, egs, h1, es', h2, h3, hr⟩ := impSolve_cases ha hw hr
  obtain ⟨k1, k2⟩ := screen_weights' ha hw h1 (β := beta) (by norm_num) hβ (by norm_num) (by norm_num) h2
  obtain ⟨-, t2⟩ := C118_truncated (g := ⟨cfg, .sp, w, junk, a, beta, egs, spin⟩) jk ha hw hc h0 (buildEspace_eigen ha hw h1) h3 (by linarith)
  rcases hr with ⟨x, hx, hr⟩ | ⟨e, hx, -⟩
  · obtain ⟨out, e1, -, -, -, -, hb⟩ := t2 _ hx
    injection e1 with e1; subst e1
    refine ⟨_, hr, fun e eta ε he hε hlog gr hg => (hb e eta ε he hε hlog gr hg).trans ?_⟩
    have := loss_le he k1 (by positivity) k2
    linarith
  · obtain ⟨out, e1, -⟩ := t2 _ hx
    cases e1

theorem gfBuild_Z {g : GfLArgs} {pos : ℕ} {out : GfLOut} (h : BuildGfLanczos g pos false es (.ok out)) : out.gfe.Z = partition out.es g.beta g.egs := by
  rcases h with ⟨st, -, h⟩ | ⟨e, -, h⟩
  · simp only [DetR] at h
    injection h with h
    subst h
    rfl
  · cases h

theorem spinImpSolve_exists (ha : a.Valid) (hw : a.n ≤ w) (hc : cfg.Ok) (h0 : 0 < a.n) (beta : ℝ) : ∃ r, SpinImpSolve cfg w junk a beta none false r := by
  refine bindR_exists ⟨_, (buildEspace_none_ok ha hw).1.choose_spec⟩ fun x hx => ?_
  obtain ⟨es, e0⟩ := x
  obtain ⟨E, rfl, -⟩ := buildEspace_least ha hw hx
  have hE := buildEspace_eigen ha hw hx
  obtain ⟨es', h2, h3⟩ := hE.subEspace.screen E (10 ^ 6) (1 / 10 ^ 9)
  refine bindR_exists ⟨_, rfl⟩ fun y hy => ?_
  simp only [screenDefault, WithTop.untopD_coe] at hy
  obtain rfl : y = es' := by rw [h2] at hy; injection hy
  refine bindR_exists ⟨_, rfl⟩ fun z _ => bindR_exists ?_ fun out hout => bindR_exists ?_ fun _ _ => ⟨_, rfl⟩
  · exact gfBuild_sub_exists (g := ⟨cfg, .sp, w, junk, a, beta, E, false⟩) ha hw hc h0 h3
  · obtain ⟨out', e1, h4, -⟩ := gfBuild_sub (g := ⟨cfg, .sp, w, junk, a, beta, E, false⟩) (jk := 0) ha hw hc h0 hE h3 hout
    injection e1 with e1; subst e1
    exact gfBuild_sub_exists (g := ⟨cfg, .sp, w, junk, a, beta, E, true⟩) ha hw hc h0 h4

/-- **C119** (partial) the same for both spins of `SpinGfimp.solve`, where the second Green function is computed from what the first call left in `espace`. -/
theorem C119_spin_solve_partial (jk : ℝ) (ha : a.Valid) (hw : a.n ≤ w) (hc : cfg.Ok) (h0 : 0 < a.n) (hβ : 0 ≤ beta) :
    (∃ r, SpinImpSolve cfg w junk a beta none false r) ∧ ∀ r, SpinImpSolve cfg w junk a beta none false r →
      ∃ out, r = .ok out ∧ ∀ (s : Bool) (e eta ε : ℝ), eta ≠ 0 → 0 ≤ ε → (∀ run ∈ out.log, run.ResLe ε) → ∀ gr,
        IsGreen beta a.ham (ann ℝ (orb s (⟨0, h0⟩ : Fin a.n))) (cre ℝ (orb s (⟨0, h0⟩ : Fin a.n))) (e + Complex.I * eta) gr →
        ‖(if s then out.dw else out.up).call jk e eta - gr‖ ≤ ε / eta ^ 2 + 2 * (cfg.delta ^ 2 / |eta|) + 2 * (4 ^ a.n * (1 / 10 ^ 9 : ℝ) ^ (beta / 10 ^ 6)) / |eta| := by
  refine ⟨spinImpSolve_exists ha hw hc h0 beta, fun r hr => ?_⟩
  rcases hr with ⟨⟨es, e1⟩, h1, hr⟩ | ⟨e, h1, -⟩
  swap
  · exact absurd h1 ((buildEspace_none_ok ha hw).2 e)
  obtain ⟨E, rfl, -⟩ := buildEspace_least ha hw h1
  have hE := buildEspace_eigen ha hw h1
  obtain ⟨es', h2, h3⟩ := hE.subEspace.screen E (10 ^ 6) (1 / 10 ^ 9)
  simp only [WithTop.untopD_coe, screenDefault] at hr
  rw [bindR_ok h2, bindR_ok (adjustIf_false _ _ _)] at hr
  obtain ⟨k1, k2⟩ := screen_weights' ha hw h1 (β := beta) (by norm_num) hβ (by norm_num) (by norm_num) h2
  obtain ⟨-, t2⟩ := C118_truncated (g := ⟨cfg, .sp, w, junk, a, beta, E, false⟩) jk ha hw hc h0 hE h3 (by linarith)
  rcases hr with ⟨x, hx, hr⟩ | ⟨e, hx, -⟩
  swap
  · obtain ⟨out, e1, -⟩ := t2 _ hx
    cases e1
  obtain ⟨out, e1, s1, -, -, -, hb⟩ := t2 _ hx
  injection e1 with e1; subst e1
  obtain ⟨out', e1, -, -, -, -, hZ, -⟩ := gfBuild_sub (g := ⟨cfg, .sp, w, junk, a, beta, E, false⟩) (jk := jk) ha hw hc h0 hE h3 hx
  injection e1 with e1; subst e1
  rw [gfBuild_Z hx] at hZ
  simp only at hZ
  have hx0 : 0 < partition x.es beta E := by linarith
  obtain ⟨-, u2⟩ := C118_truncated (g := ⟨cfg, .sp, w, junk, a, beta, E, true⟩) jk ha hw hc h0 hE s1 hx0
  rcases hr with ⟨y, hy, hr⟩ | ⟨e, hy, -⟩
  swap
  · obtain ⟨out, e1, -⟩ := u2 _ hy
    cases e1
  obtain ⟨out', e1, -, -, -, -, hb'⟩ := u2 _ hy
  injection e1 with e1; subst e1
  refine ⟨_, hr, fun s e eta ε he hε hlog gr hg => ?_⟩
  simp only [List.mem_append] at hlog
  cases s
  · refine (hb e eta ε he hε (fun run h => hlog run (Or.inl h)) gr hg).trans ?_
    have := loss_le he k1 (by positivity) k2
    linarith
  · refine (hb' e eta ε he hε (fun run h => hlog run (Or.inr h)) gr hg).trans ?_
    have := loss_le (Z0 := partition es beta E) (K := partition x.es beta E) (κ := 4 ^ a.n * (1 / 10 ^ 9 : ℝ) ^ (beta / 10 ^ 6)) he (by linarith) (by positivity) (by linarith)
    linarith

/-- **C119** `Gfimp(n, adjust_neig=True)` with the default `neig=None`: `solve` cannot succeed, it raises a `TypeError` after the diagonalisation. -/
theorem C119_adjust_none (ha : a.Valid) (hw : a.n ≤ w) : (∃ r, ImpSolve cfg w junk a beta spin none true r) ∧
    ∀ r, ImpSolve cfg w junk a beta spin none true r → r = .error .typeError := by
  obtain ⟨h1, h2⟩ := buildEspace_none_ok ha hw
  have key : ∀ (es : Espace (ℕ × ℕ)) (E : ℝ) (f : Espace (ℕ × ℕ) → Option (List ℕ) → Except PyErr SolveOut → Prop), SubEspace a.n a.ham es → ∀ r,
      BindR (DetR (screenDefault es E)) (fun es => BindR (DetR (adjustIf true es none a.n)) (f es)) r ↔ r = .error .typeError := by
    intro es E f hes r
    obtain ⟨es', e1, -⟩ := hes.screen E (10 ^ 6) (1 / 10 ^ 9)
    rw [bindR_ok (y := es') (by simpa only [screenDefault] using e1)]
    simp only [adjustIf, if_true, BindR, DetR, reduceCtorEq, false_and, exists_false, false_or, Except.error.injEq, exists_eq_left]
  constructor
  · refine bindR_exists ⟨_, h1.choose_spec⟩ fun x hx => ?_
    obtain ⟨es, e0⟩ := x
    exact ⟨_, (key es _ _ (buildEspace_eigen ha hw hx).subEspace _).mpr rfl⟩
  · rintro r (⟨⟨es, e0⟩, hx, hr⟩ | ⟨e, hx, -⟩)
    · exact (key es _ _ (buildEspace_eigen ha hw hx).subEspace _).mp hr
    · exact absurd hx (h2 e)

end Edpyt
