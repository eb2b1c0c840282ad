import Verif.Props.MoamPass

/-!
A pass of `moam_solve` that accepts every impurity: the concrete case for `C186_sample` and `C186_independent`.
-/
namespace Edpyt
open Spec Matrix

theorem moam_accepting {fsolve : (ℝ → ℝ) → ℝ → ℝ} {cfg : LancCfg} {w junk n nb : ℕ} {jk : ℝ} {beta : ℝ} {poles : List (List ℝ)} {H : ℕ → ℕ → ℝ}
    (hn : n = poles.length + poles.length * nb) (h2 : 2 ≤ n) (h32 : n ≤ 32) (hw : n ≤ w) (hc : cfg.Ok) (hβ : 0 < beta) (hl : ∀ p ∈ poles, p.length = nb + 1)
    (hH : MoamClean poles.length nb n H) :
    ∃ H1 smps, MoamPass fsolve cfg w junk jk n (.array fun _ _ => 0) (fun _ => 0) beta poles H (.ok (H1, smps)) ∧ ∀ i < poles.length, ∃ smp, smps[i]? = some (some smp) := by
  have hN : (poles.map (gfimpFit fsolve)).length = poles.length := List.length_map _
  have hpos : 0 < poles.length := by
    rcases Nat.eq_zero_or_pos poles.length with h | h
    · rw [h] at hn; omega
    · exact h
  have hbath : (n - poles.length) / poles.length = nb := by
    rw [hn, Nat.add_sub_cancel_left, Nat.mul_div_cancel_left _ hpos]
  obtain ⟨H1, b1, b2, b3⟩ := buildMoam_again (gs := poles.map (gfimpFit fsolve)) (n := n) (nb := nb) (H := H) (by rw [hN]; exact hn) (fun g hg => by
    obtain ⟨p, hp, rfl⟩ := List.mem_map.mp hg
    simp [gfimpFit, hl p hp]) (by rw [hN]; exact hH)
  rw [hN] at b3
  have b2' : ∀ i (hi : i < poles.length), HoldsImp poles.length nb i (gfimpFit fsolve (poles[i]?.getD [])) H1 := fun i hi => by
    have := b2 i (by rw [hN]; exact hi)
    simpa [List.getElem?_eq_getElem hi] using this
  have ha0 : (moamArgs n H1 (.array fun _ _ => 0)).Valid := moamArgs_valid (gs := fun i => gfimpFit fsolve (poles[i]?.getD [])) h2 h32 b2' b3 ⟨rfl, by simp [VArg.array], by simp [VArg.array], fun _ => rfl⟩
  have hs0 : subImp n poles.length (fun _ => 0) H1 = H1 := by
    funext r c
    unfold subImp
    split_ifs <;> simp
  have hV0 : moamV poles.length (.array fun _ _ => (0 : ℝ)) = .array fun _ _ => 0 := by
    simp [moamV, VArg.array]
  obtain ⟨⟨p0, hp0⟩, -⟩ := buildEspace_none_ok (w := w) ha0 hw
  obtain ⟨s0, f0, ψ0, -, o0⟩ := moam_occs (nimp := poles.length) (nb := nb) ha0 hw hn (es := p0.1) (E0 := p0.2) hp0
  obtain ⟨es0, E⟩ := p0
  obtain ⟨E, rfl, -⟩ := buildEspace_least ha0 hw hp0
  have hE := buildEspace_eigen ha0 hw hp0
  obtain ⟨es', k0, k3⟩ := hE.subEspace.screen E beta (1 / 10 ^ 9)
  obtain ⟨k1, k2⟩ := screen_weights ha0 hw hp0 hβ.le le_rfl (by norm_num) (by norm_num) k0
  have hκ : (0 : ℝ) ≤ 4 ^ n * (1 / 10 ^ 9) := by positivity
  obtain ⟨⟨r, hr⟩, hall⟩ := moamLoop_spec (g := ⟨cfg, .cf, w, junk, moamArgs n H1 (.array fun _ _ => 0), beta, E, false⟩)
      (acc := fun i => npClose (((List.range poles.length).map fun i => (subsystemPos poles.length nb i).map (siteOcc n ψ0))[i]?.getD []).sum
        (((List.range poles.length).map fun i => (subsystemPos poles.length nb i).map (siteOcc n ψ0))[i]?.getD []).sum)
      (mk := fun i out => ⟨out.gfe, fun z => (gf0Call ((poles[i]?.getD []).map Complex.ofReal) z)⁻¹ - (out.gfe.call jk z.re z.im)⁻¹,
        (((List.range poles.length).map fun i => (subsystemPos poles.length nb i).map (siteOcc n ψ0))[i]?.getD [])[0]?.getD 0,
        (((List.range poles.length).map fun i => (subsystemPos poles.length nb i).map (siteOcc n ψ0))[i]?.getD [])[0]?.getD 0, out.log⟩)
      jk ha0 hw hc hE hκ (List.range poles.length) es' (fun i hi => (List.mem_range.mp hi).trans_le (show poles.length ≤ n by omega)) k3 k1 k2
  obtain ⟨smps, rfl, e2, e3⟩ := hall r hr
  refine ⟨H1, smps, ?_, fun i hi => ?_⟩
  · unfold MoamPass
    simp only [hbath, bindR_ok b1]
    refine Or.inl ⟨_, hp0, ?_⟩
    simp only [hs0, hV0, bindR_ok f0, bindR_ok o0]
    refine Or.inl ⟨_, hp0, ?_⟩
    simp only [bindR_ok f0, bindR_ok o0]
    rw [show WithTop.untopD 0 ((E : ℝ) : WithTop ℝ) = E from rfl, bindR_ok k0]
    exact Or.inl ⟨_, hr, rfl⟩
  · rcases e3 i (by simpa using hi) with ⟨h, -⟩ | ⟨-, out, h, -⟩
    · refine absurd ?_ h
      unfold npClose
      rw [sub_self, abs_zero]
      positivity
    · exact ⟨_, h⟩

/-- `C186_sample` and `C186_independent`: two impurities with one bath site each, two passes with the same poles of the first impurity and other poles of the second. -/
example : ∃ H1 H2 smps smps' smp smp', MoamPass (fun _ x => x) ⟨500, 10, 1 / 10 ^ 13, fun _ _ => 0, fun _ _ => false⟩ 64 0 0 4 (.array fun _ _ => 0) (fun _ => 0) 100 [[-1, 1], [-2, 2]] (fun _ _ => 0) (.ok (H1, smps)) ∧
    MoamPass (fun _ x => x) ⟨500, 10, 1 / 10 ^ 13, fun _ _ => 0, fun _ _ => false⟩ 64 0 0 4 (.array fun _ _ => 0) (fun _ => 0) 100 [[-1, 1], [0, 5]] H1 (.ok (H2, smps')) ∧
    smps[0]? = some (some smp) ∧ smps'[0]? = some (some smp') ∧
    ∀ e eta ε : ℝ, eta ≠ 0 → 0 ≤ ε → (∀ run ∈ smp.log, run.ResLe ε) → (∀ run ∈ smp'.log, run.ResLe ε) →
      ‖smp.gf.call 0 e eta - smp'.gf.call 0 e eta‖ ≤ 2 * (ε / eta ^ 2 + 2 * ((1 / 10 ^ 13) ^ 2 / |eta|) + 2 * (4 ^ 4 * (1 / 10 ^ 9)) / |eta|) := by
  have hc : (⟨500, 10, 1 / 10 ^ 13, fun _ _ => 0, fun _ _ => false⟩ : LancCfg).Ok := ⟨by norm_num, by norm_num, by norm_num⟩
  have hl : ∀ p ∈ ([[-1, 1], [-2, 2]] : List (List ℝ)), p.length = 1 + 1 := by simp
  have hl' : ∀ p ∈ ([[-1, 1], [0, 5]] : List (List ℝ)), p.length = 1 + 1 := by simp
  have h0 : MoamClean 2 1 4 fun _ _ => 0 := fun _ _ _ _ _ => rfl
  obtain ⟨H1, smps, hr, hs⟩ := moam_accepting (fsolve := fun _ x => x) (cfg := ⟨500, 10, 1 / 10 ^ 13, fun _ _ => 0, fun _ _ => false⟩) (w := 64) (junk := 0) (jk := 0) (n := 4) (nb := 1) (beta := 100)
    (poles := [[-1, 1], [-2, 2]]) (by norm_num) (by norm_num) (by norm_num) (by norm_num) hc (by norm_num) hl h0
  have h1 : MoamClean 2 1 4 H1 := by
    obtain ⟨-, hall⟩ := C186_pass (fsolve := fun _ x => x) (junk := 0) (jk := 0) (sigma0 := fun _ => 0) (U := .array fun _ _ => 0) (n := 4) (nb := 1) (w := 64) (cfg := ⟨500, 10, 1 / 10 ^ 13, fun _ _ => 0, fun _ _ => false⟩)
      (beta := 100) (poles := [[-1, 1], [-2, 2]]) (by norm_num) (by norm_num) (by norm_num) (by norm_num) hc (by norm_num) hl ⟨rfl, by simp [VArg.array], by simp [VArg.array], fun _ => rfl⟩ h0
    obtain ⟨_, H', _, e, -, -, -, h, -⟩ := hall _ hr
    injection e with e
    injection e with e
    subst e
    exact h
  obtain ⟨H2, smps', hr', hs'⟩ := moam_accepting (fsolve := fun _ x => x) (cfg := ⟨500, 10, 1 / 10 ^ 13, fun _ _ => 0, fun _ _ => false⟩) (w := 64) (junk := 0) (jk := 0) (n := 4) (nb := 1) (beta := 100)
    (poles := [[-1, 1], [0, 5]]) (H := H1) (by norm_num) (by norm_num) (by norm_num) (by norm_num) hc (by norm_num) hl' h1
  obtain ⟨smp, hsm⟩ := hs 0 (by simp)
  obtain ⟨smp', hsm'⟩ := hs' 0 (by simp)
  exact ⟨H1, H2, smps, smps', smp, smp', hr, hr', hsm, hsm', fun e eta ε he hε hlog hlog' =>
    C186_independent (poles := [[-1, 1], [-2, 2]]) (poles' := [[-1, 1], [0, 5]]) (i := 0) (by simp) rfl rfl rfl rfl (fun _ _ _ _ _ => rfl) (fun _ _ _ _ _ => rfl) (n := 4) (nb := 1) (w := 64)
      (by norm_num) (by norm_num) (by norm_num) (by norm_num) hc (by norm_num) hl hl' h0 h1 hr hr' hsm hsm' he hε hlog hlog'⟩

end Edpyt
