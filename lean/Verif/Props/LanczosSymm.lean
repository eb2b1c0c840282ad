import Verif.Props.Signs
import Verif.Props.Symmetry
import Verif.Props.HalfFilling
import Verif.Props.Atomic
import Verif.Props.Relabel
/-!
C110, C111, C112 and C113 for `build_gf_lanczos`: the symmetries hold up to the errors of the Lanczos runs.
-/
namespace Edpyt
open Edpyt.Spec Matrix

section
variable {g g' : GfLArgs} {es es' : Espace (ℕ × ℕ)} {out out' : GfLOut} {e eta δ δ' : ℝ}

/-- A run is near the thermal Green function, however that is computed. -/
theorem gf_lanczos_near (jk : ℝ) (ha : g.ham.Valid) (hw : g.ham.n ≤ g.w) (hcfg : g.cfg.Ok) (hes : EigenEspace g.ham.n g.ham.ham es) (i : Fin g.ham.n)
    (hr : BuildGfLanczos g i false es (.ok out)) (he : eta ≠ 0) (h0 : 0 ≤ δ) (hδ : ∀ run ∈ out.log, run.ResLe δ) {G : ℂ}
    (hG : IsGreen g.beta g.ham.ham (ann ℝ (orb g.ispin i)) (cre ℝ (orb g.ispin i)) (e + Complex.I * eta) G) :
    ‖out.gfe.call jk e eta - G‖ ≤ δ / eta ^ 2 + 2 * (g.cfg.delta ^ 2 / |eta|) := by
  have hz : (e + Complex.I * eta : ℂ).im ≠ 0 := by simpa using he
  obtain ⟨o, e1, -, -, -, q⟩ := (C98_gf_lanczos jk ha hw hcfg i.2 hes false).2 _ hr
  injection e1 with e1; subst e1
  obtain ⟨ge, gh, hp⟩ := greenParts_exist hes g.beta (ann ℝ (orb g.ispin i)) (cre ℝ (orb g.ispin i)) hz
  have b1 := q e eta δ he h0 hδ ge gh hp
  rw [if_neg (by simp)] at b1
  rwa [((hes.basis.green g.beta _ _ hz _).mp hG).trans ((hes.basis.green g.beta _ _ hz _).mp (IsGreenParts.isGreen hp)).symm]

theorem green_exists (hes : EigenEspace g.ham.n g.ham.ham es) (i : Fin g.ham.n) (he : eta ≠ 0) :
    ∃ G, IsGreen g.beta g.ham.ham (ann ℝ (orb g.ispin i)) (cre ℝ (orb g.ispin i)) (e + Complex.I * eta) G := by
  have hz : (e + Complex.I * eta : ℂ).im ≠ 0 := by simpa using he
  obtain ⟨ge, gh, hp⟩ := greenParts_exist hes g.beta (ann ℝ (orb g.ispin i)) (cre ℝ (orb g.ispin i)) hz
  exact ⟨_, IsGreenParts.isGreen hp⟩

/-- **C110** `build_gf_lanczos`: runs on equivalent sites agree up to their errors. -/
theorem C110_gf_lanczos (jk : ℝ) (ha : g.ham.Valid) {τ : Equiv.Perm (Fin g.ham.n)} (h : g.ham.Invariant false τ) (hw : g.ham.n ≤ g.w) (hcfg : g.cfg.Ok)
    (hes : EigenEspace g.ham.n g.ham.ham es) (hes' : EigenEspace g.ham.n g.ham.ham es') (i : Fin g.ham.n)
    (hr : BuildGfLanczos g i false es (.ok out)) (hr' : BuildGfLanczos g (τ i) false es' (.ok out')) (he : eta ≠ 0) (h0 : 0 ≤ δ) (h0' : 0 ≤ δ')
    (hδ : ∀ run ∈ out.log, run.ResLe δ) (hδ' : ∀ run ∈ out'.log, run.ResLe δ') :
    ‖out'.gfe.call jk e eta - out.gfe.call jk e eta‖ ≤ (δ' / eta ^ 2 + 2 * (g.cfg.delta ^ 2 / |eta|)) + (δ / eta ^ 2 + 2 * (g.cfg.delta ^ 2 / |eta|)) := by
  obtain ⟨G, hG⟩ := green_exists (g := g) (e := e) hes i he
  have hG' := h.green hG
  rw [Bool.xor_false] at hG'
  have b := gf_lanczos_near jk ha hw hcfg hes i hr he h0 hδ hG
  have b' := gf_lanczos_near jk ha hw hcfg hes' (τ i) hr' he h0' hδ' hG'
  rw [norm_sub_rev] at b
  exact (norm_sub_le_norm_sub_add_norm_sub _ G _).trans (add_le_add b' b)

/-- **C111** `build_gf_lanczos`: with particle-hole symmetry the Green function of a fixed site is odd, up to twice the error of the run. -/
theorem C111_gf_lanczos (jk : ℝ) (ha : g.ham.Valid) {η : Fin g.ham.n → ℤ} {τ : Equiv.Perm (Fin g.ham.n)} (h : g.ham.ParticleHole η τ) (hw : g.ham.n ≤ g.w) (hcfg : g.cfg.Ok)
    (hes : EigenEspace g.ham.n g.ham.ham es) (i : Fin g.ham.n) (hi : τ i = i)
    (hr : BuildGfLanczos g i false es (.ok out)) (he : eta ≠ 0) (h0 : 0 ≤ δ) (hδ : ∀ run ∈ out.log, run.ResLe δ) :
    ‖out.gfe.call jk (-e) (-eta) + out.gfe.call jk e eta‖ ≤ 2 * (δ / eta ^ 2 + 2 * (g.cfg.delta ^ 2 / |eta|)) := by
  obtain ⟨G, hG⟩ := green_exists (g := g) (e := e) hes i he
  have hG' := h.green ha hes hG
  have ez : -((e : ℂ) + Complex.I * eta) = ((-e : ℝ) : ℂ) + Complex.I * ((-eta : ℝ) : ℂ) := by push_cast; ring
  rw [ez, hi, h.eta_sq, Int.cast_one, neg_one_mul] at hG'
  have b := gf_lanczos_near jk ha hw hcfg hes i hr he h0 hδ hG
  have b' := gf_lanczos_near jk ha hw hcfg hes i hr (neg_ne_zero.mpr he) h0 hδ hG'
  rw [neg_sq, abs_neg] at b'
  have e1 : out.gfe.call jk (-e) (-eta) + out.gfe.call jk e eta = (out.gfe.call jk (-e) (-eta) - -G) + (out.gfe.call jk e eta - G) := by ring
  rw [e1, two_mul]
  exact (norm_add_le _ _).trans (add_le_add b' b)

/-- **C112** `build_gf_lanczos`: the Green function of an isolated site is the atomic one up to the error of the run, for both spins. -/
theorem C112_gf_lanczos (jk : ℝ) (ha : g.ham.Valid) (hw : g.ham.n ≤ g.w) (hcfg : g.cfg.Ok) (hes : EigenEspace g.ham.n g.ham.ham es) {i : Fin g.ham.n} (h : g.ham.Isolated i)
    (hr : BuildGfLanczos g i false es (.ok out)) (he : eta ≠ 0) (h0 : 0 ≤ δ) (hδ : ∀ run ∈ out.log, run.ResLe δ) :
    ‖out.gfe.call jk e eta - atomicGreen g.beta (g.ham.siteLevel g.ispin i) (g.ham.siteLevel (!g.ispin) i) (g.ham.V.U.getD 0 i i) (e + Complex.I * eta)‖ ≤
      δ / eta ^ 2 + 2 * (g.cfg.delta ^ 2 / |eta|) := by
  have hd := hes.basis.diag (Fintype.equivOfCardEq hes.basis.card.symm)
  exact gf_lanczos_near jk ha hw hcfg hes i hr he h0 hδ ((h.pair hes.basis.symm g.ispin).isGreen hd g.beta (by simpa using he))

/-- **C113** `build_gf_lanczos`: renumbering the sites and exchanging the spins renames the Green functions, up to the errors of the runs. -/
theorem C113_gf_lanczos (jk : ℝ) {b : Bool} {τ : Equiv.Perm (Fin g.ham.n)} {H' : ℕ → ℕ → ℕ → ℝ} {V' : VArg ℝ} {z' : Option (ℕ → ℝ)} (ha : g.ham.Valid) (ha' : (g.ham.withInput H' V' z').Valid)
    (h : g.ham.Relabel b τ H' V' z') (hs : g'.ham = g.ham.withInput H' V' z') (hb : g'.beta = g.beta) (hsp : g'.ispin = xor g.ispin b)
    (hw : g.ham.n ≤ g.w) (hw' : g.ham.n ≤ g'.w) (hcfg : g.cfg.Ok) (hcfg' : g'.cfg.Ok)
    (hes : EigenEspace g.ham.n g.ham.ham es) (hes' : EigenEspace g.ham.n (g.ham.hamWith H' V' z') es') (i : Fin g.ham.n)
    (hr : BuildGfLanczos g i false es (.ok out)) (hr' : BuildGfLanczos g' (τ i) false es' (.ok out')) (he : eta ≠ 0) (h0 : 0 ≤ δ) (h0' : 0 ≤ δ')
    (hδ : ∀ run ∈ out.log, run.ResLe δ) (hδ' : ∀ run ∈ out'.log, run.ResLe δ') :
    ‖out'.gfe.call jk e eta - out.gfe.call jk e eta‖ ≤ (δ' / eta ^ 2 + 2 * (g'.cfg.delta ^ 2 / |eta|)) + (δ / eta ^ 2 + 2 * (g.cfg.delta ^ 2 / |eta|)) := by
  obtain ⟨cfg', rep', w', jk', ham', beta', egs', isp'⟩ := g'
  obtain rfl : ham' = g.ham.withInput H' V' z' := hs
  obtain rfl : beta' = g.beta := hb
  obtain rfl : isp' = xor g.ispin b := hsp
  obtain ⟨G, hG⟩ := green_exists (g := g) (e := e) hes i he
  have hG' := h.green hG
  have c := gf_lanczos_near jk ha hw hcfg hes i hr he h0 hδ hG
  have c' := gf_lanczos_near (g := ⟨cfg', rep', w', jk', g.ham.withInput H' V' z', g.beta, egs', xor g.ispin b⟩) jk ha' hw' hcfg' hes' (τ i) hr' he h0' hδ' hG'
  rw [norm_sub_rev] at c
  exact (norm_sub_le_norm_sub_add_norm_sub _ G _).trans (add_le_add c' c)

end
/-- The Lanczos settings of the examples. -/
noncomputable def plainRun (a : HamArgs) (sp : Bool) : GfLArgs := ⟨⟨500, 10, 1 / 10 ^ 13, fun _ _ => 0, fun _ _ => false⟩, .cf, 64, 0, a, 10, 0, sp⟩

theorem plainRun_exists {a : HamArgs} (ha : a.Valid) (sp : Bool) (i : Fin a.n) : ∃ es out, EigenEspace a.n a.ham es ∧ BuildGfLanczos (plainRun a sp) i false es (.ok out) := by
  obtain ⟨es, hes⟩ := eigenEspace_exists ha
  have h := C98_gf_lanczos (g := plainRun a sp) 0 ha (le_trans ha.le (by norm_num [plainRun])) ⟨by norm_num [plainRun], by norm_num [plainRun], by norm_num [plainRun]⟩ i.2 hes false
  obtain ⟨r, hr⟩ := h.1
  obtain ⟨out, rfl, -⟩ := h.2 r hr
  exact ⟨es, out, hes, hr⟩

/-- Runs on the two equivalent sites of the half-filled dimer, and on an isolated site next to a bond. -/
example : (∃ es out es' out', EigenEspace 2 dimerArgs.ham es ∧ EigenEspace 2 dimerArgs.ham es' ∧ BuildGfLanczos (plainRun dimerArgs false) (0 : Fin 2) false es (.ok out) ∧
      BuildGfLanczos (plainRun dimerArgs false) (1 : Fin 2) false es' (.ok out')) ∧
    ∃ es out, EigenEspace 3 atomBondArgs.ham es ∧ BuildGfLanczos (plainRun atomBondArgs true) (0 : Fin 3) false es (.ok out) := by
  obtain ⟨es, out, h1, h2⟩ := plainRun_exists dimerArgs_valid false (0 : Fin 2)
  obtain ⟨es', out', h1', h2'⟩ := plainRun_exists dimerArgs_valid false (1 : Fin 2)
  obtain ⟨es3, out3, h3, h4⟩ := plainRun_exists atomBondArgs_valid true (0 : Fin 3)
  exact ⟨⟨es, out, es', out', h1, h1', h2, h2'⟩, es3, out3, h3, h4⟩

end Edpyt
