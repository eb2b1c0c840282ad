import Verif.Proof.EmbedHam
import Verif.Props.Decouple
/-!
C181: sites that are not connected to the others can be left out of the input.
-/
namespace Edpyt
open Edpyt.Spec Matrix

section
variable {a a' : HamArgs} {junk junk' : ℕ} {es es' : Espace (ℕ × ℕ)} {egs egs' beta : ℝ}

theorem range_siteEmb {k n : ℕ} (h : k ≤ n) (m : Fin (n + n)) : m ∈ Set.range (siteEmb h) ↔ InGroup n (firstCol k) true m := by
  constructor
  · rintro ⟨x, rfl⟩
    obtain ⟨s, i, rfl⟩ := exists_orb x
    rw [siteEmb_orb, inGroup_orb]
    simp [firstCol]
  · rintro ⟨s, i, rfl, hc⟩
    have hc' : (i : ℕ) < k := by simpa [firstCol] using hc
    exact ⟨orb s ⟨i, hc'⟩, siteEmb_orb h s ⟨i, hc'⟩⟩

theorem Spec.Detached.idle (hd : Detached a a'.n) (h : FirstSites a a') (m : Fin (a.n + a.n)) (hm : m ∉ Set.range (siteEmb h.le)) : Idle (a.partHam (firstCol a'.n) true) m :=
  evenAlg_idle (Spec.Splits.mem hd true) (by rwa [range_siteEmb] at hm)

theorem Spec.FirstSites.green (ha : a.Valid) (hd : Detached a a'.n) (h : FirstSites a a') (β : ℝ) {z : ℂ} (hz : z.im ≠ 0) (s : Bool) (i j : Fin a'.n) :
    ∃ g, IsGreen β a.ham (ann ℝ (orb s (Fin.castLE h.le i))) (cre ℝ (orb s (Fin.castLE h.le j))) z g ∧ IsGreen β a'.ham (ann ℝ (orb s i)) (cre ℝ (orb s j)) z g := by
  have sH := partHam_symm (col := firstCol a'.n) ha true
  obtain ⟨u, E, hb⟩ := EigBasis.of_symm (show (a.partHam (firstCol a'.n) true)ᵀ = _ from sH)
  have hg := (hb.green β (ann ℝ (orb s (Fin.castLE h.le i))) (cre ℝ (orb s (Fin.castLE h.le j))) hz _).mpr rfl
  have hne : ∀ (k : Fin a'.n) (m : Fin (a.n + a.n)), m ∉ Set.range (siteEmb h.le) → orb s (Fin.castLE h.le k) ≠ m := fun k m hm e => hm (by rw [← e, ← siteEmb_orb]; exact ⟨_, rfl⟩)
  exact ⟨_, Spec.Splits.green ha hd β hz (by simp) (by simp) hg,
    green_embed sH (hd.idle h) h.semi β hz (fun m hm => antiIdle_ann (hne i m hm)) (fun m hm => antiIdle_cre (hne j m hm)) (Semi.ann s i) (Semi.cre s j) hg⟩

theorem Spec.FirstSites.occ (ha : a.Valid) (hd : Detached a a'.n) (h : FirstSites a a') (β : ℝ) (s : Bool) (i : Fin a'.n) :
    thermalOcc β a.ham s (Fin.castLE h.le i) = thermalOcc β a'.ham s i := by
  rw [Spec.Splits.occ ha hd β (by simp)]
  refine thermal_embed (partHam_symm (col := firstCol a'.n) ha true) (hd.idle h) h.semi β (fun m hm => ?_) ?_
  · refine (evenAlg_idle (C := InGroup a.n (firstCol a'.n) true) (mem_ca ?_ ?_) (by rwa [range_siteEmb] at hm)).cplx <;> exact inGroup_orb.mpr (by simp)
  · exact cplx_semi ((Semi.cre s i).mul (Semi.ann s i))

/-- **C181** `build_gf_exact` on a site does not change when sites that are not connected are left out. -/
theorem C181_gf_exact (ha : a.Valid) (ha' : a'.Valid) (hd : Detached a a'.n) (h : FirstSites a a') (hes : EigenEspace a.n a.ham es) (hes' : EigenEspace a'.n a'.ham es')
    {i : ℕ} (hi : i < a'.n) :
    ∃ g g', buildGfExact junk a.n es beta egs i false = .ok g ∧ buildGfExact junk' a'.n es' beta egs' i false = .ok g' ∧ ∀ e eta : ℝ, eta ≠ 0 → g'.call e eta = g.call e eta := by
  obtain ⟨g, h1, h2⟩ := C92_gf_exact (junk := junk) (beta := beta) (egs := egs) ha.le hes (hi.trans_le h.le)
  obtain ⟨g', h1', h2'⟩ := C92_gf_exact (junk := junk') (beta := beta) (egs := egs') ha'.le hes' hi
  refine ⟨g, g', h1, h1', fun e eta he => ?_⟩
  have hz : (e + Complex.I * eta : ℂ).im ≠ 0 := by simpa using he
  obtain ⟨x, q1, q2⟩ := h.green ha hd beta hz false ⟨i, hi⟩ ⟨i, hi⟩
  rw [← (h2 e eta he _).mp q1, ← (h2' e eta he _).mp q2]

/-- **C181** `build_gf2_exact`: the elements between the remaining sites do not change, for both spins. -/
theorem C181_gf2_exact (ha : a.Valid) (ha' : a'.Valid) (hd : Detached a a'.n) (h : FirstSites a a') (hes : EigenEspace a.n a.ham es) (hes' : EigenEspace a'.n a'.ham es') (s : Bool) :
    ∃ G G', buildGf2Exact junk a.n es beta egs s = .ok G ∧ buildGf2Exact junk' a'.n es' beta egs' s = .ok G' ∧
      ∀ i j : ℕ, i < a'.n → j < a'.n → ∀ e eta : ℝ, eta ≠ 0 → (G' i j).call e eta = (G i j).call e eta := by
  obtain ⟨G, h1, h2⟩ := C93_gf2_exact (junk := junk) (beta := beta) (egs := egs) ha.le hes s
  obtain ⟨G', h1', h2'⟩ := C93_gf2_exact (junk := junk') (beta := beta) (egs := egs') ha'.le hes' s
  refine ⟨G, G', h1, h1', fun i j hi hj e eta he => ?_⟩
  have hz : (e + Complex.I * eta : ℂ).im ≠ 0 := by simpa using he
  obtain ⟨x, q1, q2⟩ := h.green ha hd beta hz s ⟨i, hi⟩ ⟨j, hj⟩
  have r1 := (h2 (Fin.castLE h.le ⟨i, hi⟩) (Fin.castLE h.le ⟨j, hj⟩) e eta he _).mp q1
  have r2 := (h2' ⟨i, hi⟩ ⟨j, hj⟩ e eta he _).mp q2
  exact r2.symm.trans r1

/-- **C181** `get_occupation` of the remaining sites does not change. -/
theorem C181_occupation (ha : a.Valid) (hd : Detached a a'.n) (h : FirstSites a a') (hes : EigenEspace a.n a.ham es) (hes' : EigenEspace a'.n a'.ham es')
    {occ occ' : List OccSct} (hocc : List.Forall₂ OccView es occ) (hocc' : List.Forall₂ OccView es' occ') :
    ∃ U D As U' D' As', getOccupation occ egs beta a.n = .ok (U, D, As) ∧ getOccupation occ' egs' beta a'.n = .ok (U', D', As') ∧ ∀ k < a'.n, U' k = U k ∧ D' k = D k := by
  obtain ⟨U, D, As, h1, h2⟩ := C101_get_occupation hes hocc egs beta
  obtain ⟨U', D', As', h1', h2'⟩ := C101_get_occupation hes' hocc' egs' beta
  refine ⟨U, D, As, U', D', As', h1, h1', fun k hk => ?_⟩
  have q := h2 (Fin.castLE h.le ⟨k, hk⟩)
  have q' := h2' ⟨k, hk⟩
  exact ⟨Complex.ofReal_injective (q'.1.trans ((h.occ ha hd beta false ⟨k, hk⟩).symm.trans q.1.symm)), Complex.ofReal_injective (q'.2.trans ((h.occ ha hd beta true ⟨k, hk⟩).symm.trans q.2.symm))⟩

/-- **C181** `build_gf_lanczos`: the same up to the errors of the Lanczos runs, for both spins and both representations. -/
theorem C181_gf_lanczos {g g' : GfLArgs} (jk : ℝ) (ha : g.ham.Valid) (ha' : g'.ham.Valid) (hd : Detached g.ham g'.ham.n) (h : FirstSites g.ham g'.ham)
    (hb : g'.beta = g.beta) (hsp : g'.ispin = g.ispin) (hw : g.ham.n ≤ g.w) (hw' : g'.ham.n ≤ g'.w) (hcfg : g.cfg.Ok) (hcfg' : g'.cfg.Ok)
    (hes : EigenEspace g.ham.n g.ham.ham es) (hes' : EigenEspace g'.ham.n g'.ham.ham es') {i : ℕ} (hi : i < g'.ham.n)
    {out out' : GfLOut} (hr : BuildGfLanczos g i false es (.ok out)) (hr' : BuildGfLanczos g' i false es' (.ok out')) (e eta ε : ℝ) (he : eta ≠ 0) (h0 : 0 ≤ ε)
    (hε : ∀ run ∈ out.log, run.ResLe ε) (hε' : ∀ run ∈ out'.log, run.ResLe ε) :
    ‖out'.gfe.call jk e eta - out.gfe.call jk e eta‖ ≤ 2 * (ε / eta ^ 2) + 2 * ((g.cfg.delta ^ 2 + g'.cfg.delta ^ 2) / |eta|) := by
  obtain ⟨cfg', rep', w', jk', ham', beta', egs', isp'⟩ := g'
  obtain rfl : beta' = g.beta := hb
  obtain rfl : isp' = g.ispin := hsp
  have hz : (e + Complex.I * eta : ℂ).im ≠ 0 := by simpa using he
  have hi0 : i < g.ham.n := lt_of_lt_of_le hi h.le
  obtain ⟨o, e1, -, -, -, q⟩ := (C98_gf_lanczos jk ha hw hcfg hi0 hes false).2 _ hr
  injection e1 with e1; subst e1
  obtain ⟨o', e1', -, -, -, q'⟩ := (C98_gf_lanczos jk ha' hw' hcfg' hi hes' false).2 _ hr'
  injection e1' with e1'; subst e1'
  obtain ⟨ge, gh, hp⟩ := greenParts_exist hes g.beta (ann ℝ (orb g.ispin ⟨i, hi0⟩)) (cre ℝ (orb g.ispin ⟨i, hi0⟩)) hz
  obtain ⟨ge', gh', hp'⟩ := greenParts_exist hes' g.beta (ann ℝ (orb g.ispin ⟨i, hi⟩)) (cre ℝ (orb g.ispin ⟨i, hi⟩)) hz
  have b1 := q e eta ε he h0 hε ge gh hp
  have b2 := q' e eta ε he h0 hε' ge' gh' hp'
  rw [if_neg (by simp)] at b1 b2
  obtain ⟨x, k1, k2⟩ := h.green ha hd g.beta hz g.ispin ⟨i, hi⟩ ⟨i, hi⟩
  have m1 := ((hes.basis.green g.beta _ _ hz _).mp (IsGreenParts.isGreen hp)).trans ((hes.basis.green g.beta _ _ hz _).mp k1).symm
  have m2 := ((hes'.basis.green g.beta _ _ hz _).mp (IsGreenParts.isGreen hp')).trans ((hes'.basis.green g.beta _ _ hz _).mp k2).symm
  rw [m1] at b1
  rw [m2] at b2
  rw [norm_sub_rev] at b1
  refine (norm_sub_le_norm_sub_add_norm_sub _ _ _).trans ((add_le_add b2 b1).trans (le_of_eq ?_))
  change ε / eta ^ 2 + 2 * (cfg'.delta ^ 2 / |eta|) + (ε / eta ^ 2 + 2 * (g.cfg.delta ^ 2 / |eta|)) = _
  ring

end

/-- The dimer of `dimerAndSite` alone. -/
def dimerAlone : HamArgs := ⟨2, fun _ i j => if i = j then -2 else 1, .array fun i j => if i = j then 4 else 1, none, false, 0⟩

example (x u : ℝ) : dimerAlone.Valid ∧ FirstSites (dimerAndSite x u) dimerAlone ∧ Detached (dimerAndSite x u) dimerAlone.n ∧ (∃ es, EigenEspace dimerAlone.n dimerAlone.ham es) := by
  have hv : dimerAlone.Valid := by
    refine ⟨by simp [dimerAlone], by simp [dimerAlone], rfl, fun s i j _ _ => ?_, by simp [dimerAlone, VArg.array], by simp [dimerAlone, VArg.array], fun _ => rfl⟩
    simp only [dimerAlone, eq_comm]
  refine ⟨hv, ⟨by simp [dimerAlone, dimerAndSite], rfl, fun s i j hi hj => ?_, fun i j hi hj => ?_, fun _ _ => rfl, fun _ _ _ _ => rfl, fun _ _ _ _ => rfl⟩,
    ⟨fun s i j hi hj h => ?_, fun A hA i j hi hj h s s' => ?_, fun A hA => by simp [dimerAndSite, VArg.array] at hA, fun A hA => by simp [dimerAndSite, VArg.array] at hA⟩, eigenEspace_exists hv⟩
  · simp only [dimerAlone] at hi hj
    simp only [dimerAlone, dimerAndSite]
    by_cases hij : i = j
    · subst hij; simp [hi.ne]
    · simp [hij, hi, hj]
  · simp only [dimerAlone] at hi hj
    simp only [dimerAlone, dimerAndSite, VArg.array, Option.getD_some]
    by_cases hij : i = j
    · subst hij; simp [hi.ne]
    · simp [hij, hi, hj]
  · simp only [dimerAndSite] at h
    by_cases hij : i = j
    · rw [hij]
    · rw [if_neg hij] at h
      by_cases hc : i < 2 ∧ j < 2
      · simp [dimerAlone, hc.1, hc.2]
      · rw [if_neg hc, abs_zero] at h; norm_num at h
  · simp only [dimerAndSite, VArg.array, Option.some.injEq] at hA
    subst hA
    by_cases hij : i = j
    · rw [hij]
    · simp only [if_neg hij] at h
      by_cases hc : i < 2 ∧ j < 2
      · simp [dimerAlone, hc.1, hc.2]
      · rw [if_neg hc] at h; exact absurd rfl h

end Edpyt
