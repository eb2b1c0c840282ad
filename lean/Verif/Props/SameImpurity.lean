import Verif.Proof.PadBath
/-!
C179 for baths of different sizes: the impurity depends on its bath only through the hybridisation function, whatever the number of bath sites.
-/
namespace Edpyt
open Edpyt.Spec Matrix

section
variable {a a' : HamArgs} {junk junk' : ℕ} {es es' : Espace (ℕ × ℕ)} {egs egs' beta : ℝ} {i : ℕ}

theorem Spec.SameImpurity.symm (h : SameImpurity a a' i) : SameImpurity a' a i :=
  ⟨h.hf.symm, h.lt', h.lt, h.only', h.only, h.U.symm, fun s z hz => (h.green s z hz).symm⟩

theorem Spec.SameImpurity.pad (ha : a.Valid) (ha' : a'.Valid) (h : SameImpurity a a' i) (hn : a'.n ≤ a.n) : SameBath a (padded a' a.n) i where
  n := rfl
  hf := h.hf
  lt := h.lt
  lt' := h.lt
  only := h.only
  only' := by
    refine ⟨fun k l hk hl hc => ?_, by simp [padded, h.only'.Jx], by simp [padded, h.only'.Jp]⟩
    have := padded_getD (a := a') (J := a'.V.U) (i := k) (j := l)
    refine Eq.trans this ?_
    by_cases hkl : k < a'.n ∧ l < a'.n
    · rw [if_pos hkl]; exact h.only'.U k l hkl.1 hkl.2 hc
    · rw [if_neg hkl]
  U := ((padded_first hn).U i i h.lt' h.lt').symm.trans h.U
  green s z hz := by
    rw [h.green s z hz]
    have hv := padded_valid ha' hn ha.le
    refine (resolvent_first hn (t := (padded a' a.n).oneBody s) (HamArgs.oneBody_symm hv s) (HamArgs.oneBody_symm ha' s) (fun k l => ?_) (fun k l hk => ?_) hz ⟨i, h.lt'⟩ ⟨i, h.lt'⟩).symm
    · change kept (n := a.n) a'.mu ((padded a' a.n).H (if s then 1 else 0)) (Fin.castLE hn k) (Fin.castLE hn l) = kept (n := a'.n) a'.mu (a'.H (if s then 1 else 0)) k l
      rw [kept_apply, kept_apply]
      by_cases hkl : k = l
      · subst hkl; simp [padded]
      · have : Fin.castLE hn k ≠ Fin.castLE hn l := fun e => hkl (Fin.castLE_injective hn e)
        rw [if_neg hkl, if_neg this]
        simp [padded]
    · change kept (n := a.n) a'.mu ((padded a' a.n).H (if s then 1 else 0)) k (Fin.castLE hn l) = 0
      rw [kept_apply]
      have : k ≠ Fin.castLE hn l := fun e => hk (by rw [e]; exact l.2)
      rw [if_neg this]
      simp [padded, hk]

theorem Spec.SameImpurity.core_le (ha : a.Valid) (ha' : a'.Valid) (h : SameImpurity a a' i) (hn : a'.n ≤ a.n) (β : ℝ) :
    (∀ (s : Bool) (z : ℂ), z.im ≠ 0 → ∃ g, IsGreen β a.ham (ann ℝ (orb s ⟨i, h.lt⟩)) (cre ℝ (orb s ⟨i, h.lt⟩)) z g ∧ IsGreen β a'.ham (ann ℝ (orb s ⟨i, h.lt'⟩)) (cre ℝ (orb s ⟨i, h.lt'⟩)) z g) ∧
    ∀ s, thermalOcc β a.ham s ⟨i, h.lt⟩ = thermalOcc β a'.ham s ⟨i, h.lt'⟩ := by
  have hv := padded_valid ha' hn ha.le
  obtain ⟨c1, c2⟩ := Spec.SameBath.core ha hv (h.pad ha ha' hn) β
  refine ⟨fun s z hz => ?_, fun s => ?_⟩
  · obtain ⟨g, h1, h2⟩ := c1 s z hz
    obtain ⟨g', h1', h2'⟩ := (padded_first hn).green hv padded_detached β hz s ⟨i, h.lt'⟩ ⟨i, h.lt'⟩
    obtain ⟨u, E, hb⟩ := EigBasis.of_symm (show ((padded a' a.n).ham)ᵀ = _ from ham_symm hv)
    have e : g = g' := ((hb.green β _ _ hz _).mp h2).trans ((hb.green β _ _ hz _).mp h1').symm
    subst e
    exact ⟨g, h1, h2'⟩
  · exact (c2 s).trans ((padded_first hn).occ hv padded_detached β s ⟨i, h.lt'⟩)

theorem Spec.SameImpurity.core (ha : a.Valid) (ha' : a'.Valid) (h : SameImpurity a a' i) (β : ℝ) :
    (∀ (s : Bool) (z : ℂ), z.im ≠ 0 → ∃ g, IsGreen β a.ham (ann ℝ (orb s ⟨i, h.lt⟩)) (cre ℝ (orb s ⟨i, h.lt⟩)) z g ∧ IsGreen β a'.ham (ann ℝ (orb s ⟨i, h.lt'⟩)) (cre ℝ (orb s ⟨i, h.lt'⟩)) z g) ∧
    ∀ s, thermalOcc β a.ham s ⟨i, h.lt⟩ = thermalOcc β a'.ham s ⟨i, h.lt'⟩ := by
  rcases le_total a'.n a.n with hn | hn
  · exact h.core_le ha ha' hn β
  · obtain ⟨c1, c2⟩ := h.symm.core_le ha' ha hn β
    exact ⟨fun s z hz => (c1 s z hz).imp fun g hg => ⟨hg.2, hg.1⟩, fun s => (c2 s).symm⟩

/-- **C179**, any numbers of sites: `build_gf_exact` on the impurity. -/
theorem C179_sizes_gf_exact (ha : a.Valid) (ha' : a'.Valid) (h : SameImpurity a a' i) (hes : EigenEspace a.n a.ham es) (hes' : EigenEspace a'.n a'.ham es') :
    ∃ g g', buildGfExact junk a.n es beta egs i false = .ok g ∧ buildGfExact junk' a'.n es' beta egs' i false = .ok g' ∧ ∀ e eta : ℝ, eta ≠ 0 → g'.call e eta = g.call e eta := by
  obtain ⟨g, h1, h2⟩ := C92_gf_exact (junk := junk) (beta := beta) (egs := egs) ha.le hes h.lt
  obtain ⟨g', h1', h2'⟩ := C92_gf_exact (junk := junk') (beta := beta) (egs := egs') ha'.le hes' h.lt'
  refine ⟨g, g', h1, h1', fun e eta he => ?_⟩
  obtain ⟨x, q1, q2⟩ := (h.core ha ha' beta).1 false (e + Complex.I * eta) (by simpa using he)
  rw [← (h2 e eta he _).mp q1, ← (h2' e eta he _).mp q2]

/-- **C179**, any numbers of sites: `build_gf2_exact` on the impurity, for both spins. -/
theorem C179_sizes_gf2_exact (ha : a.Valid) (ha' : a'.Valid) (h : SameImpurity a a' i) (hes : EigenEspace a.n a.ham es) (hes' : EigenEspace a'.n a'.ham es') (s : Bool) :
    ∃ G G', buildGf2Exact junk a.n es beta egs s = .ok G ∧ buildGf2Exact junk' a'.n es' beta egs' s = .ok G' ∧ ∀ e eta : ℝ, eta ≠ 0 → (G' i i).call e eta = (G i i).call e eta := by
  obtain ⟨G, h1, h2⟩ := C93_gf2_exact (junk := junk) (beta := beta) (egs := egs) ha.le hes s
  obtain ⟨G', h1', h2'⟩ := C93_gf2_exact (junk := junk') (beta := beta) (egs := egs') ha'.le hes' s
  refine ⟨G, G', h1, h1', fun e eta he => ?_⟩
  obtain ⟨x, q1, q2⟩ := (h.core ha ha' beta).1 s (e + Complex.I * eta) (by simpa using he)
  exact ((h2' ⟨i, h.lt'⟩ ⟨i, h.lt'⟩ e eta he _).mp q2).symm.trans ((h2 ⟨i, h.lt⟩ ⟨i, h.lt⟩ e eta he _).mp q1)

/-- **C179**, any numbers of sites: `get_occupation` of the impurity. -/
theorem C179_sizes_occupation (ha : a.Valid) (ha' : a'.Valid) (h : SameImpurity a a' i) (hes : EigenEspace a.n a.ham es) (hes' : EigenEspace a'.n a'.ham es')
    {occ occ' : List OccSct} (hocc : List.Forall₂ OccView es occ) (hocc' : List.Forall₂ OccView es' occ') :
    ∃ U D As U' D' As', getOccupation occ egs beta a.n = .ok (U, D, As) ∧ getOccupation occ' egs' beta a'.n = .ok (U', D', As') ∧ U' i = U i ∧ D' i = D i := by
  obtain ⟨U, D, As, h1, h2⟩ := C101_get_occupation hes hocc egs beta
  obtain ⟨U', D', As', h1', h2'⟩ := C101_get_occupation hes' hocc' egs' beta
  have q := h2 ⟨i, h.lt⟩
  have q' := h2' ⟨i, h.lt'⟩
  have c := (h.core ha ha' beta).2
  exact ⟨U, D, As, U', D', As', h1, h1', Complex.ofReal_injective (q'.1.trans ((c false).symm.trans q.1.symm)), Complex.ofReal_injective (q'.2.trans ((c true).symm.trans q.2.symm))⟩

/-- **C179**, any numbers of sites: `build_gf_lanczos` on the impurity, up to the errors of the Lanczos runs, for both spins and both representations. -/
theorem C179_sizes_gf_lanczos {g g' : GfLArgs} (jk : ℝ) (ha : g.ham.Valid) (ha' : g'.ham.Valid) (h : SameImpurity g.ham g'.ham i)
    (hb : g'.beta = g.beta) (hsp : g'.ispin = g.ispin) (hw : g.ham.n ≤ g.w) (hw' : g'.ham.n ≤ g'.w) (hcfg : g.cfg.Ok) (hcfg' : g'.cfg.Ok)
    (hes : EigenEspace g.ham.n g.ham.ham es) (hes' : EigenEspace g'.ham.n g'.ham.ham es')
    {out out' : GfLOut} (hr : BuildGfLanczos g i false es (.ok out)) (hr' : BuildGfLanczos g' i false es' (.ok out')) (e eta ε : ℝ) (he : eta ≠ 0) (h0 : 0 ≤ ε)
    (hε : ∀ run ∈ out.log, run.ResLe ε) (hε' : ∀ run ∈ out'.log, run.ResLe ε) :
    ‖out'.gfe.call jk e eta - out.gfe.call jk e eta‖ ≤ 2 * (ε / eta ^ 2) + 2 * ((g.cfg.delta ^ 2 + g'.cfg.delta ^ 2) / |eta|) := by
  obtain ⟨cfg', rep', w', jk', ham', beta', egs', isp'⟩ := g'
  obtain rfl : beta' = g.beta := hb
  obtain rfl : isp' = g.ispin := hsp
  have hz : (e + Complex.I * eta : ℂ).im ≠ 0 := by simpa using he
  obtain ⟨o, e1, -, -, -, q⟩ := (C98_gf_lanczos jk ha hw hcfg h.lt hes false).2 _ hr
  injection e1 with e1; subst e1
  obtain ⟨o', e1', -, -, -, q'⟩ := (C98_gf_lanczos jk ha' hw' hcfg' h.lt' hes' false).2 _ hr'
  injection e1' with e1'; subst e1'
  obtain ⟨ge, gh, hp⟩ := greenParts_exist hes g.beta (ann ℝ (orb g.ispin ⟨i, h.lt⟩)) (cre ℝ (orb g.ispin ⟨i, h.lt⟩)) hz
  obtain ⟨ge', gh', hp'⟩ := greenParts_exist hes' g.beta (ann ℝ (orb g.ispin ⟨i, h.lt'⟩)) (cre ℝ (orb g.ispin ⟨i, h.lt'⟩)) hz
  have b1 := q e eta ε he h0 hε ge gh hp
  have b2 := q' e eta ε he h0 hε' ge' gh' hp'
  rw [if_neg (by simp)] at b1 b2
  obtain ⟨x, k1, k2⟩ := (h.core ha ha' g.beta).1 g.ispin _ hz
  have m1 := ((hes.basis.green g.beta _ _ hz _).mp (IsGreenParts.isGreen hp)).trans ((hes.basis.green g.beta _ _ hz _).mp k1).symm
  have m2 := ((hes'.basis.green g.beta _ _ hz _).mp (IsGreenParts.isGreen hp')).trans ((hes'.basis.green g.beta _ _ hz _).mp k2).symm
  rw [m1] at b1
  rw [m2] at b2
  rw [norm_sub_rev] at b1
  refine (norm_sub_le_norm_sub_add_norm_sub _ _ _).trans ((add_le_add b2 b1).trans (le_of_eq ?_))
  change ε / eta ^ 2 + 2 * (cfg'.delta ^ 2 / |eta|) + (ε / eta ^ 2 + 2 * (g.cfg.delta ^ 2 / |eta|)) = _
  ring

end

section
variable {junk junk' : ℕ} {es es' : Espace (ℕ × ℕ)} {egs egs' beta : ℝ}
variable (nb : ℕ) (ek0 vk0 : ℕ → ℝ) (hist : List ImpOp) (ek vk : ℕ → ℝ) (mus : List ℝ) (nb' : ℕ) (ek0' vk0' : ℕ → ℝ) (hist' : List ImpOp) (ek' vk' : ℕ → ℝ) (mus' : List ℝ)

theorem impAfter_sameImpurity (U : ℝ) (h00 : (impAfter nb' ek0' vk0' hist' ek' vk' mus').H 0 0 = (impAfter nb ek0 vk0 hist ek vk mus).H 0 0)
    (hyb : ∀ z : ℂ, z.im ≠ 0 → hybridisation (fun k : Fin nb' => ek' k) (fun k : Fin nb' => keptCouplings vk' k) z = hybridisation (fun k : Fin nb => ek k) (fun k : Fin nb => keptCouplings vk k) z) :
    SameImpurity ((impAfter nb ek0 vk0 hist ek vk mus).args (nb + 1) U) ((impAfter nb' ek0' vk0' hist' ek' vk' mus').args (nb' + 1) U) 0 := by
  refine ⟨rfl, Nat.succ_pos nb, Nat.succ_pos nb', impAfter_only nb ek0 vk0 hist ek vk mus U, impAfter_only nb' ek0' vk0' hist' ek' vk' mus' U, rfl, fun s z hz => ?_⟩
  have e1 := impAfter_oneBody nb ek0 vk0 hist ek vk mus U s
  have e2 := impAfter_oneBody nb' ek0' vk0' hist' ek' vk' mus' U s
  have n1 := siam_nonreal ((impAfter nb ek0 vk0 hist ek vk mus).H 0 0) (fun k : Fin nb => ek k) (fun k : Fin nb => keptCouplings vk k) hz
  have n2 := siam_nonreal ((impAfter nb' ek0' vk0' hist' ek' vk' mus').H 0 0) (fun k : Fin nb' => ek' k) (fun k : Fin nb' => keptCouplings vk' k) hz
  have g1 := siam_green n1.1 n1.2
  have g2 := siam_green n2.1 n2.2
  rw [h00, hyb z hz] at g2
  have g3 := g1.trans g2.symm
  unfold impurityGreen at g3
  rw [h00] at e2
  rw [← e1, ← e2] at g3
  exact g3

/-- **C179** for two impurities of DMFT loops with different numbers of bath sites: with the same level and the same hybridisation function they have the same Green function and the same self-energy. -/
theorem C179_sizes_impurity (hn : 1 ≤ nb) (hn31 : nb ≤ 31) (hn' : 1 ≤ nb') (hn31' : nb' ≤ 31) (U : ℝ) (hv : ∀ k < nb, vk k = 0 ∨ 1 / 10 ^ 7 < |vk k|) (hv' : ∀ k < nb', vk' k = 0 ∨ 1 / 10 ^ 7 < |vk' k|)
    (h00 : (impAfter nb' ek0' vk0' hist' ek' vk' mus').H 0 0 = (impAfter nb ek0 vk0 hist ek vk mus).H 0 0)
    (hyb : ∀ z : ℂ, z.im ≠ 0 → hybridisation (fun k : Fin nb' => ek' k) (fun k : Fin nb' => vk' k) z = hybridisation (fun k : Fin nb => ek k) (fun k : Fin nb => vk k) z)
    (hes : EigenEspace (nb + 1) ((impAfter nb ek0 vk0 hist ek vk mus).args (nb + 1) U).ham es) (hes' : EigenEspace (nb' + 1) ((impAfter nb' ek0' vk0' hist' ek' vk' mus').args (nb' + 1) U).ham es') :
    ∃ g g', buildGfExact junk (nb + 1) es beta egs 0 false = .ok g ∧ buildGfExact junk' (nb' + 1) es' beta egs' 0 false = .ok g' ∧
      ∀ z : ℂ, z.im ≠ 0 → g'.call z.re z.im = g.call z.re z.im ∧
        (impAfter nb' ek0' vk0' hist' ek' vk' mus').sigma (nb' + 1) (fun z => g'.call z.re z.im) z = (impAfter nb ek0 vk0 hist ek vk mus).sigma (nb + 1) (fun z => g.call z.re z.im) z := by
  have hb := impAfter_sameImpurity nb ek0 vk0 hist ek vk mus nb' ek0' vk0' hist' ek' vk' mus' U h00 (by
    intro z hz
    rw [(kept_of_large nb' hv').1, (kept_of_large nb hv).1]; exact hyb z hz)
  obtain ⟨g, g', h1, h2, h3⟩ := C179_sizes_gf_exact (junk := junk) (junk' := junk') (beta := beta) (egs := egs) (egs' := egs') (impAfter_valid nb ek0 vk0 hist ek vk mus hn hn31 U)
    (impAfter_valid nb' ek0' vk0' hist' ek' vk' mus' hn' hn31' U) hb hes hes'
  refine ⟨g, g', h1, h2, fun z hz => ⟨h3 _ _ hz, ?_⟩⟩
  unfold Imp.sigma
  simp only
  rw [h3 _ _ hz, impAfter_freeInv, impAfter_freeInv, h00, hyb z hz]

end

/-- Two bath levels at the same energy with couplings 3/10 and 4/10 act as a bath of one level with coupling 5/10. -/
example (U : ℝ) : SameImpurity ((impAfter 2 (fun _ => 0) (fun _ => 0) [] (fun _ => 1) (fun k => if k = 0 then 3 / 10 else -4 / 10) [2]).args 3 U)
    ((impAfter 1 (fun _ => 0) (fun _ => 0) [.update 7] (fun _ => 1) (fun _ => 5 / 10) [1, 2]).args 2 U) 0 := by
  refine impAfter_sameImpurity 2 _ _ _ _ _ _ 1 _ _ _ _ _ _ U ?_ fun z _ => ?_
  · simp [impAfter, Imp.run, Imp.step]
  · unfold hybridisation
    rw [Fin.sum_univ_two, Fin.sum_univ_one]
    have big : ∀ (f : ℕ → ℝ) (k : ℕ) (v : ℝ), f k = v → |v| > 1 / 10 ^ 7 → keptCouplings f k = v := fun f k v e h => by
      unfold keptCouplings; rw [e, if_pos h]
    have h3 := big (fun k => if k = 0 then (3 / 10 : ℝ) else -4 / 10) 0 (3 / 10) (by simp) (by rw [abs_of_pos] <;> norm_num)
    have h4 := big (fun k => if k = 0 then (3 / 10 : ℝ) else -4 / 10) 1 (-4 / 10) (by simp) (by rw [abs_of_neg] <;> norm_num)
    have h5 := big (fun _ => (5 / 10 : ℝ)) 0 (5 / 10) rfl (by rw [abs_of_pos] <;> norm_num)
    simp only [Fin.val_zero, Fin.val_one, h3, h4, h5]
    norm_num
    ring

end Edpyt
