import Verif.Proof.SplitHam
import Verif.Props.OccupationGf
import Verif.Props.GfLanczos
import Verif.Props.SelfEnergy
import Verif.Props.ThermalGf
/-!
C178: groups of modes that are not connected do not influence each other.
-/
namespace Edpyt
open Edpyt.Spec Matrix

section
variable {a : HamArgs} {col : Bool → ℕ → Bool}

theorem SameGroup_partHam {H' : ℕ → ℕ → ℕ → ℝ} {V' : VArg ℝ} {z' : Option (ℕ → ℝ)} {hf' : Bool} {mu' : ℝ} (h : SameGroup a ⟨a.n, H', V', z', hf', mu'⟩ col) :
    HamArgs.partHam ⟨a.n, H', V', z', hf', mu'⟩ col true = a.partHam col true := by
  have hJ : ∀ {J J' : Option (ℕ → ℕ → ℝ)}, (∀ i j : ℕ, i < a.n → j < a.n → col false i = true → col false j = true → J'.getD (fun _ _ => 0) i j = J.getD (fun _ _ => 0) i j) →
      (fun i j : Fin a.n => if col false i = true ∧ col false j = true then offdiag (n := a.n) (optMat J') i j else 0) =
        fun i j : Fin a.n => if col false i = true ∧ col false j = true then offdiag (n := a.n) (optMat J) i j else 0 := by
    intro J J' hJ
    funext i j
    by_cases hc : col false i = true ∧ col false j = true
    · rw [if_pos hc, if_pos hc]
      unfold offdiag optMat
      rw [hJ i j i.2 j.2 hc.1 hc.2]
    · rw [if_neg hc, if_neg hc]
  have hU : (fun i j : Fin a.n => if col false i = true ∧ col false j = true then V'.U.getD 0 i j else 0) =
      fun i j : Fin a.n => if col false i = true ∧ col false j = true then a.V.U.getD 0 i j else 0 := by
    funext i j
    by_cases hc : col false i = true ∧ col false j = true
    · rw [if_pos hc, if_pos hc, h.U i j i.2 j.2 hc.1 hc.2]
    · rw [if_neg hc, if_neg hc]
  have ht : (fun (s : Bool) (i j : Fin a.n) => if col s i = true ∧ col s j = true then kept (n := a.n) mu' (H' (if s then 1 else 0)) i j else 0) =
      fun s (i j : Fin a.n) => if col s i = true ∧ col s j = true then kept (n := a.n) a.mu (a.H (if s then 1 else 0)) i j else 0 := by
    funext s i j
    by_cases hc : col s i = true ∧ col s j = true
    · rw [if_pos hc, if_pos hc, kept_apply, kept_apply]
      have h1 := h.H s i j i.2 j.2 hc.1 hc.2
      by_cases hij : i = j
      · subst hij
        simpa using h1
      · have hij' : (i : ℕ) ≠ j := fun e => hij (Fin.ext e)
        rw [if_neg hij', if_neg hij', add_zero, add_zero] at h1
        rw [if_neg hij, if_neg hij]
        change (if |H' (if s then 1 else 0) i j| > 1 / 10 ^ 7 then H' (if s then 1 else 0) i j else 0) = _
        change H' (if s then 1 else 0) i j = _ at h1
        rw [h1]
    · rw [if_neg hc, if_neg hc]
  have hhf : hf' = a.hf := h.hf
  rw [part_ham, part_ham]
  change genHam (n := a.n) hf' (fun (s : Bool) (i j : Fin a.n) => if col s i = true ∧ col s j = true then kept (n := a.n) mu' (H' (if s then 1 else 0)) i j else 0) _
    (fun i j : Fin a.n => if col false i = true ∧ col false j = true then V'.U.getD 0 i j else 0)
    (fun i j : Fin a.n => if col false i = true ∧ col false j = true then offdiag (n := a.n) (optMat V'.Jx) i j else 0)
    (fun i j : Fin a.n => if col false i = true ∧ col false j = true then offdiag (n := a.n) (optMat V'.Jp) i j else 0) = _
  rw [ht, hU, hJ h.Jx, hJ h.Jp, hhf]
  refine genHam_congr_z _ _ _ _ fun i j h0 => ?_
  by_cases hc : col false i = true ∧ col false j = true
  · have e1 := h.z i i.2 hc.1
    have e2 := h.z j j.2 hc.2
    exact ⟨by rw [← e1]; simp only [hhf], by rw [← e2]; simp only [hhf]⟩
  · rw [if_neg hc] at h0; exact absurd rfl h0

theorem Spec.Splits.green (ha : a.Valid) (h : Splits a col) (β : ℝ) {z : ℂ} (hz : z.im ≠ 0) {s : Bool} {i j : Fin a.n} (hi : col s i = true) (hj : col s j = true) {g : ℂ}
    (hg : IsGreen β (a.partHam col true) (ann ℝ (orb s i)) (cre ℝ (orb s j)) z g) : IsGreen β a.ham (ann ℝ (orb s i)) (cre ℝ (orb s j)) z g := by
  classical
  rw [h.ham]
  have hm := h.mem false
  rw [show InGroup a.n col false = fun m => ¬ InGroup a.n col true m from funext fun m => propext inGroup_not] at hm
  have hne : ∀ {k : Fin a.n}, col s k = true → ∀ m, ¬ InGroup a.n col true m → orb s k ≠ m := fun hk m hm e => hm (e ▸ inGroup_orb.mpr hk)
  exact green_part (h.mem true) hm (partHam_symm ha true) (partHam_symm ha false) β hz (fun m hm => antiIdle_ann (hne hi m hm)) (fun m hm => antiIdle_cre (hne hj m hm)) hg

theorem Spec.Splits.cross (ha : a.Valid) (h : Splits a col) (β : ℝ) {z : ℂ} (hz : z.im ≠ 0) {s : Bool} {i j : Fin a.n} (hi : col s i = true) (hj : col s j = false) :
    IsGreen β a.ham (ann ℝ (orb s i)) (cre ℝ (orb s j)) z 0 := by
  rw [h.ham]
  have hm := h.mem false
  rw [show InGroup a.n col false = fun m => ¬ InGroup a.n col true m from funext fun m => propext inGroup_not] at hm
  have hne : ∀ {k : Fin a.n}, col s k = true → ∀ m, ¬ InGroup a.n col true m → orb s k ≠ m := fun hk m hm e => hm (e ▸ inGroup_orb.mpr hk)
  obtain ⟨u, E, hb⟩ := EigBasis.of_symm (show (a.partHam col true)ᵀ = _ from partHam_symm ha true)
  exact green_cross (h.mem true) hm (partHam_symm ha true) β hz (fun m hm => antiIdle_ann (hne hi m hm)) (by rw [inGroup_orb, hj]; simp) ⟨_, (hb.green β _ _ hz _).mpr rfl⟩

theorem Spec.Splits.occ (ha : a.Valid) (h : Splits a col) (β : ℝ) {s : Bool} {i : Fin a.n} (hi : col s i = true) : thermalOcc β a.ham s i = thermalOcc β (a.partHam col true) s i := by
  classical
  unfold thermalOcc
  rw [h.ham]
  have hm := h.mem false
  rw [show InGroup a.n col false = fun m => ¬ InGroup a.n col true m from funext fun m => propext inGroup_not] at hm
  exact thermal_part (h.mem true) hm (partHam_symm ha true) (partHam_symm ha false) β fun m hm =>
    (evenAlg_idle (mem_ca (inGroup_orb.mpr hi) (inGroup_orb.mpr hi)) hm).cplx

variable {a' : HamArgs} {junk junk' : ℕ} {es es' : Espace (ℕ × ℕ)} {egs egs' beta : ℝ}

/-- **C178** `build_gf_exact` on a site of a group does not depend on the rest of the input. -/
theorem C178_gf_exact (ha : a.Valid) (ha' : a'.Valid) (h : Splits a col) (h' : Splits a' col) (hs : SameGroup a a' col) (hes : EigenEspace a.n a.ham es) (hes' : EigenEspace a'.n a'.ham es')
    {i : ℕ} (hi : i < a.n) (hc : col false i = true) :
    ∃ g g', buildGfExact junk a.n es beta egs i false = .ok g ∧ buildGfExact junk' a'.n es' beta egs' i false = .ok g' ∧ ∀ e eta : ℝ, eta ≠ 0 → g'.call e eta = g.call e eta := by
  obtain ⟨n', H', V', z', hf', mu'⟩ := a'
  obtain rfl : n' = a.n := hs.n
  obtain ⟨g, h1, h2⟩ := C92_gf_exact (junk := junk) (beta := beta) (egs := egs) ha.le hes hi
  obtain ⟨g', h1', h2'⟩ := C92_gf_exact (junk := junk') (beta := beta) (egs := egs') ha'.le hes' hi
  refine ⟨g, g', h1, h1', fun e eta he => ?_⟩
  have hz : (e + Complex.I * eta : ℂ).im ≠ 0 := by simpa using he
  obtain ⟨u, E, hb⟩ := EigBasis.of_symm (show (a.partHam col true)ᵀ = _ from partHam_symm ha true)
  have hg := (hb.green beta (ann ℝ (orb false ⟨i, hi⟩)) (cre ℝ (orb false ⟨i, hi⟩)) hz _).mpr rfl
  have q1 := (h2 e eta he _).mp (h.green ha beta hz (i := ⟨i, hi⟩) (j := ⟨i, hi⟩) hc hc hg)
  have q2 := (h2' e eta he _).mp (h'.green ha' beta hz (i := ⟨i, hi⟩) (j := ⟨i, hi⟩) hc hc (by rw [SameGroup_partHam hs]; exact hg))
  rw [← q1, ← q2]

/-- **C178** `build_gf2_exact`: the elements within a group do not depend on the rest of the input, for both spins. -/
theorem C178_gf2_exact (ha : a.Valid) (ha' : a'.Valid) (h : Splits a col) (h' : Splits a' col) (hs : SameGroup a a' col) (hes : EigenEspace a.n a.ham es) (hes' : EigenEspace a'.n a'.ham es')
    (s : Bool) :
    ∃ G G', buildGf2Exact junk a.n es beta egs s = .ok G ∧ buildGf2Exact junk' a'.n es' beta egs' s = .ok G' ∧
      ∀ i j : ℕ, i < a.n → j < a.n → col s i = true → col s j = true → ∀ e eta : ℝ, eta ≠ 0 → (G' i j).call e eta = (G i j).call e eta := by
  obtain ⟨n', H', V', z', hf', mu'⟩ := a'
  obtain rfl : n' = a.n := hs.n
  obtain ⟨G, h1, h2⟩ := C93_gf2_exact (junk := junk) (beta := beta) (egs := egs) ha.le hes s
  obtain ⟨G', h1', h2'⟩ := C93_gf2_exact (junk := junk') (beta := beta) (egs := egs') ha'.le hes' s
  refine ⟨G, G', h1, h1', fun i j hi hj hci hcj e eta he => ?_⟩
  have hz : (e + Complex.I * eta : ℂ).im ≠ 0 := by simpa using he
  obtain ⟨u, E, hb⟩ := EigBasis.of_symm (show (a.partHam col true)ᵀ = _ from partHam_symm ha true)
  have hg := (hb.green beta (ann ℝ (orb s ⟨i, hi⟩)) (cre ℝ (orb s ⟨j, hj⟩)) hz _).mpr rfl
  have q1 := (h2 ⟨i, hi⟩ ⟨j, hj⟩ e eta he _).mp (h.green ha beta hz (i := ⟨i, hi⟩) (j := ⟨j, hj⟩) hci hcj hg)
  have q2 := (h2' ⟨i, hi⟩ ⟨j, hj⟩ e eta he _).mp (h'.green ha' beta hz (i := ⟨i, hi⟩) (j := ⟨j, hj⟩) hci hcj (by rw [SameGroup_partHam hs]; exact hg))
  rw [← q1, ← q2]

/-- **C178** the elements of `build_gf2_exact` between the groups vanish. -/
theorem C178_cross (ha : a.Valid) (h : Splits a col) (hes : EigenEspace a.n a.ham es) (s : Bool) :
    ∃ G, buildGf2Exact junk a.n es beta egs s = .ok G ∧ ∀ i j : ℕ, i < a.n → j < a.n → col s i ≠ col s j → ∀ e eta : ℝ, eta ≠ 0 → (G i j).call e eta = 0 := by
  obtain ⟨G, h1, h2⟩ := C93_gf2_exact (junk := junk) (beta := beta) (egs := egs) ha.le hes s
  refine ⟨G, h1, fun i j hi hj hc e eta he => ?_⟩
  have hz : (e + Complex.I * eta : ℂ).im ≠ 0 := by simpa using he
  refine ((h2 ⟨i, hi⟩ ⟨j, hj⟩ e eta he _).mp ?_).symm
  by_cases hci : col s i = true
  · exact h.cross ha beta hz (i := ⟨i, hi⟩) (j := ⟨j, hj⟩) hci (by rw [hci] at hc; simpa using hc.symm)
  · have hflip : Splits a (fun s k => !col s k) :=
      ⟨fun s i j hi hj h0 => congrArg not (h.hop s i j hi hj h0), fun A hA i j hi hj h0 s s' => congrArg not (h.U A hA i j hi hj h0 s s'),
        fun A hA i j hi hj hij h0 s s' => congrArg not (h.Jx A hA i j hi hj hij h0 s s'), fun A hA i j hi hj hij h0 s s' => congrArg not (h.Jp A hA i j hi hj hij h0 s s')⟩
    simp only [Bool.not_eq_true] at hci
    rw [hci] at hc
    exact hflip.cross ha beta hz (i := ⟨i, hi⟩) (j := ⟨j, hj⟩) (by simp [hci]) (by simpa using hc.symm)

/-- **C178** `get_occupation` on the modes of a group does not depend on the rest of the input. -/
theorem C178_occupation (ha : a.Valid) (ha' : a'.Valid) (h : Splits a col) (h' : Splits a' col) (hs : SameGroup a a' col) (hes : EigenEspace a.n a.ham es) (hes' : EigenEspace a'.n a'.ham es')
    {occ occ' : List OccSct} (hocc : List.Forall₂ OccView es occ) (hocc' : List.Forall₂ OccView es' occ') :
    ∃ U D As U' D' As', getOccupation occ egs beta a.n = .ok (U, D, As) ∧ getOccupation occ' egs' beta a'.n = .ok (U', D', As') ∧
      ∀ k < a.n, (col false k = true → U' k = U k) ∧ (col true k = true → D' k = D k) := by
  obtain ⟨n', H', V', z', hf', mu'⟩ := a'
  obtain rfl : n' = a.n := hs.n
  obtain ⟨U, D, As, h1, h2⟩ := C101_get_occupation hes hocc egs beta
  obtain ⟨U', D', As', h1', h2'⟩ := C101_get_occupation hes' hocc' egs' beta
  refine ⟨U, D, As, U', D', As', h1, h1', fun k hk => ⟨fun hc => ?_, fun hc => ?_⟩⟩
  · have q := h'.occ ha' beta (s := false) (i := ⟨k, hk⟩) hc
    rw [SameGroup_partHam hs] at q
    exact Complex.ofReal_injective (((h2' ⟨k, hk⟩).1.trans q).trans ((h.occ ha beta (i := ⟨k, hk⟩) hc).symm.trans (h2 ⟨k, hk⟩).1.symm))
  · have q := h'.occ ha' beta (s := true) (i := ⟨k, hk⟩) hc
    rw [SameGroup_partHam hs] at q
    exact Complex.ofReal_injective (((h2' ⟨k, hk⟩).2.trans q).trans ((h.occ ha beta (i := ⟨k, hk⟩) hc).symm.trans (h2 ⟨k, hk⟩).2.symm))

/-- **C178** `build_gf_lanczos`: the same up to the errors of the Lanczos runs, for both spins and both representations. -/
theorem C178_gf_lanczos {g g' : GfLArgs} (jk : ℝ) (ha : g.ham.Valid) (ha' : g'.ham.Valid) (h : Splits g.ham col) (h' : Splits g'.ham col) (hs : SameGroup g.ham g'.ham col)
    (hb : g'.beta = g.beta) (hsp : g'.ispin = g.ispin) (hw : g.ham.n ≤ g.w) (hw' : g'.ham.n ≤ g'.w) (hcfg : g.cfg.Ok) (hcfg' : g'.cfg.Ok)
    (hes : EigenEspace g.ham.n g.ham.ham es) (hes' : EigenEspace g'.ham.n g'.ham.ham es') {i : ℕ} (hi : i < g.ham.n) (hc : col g.ispin i = true)
    {out out' : GfLOut} (hr : BuildGfLanczos g i false es (.ok out)) (hr' : BuildGfLanczos g' i false es' (.ok out')) (e eta ε : ℝ) (he : eta ≠ 0) (h0 : 0 ≤ ε)
    (hε : ∀ run ∈ out.log, run.ResLe ε) (hε' : ∀ run ∈ out'.log, run.ResLe ε) :
    ‖out'.gfe.call jk e eta - out.gfe.call jk e eta‖ ≤ 2 * (ε / eta ^ 2) + 2 * ((g.cfg.delta ^ 2 + g'.cfg.delta ^ 2) / |eta|) := by
  obtain ⟨cfg', rep', w', jk', ⟨n', H', V', z', hf', mu'⟩, beta', egs', isp'⟩ := g'
  obtain rfl : n' = g.ham.n := hs.n
  obtain rfl : beta' = g.beta := hb
  obtain rfl : isp' = g.ispin := hsp
  have hz : (e + Complex.I * eta : ℂ).im ≠ 0 := by simpa using he
  obtain ⟨o, e1, -, -, -, q⟩ := (C98_gf_lanczos jk ha hw hcfg hi hes false).2 _ hr
  injection e1 with e1; subst e1
  obtain ⟨o', e1', -, -, -, q'⟩ := (C98_gf_lanczos jk ha' hw' hcfg' hi hes' false).2 _ hr'
  injection e1' with e1'; subst e1'
  obtain ⟨ge, gh, hp⟩ := greenParts_exist hes g.beta (ann ℝ (orb g.ispin ⟨i, hi⟩)) (cre ℝ (orb g.ispin ⟨i, hi⟩)) hz
  obtain ⟨ge', gh', hp'⟩ := greenParts_exist hes' g.beta (ann ℝ (orb g.ispin ⟨i, hi⟩)) (cre ℝ (orb g.ispin ⟨i, hi⟩)) hz
  have b1 := q e eta ε he h0 hε ge gh hp
  have b2 := q' e eta ε he h0 hε' ge' gh' hp'
  rw [if_neg (by simp)] at b1 b2
  obtain ⟨u, E, hbs⟩ := EigBasis.of_symm (show (g.ham.partHam col true)ᵀ = _ from partHam_symm ha true)
  have hg := (hbs.green g.beta (ann ℝ (orb g.ispin ⟨i, hi⟩)) (cre ℝ (orb g.ispin ⟨i, hi⟩)) hz _).mpr rfl
  have k1 := h.green ha g.beta hz (i := ⟨i, hi⟩) (j := ⟨i, hi⟩) hc hc hg
  have k2 := h'.green ha' g.beta hz (i := ⟨i, hi⟩) (j := ⟨i, hi⟩) hc hc (by rw [SameGroup_partHam hs]; exact hg)
  have m1 := ((hes.basis.green g.beta _ _ hz _).mp (IsGreenParts.isGreen hp)).trans ((hes.basis.green g.beta _ _ hz _).mp k1).symm
  have m2 := ((hes'.basis.green g.beta _ _ hz _).mp (IsGreenParts.isGreen hp')).trans ((hes'.basis.green g.beta _ _ hz _).mp k2).symm
  rw [m1] at b1
  rw [m2] at b2
  rw [norm_sub_rev] at b1
  refine (norm_sub_le_norm_sub_add_norm_sub _ _ _).trans ((add_le_add b2 b1).trans (le_of_eq ?_))
  change ε / eta ^ 2 + 2 * (cfg'.delta ^ 2 / |eta|) + (ε / eta ^ 2 + 2 * (g.cfg.delta ^ 2 / |eta|)) = _
  ring

end

/-- A dimer with interaction next to a third site: the level and the interaction of the third site are arbitrary. -/
def dimerAndSite (x u : ℝ) : HamArgs :=
  ⟨3, fun _ i j => if i = j then (if i = 2 then x else -2) else if i < 2 ∧ j < 2 then 1 else 0, .array fun i j => if i = j then (if i = 2 then u else 4) else if i < 2 ∧ j < 2 then 1 else 0, none, false, 0⟩

example (x u y v : ℝ) : (dimerAndSite x u).Valid ∧ Splits (dimerAndSite x u) (fun _ i => decide (i < 2)) ∧ SameGroup (dimerAndSite x u) (dimerAndSite y v) (fun _ i => decide (i < 2)) ∧
    (∃ es, EigenEspace (dimerAndSite x u).n (dimerAndSite x u).ham es) ∧ (dimerAndSite x u).H 0 0 1 = 1 := by
  have hv : (dimerAndSite x u).Valid := by
    refine ⟨by simp [dimerAndSite], by simp [dimerAndSite], rfl, fun s i j _ _ => ?_, by simp [dimerAndSite, VArg.array], by simp [dimerAndSite, VArg.array], fun _ => rfl⟩
    simp only [dimerAndSite]
    by_cases h : i = j
    · subst h; rfl
    · rw [if_neg h, if_neg (Ne.symm h)]; simp only [and_comm]
  refine ⟨hv, ⟨fun s i j hi hj h => ?_, fun A hA i j hi hj h s s' => ?_, fun A hA => by simp [dimerAndSite, VArg.array] at hA, fun A hA => by simp [dimerAndSite, VArg.array] at hA⟩,
    ⟨rfl, rfl, fun s i j hi hj ci cj => ?_, fun i j hi hj ci cj => ?_, fun _ _ _ => rfl, fun _ _ _ _ _ _ => rfl, fun _ _ _ _ _ _ => rfl⟩, eigenEspace_exists hv, ?_⟩
  · simp only [dimerAndSite] at h
    by_cases hij : i = j
    · rw [hij]
    · rw [if_neg hij] at h
      by_cases hc : i < 2 ∧ j < 2
      · simp [hc.1, hc.2]
      · rw [if_neg hc, abs_zero] at h; norm_num at h
  · simp only [dimerAndSite, VArg.array, Option.some.injEq] at hA
    subst hA
    by_cases hij : i = j
    · rw [hij]
    · simp only [if_neg hij] at h
      by_cases hc : i < 2 ∧ j < 2
      · simp [hc.1, hc.2]
      · rw [if_neg hc] at h; exact absurd rfl h
  · simp only [decide_eq_true_eq] at ci cj
    simp only [dimerAndSite]
    by_cases hij : i = j
    · subst hij; simp [ci.ne]
    · simp [hij]
  · simp only [decide_eq_true_eq] at ci cj
    simp only [dimerAndSite, VArg.array, Option.getD_some]
    by_cases hij : i = j
    · subst hij; simp [ci.ne]
    · simp [hij]
  · simp [dimerAndSite]

/-- Without interaction the two spins are such groups, whatever the one-body array. -/
example (n : ℕ) (H : ℕ → ℕ → ℕ → ℝ) (mu : ℝ) : Splits ⟨n, H, .array fun _ _ => 0, none, false, mu⟩ (fun s _ => s) := by
  refine ⟨fun s i j _ _ _ => rfl, fun A hA i j _ _ h => ?_, fun A hA => by simp [VArg.array] at hA, fun A hA => by simp [VArg.array] at hA⟩
  simp only [VArg.array, Option.some.injEq] at hA
  subst hA
  exact absurd rfl h

end Edpyt
