import Verif.Spec.SameBath
import Verif.Proof.RotateHam
import Verif.Props.Decouple
import Verif.Props.SelfEnergy
import Verif.Props.FreeDeriv
/-!
C179: of the bath, only the hybridisation function matters.
-/
namespace Edpyt
open Edpyt.Spec Matrix

section
variable {a : HamArgs} {i0 : Fin a.n} {C : Bool → Finset (Fin a.n)} {p φ : Bool → Fin a.n → ℝ} {b : Bool → OrthonormalBasis (Fin a.n) ℝ (EuclideanSpace ℝ (Fin a.n))}

theorem HamArgs.ImpurityOnly.star (ha : a.Valid) (h : a.ImpurityOnly i0) (he : ∀ s, ∀ k ∈ C s, ∀ i, ∑ j, a.oneBody s i j * b s k j = p s k * b s k i)
    (hφ : ∀ s k, b s k i0 = φ s k) (h0 : ∀ s k, k ∉ C s → φ s k = 0) (β : ℝ) :
    (starHam C p φ (a.V.U.getD 0 i0 i0) (if a.hf then 1 / 2 else 0)).IsSymm ∧
    (∀ (s : Bool) (z g : ℂ), z.im ≠ 0 → IsGreen β (starHam C p φ (a.V.U.getD 0 i0 i0) (if a.hf then 1 / 2 else 0)) (orbAnn s (φ s)) (orbAnn s (φ s))ᵀ z g →
      IsGreen β a.ham (ann ℝ (orb s i0)) (cre ℝ (orb s i0)) z g) ∧
    (∀ s, thermal β a.ham (cplx (num ℝ (orb s i0))) = thermal β (starHam C p φ (a.V.U.getD 0 i0 i0) (if a.hf then 1 / 2 else 0)) (cplx ((orbAnn s (φ s))ᵀ * orbAnn s (φ s)))) := by
  classical
  obtain ⟨P, K, hP, hK, sK, sS, hH⟩ := h.rotated ha he hφ h0
  have hrow : ∀ s, (Matrix.of fun i k => b s k i) i0 = φ s := fun s => funext fun k => hφ s k
  have hPt : Pᵀᵀ * Pᵀ = 1 := by rw [Matrix.transpose_transpose]; exact hP.orth'
  have hc : Pᵀ * (starHam C p φ (a.V.U.getD 0 i0 i0) (if a.hf then 1 / 2 else 0) + K) = a.ham * Pᵀ := by
    rw [← hH, ← Matrix.mul_assoc, ← Matrix.mul_assoc, hP.orth, Matrix.one_mul]
  have hback : ∀ X Y : FockMat a.n, P * X * Pᵀ = Y → Pᵀ * Y * Pᵀᵀ = X := fun X Y e => by
    rw [← e, Matrix.transpose_transpose]
    simp only [Matrix.mul_assoc]
    rw [hP.orth, Matrix.mul_one, ← Matrix.mul_assoc, hP.orth, Matrix.one_mul]
  have hne : ∀ s m, ¬ InStar C m → ∀ k, φ s k ≠ 0 → orb s k ≠ m := fun s m hm k hk e => hm (e ▸ inStar_orb.mpr (by by_contra hc; exact hk (h0 s k hc)))
  have hin : ∀ s k, φ s k ≠ 0 → InStar C (orb s k) := fun s k hk => inStar_orb.mpr (by by_contra hc; exact hk (h0 s k hc))
  have hth : ∀ X Y : FockMat a.n, P * X * Pᵀ = Y → Y ∈ evenAlg (InStar C) → thermal β a.ham (cplx X) = thermal β (starHam C p φ (a.V.U.getD 0 i0 i0) (if a.hf then 1 / 2 else 0)) (cplx Y) := by
    intro X Y e hY
    rw [← thermal_part (starHam_mem h0 _ _) hK sS sK β fun m hm => (evenAlg_idle hY hm).cplx, ← thermal_semiconj hPt hc β (cplx Y), ← cplx_mul', ← cplx_mul', hback X Y e]
  refine ⟨sS, fun s z g hz hg => ?_, fun s => hth _ _ (by rw [hP.conj_num, hrow]) (mem_orbNum (hin s))⟩
  have h1 := green_part (starHam_mem h0 _ _) hK sS sK β hz (fun m hm => (antiIdle_orbAnn (hne s m hm)).1) (fun m hm => (antiIdle_orbAnn (hne s m hm)).2) hg
  have h2 := isGreen_semiconj hPt hc h1
  rwa [hback _ _ (show P * ann ℝ (orb s i0) * Pᵀ = _ by rw [hP.conj_ann, hrow]), hback _ _ (show P * cre ℝ (orb s i0) * Pᵀ = _ by rw [hP.conj_cre, hrow])] at h2

end

section
variable {a a' : HamArgs} {junk junk' : ℕ} {es es' : Espace (ℕ × ℕ)} {egs egs' beta : ℝ} {i : ℕ}

/-- The two Hamiltonians agree on the impurity. -/
theorem Spec.SameBath.core {H' : ℕ → ℕ → ℕ → ℝ} {V' : VArg ℝ} {z' : Option (ℕ → ℝ)} {hf' : Bool} {mu' : ℝ} (ha : a.Valid) (ha' : HamArgs.Valid ⟨a.n, H', V', z', hf', mu'⟩)
    (h : SameBath a ⟨a.n, H', V', z', hf', mu'⟩ i) (β : ℝ) :
    (∀ (s : Bool) (z : ℂ), z.im ≠ 0 → ∃ g, IsGreen β a.ham (ann ℝ (orb s ⟨i, h.lt⟩)) (cre ℝ (orb s ⟨i, h.lt⟩)) z g ∧
      IsGreen β (HamArgs.ham ⟨a.n, H', V', z', hf', mu'⟩) (ann ℝ (orb s ⟨i, h.lt'⟩)) (cre ℝ (orb s ⟨i, h.lt'⟩)) z g) ∧
    ∀ s, thermalOcc β a.ham s ⟨i, h.lt⟩ = thermalOcc β (HamArgs.ham ⟨a.n, H', V', z', hf', mu'⟩) s ⟨i, h.lt'⟩ := by
  have key := fun s => common_site_basis (a.oneBody_symm ha s) (HamArgs.oneBody_symm (a := ⟨a.n, H', V', z', hf', mu'⟩) ha' s) (h.green s)
  choose C p φ b b' h1 h2 h3 h4 h5 using key
  have hhf : hf' = a.hf := h.hf
  have hU : V'.U.getD 0 i i = a.V.U.getD 0 i i := h.U
  have hS : starHam C p φ (V'.U.getD 0 i i) (if hf' then 1 / 2 else 0) = starHam C p φ (a.V.U.getD 0 i i) (if a.hf then 1 / 2 else 0) := by rw [hU, hhf]
  obtain ⟨sS, g1, o1⟩ := h.only.star ha h1 h3 h5 β
  obtain ⟨-, g2, o2⟩ := h.only'.star ha' h2 h4 h5 β
  refine ⟨fun s z hz => ?_, fun s => ?_⟩
  · obtain ⟨u, E, hb⟩ := EigBasis.of_symm (show (starHam C p φ (a.V.U.getD 0 i i) (if a.hf then 1 / 2 else 0))ᵀ = _ from sS)
    have hg := (hb.green β (orbAnn s (φ s)) (orbAnn s (φ s))ᵀ hz _).mpr rfl
    exact ⟨_, g1 s z _ hz hg, g2 s z _ hz (by change IsGreen β (starHam C p φ (V'.U.getD 0 i i) (if hf' then 1 / 2 else 0)) _ _ _ _; rw [hS]; exact hg)⟩
  · refine (o1 s).trans ((o2 s).trans ?_).symm
    change thermal β (starHam C p φ (V'.U.getD 0 i i) (if hf' then 1 / 2 else 0)) _ = _
    rw [hS]

/-- **C179** `build_gf_exact` on the impurity depends on the bath only through the hybridisation function. -/
theorem C179_gf_exact (ha : a.Valid) (ha' : a'.Valid) (h : SameBath a a' i) (hes : EigenEspace a.n a.ham es) (hes' : EigenEspace a'.n a'.ham es') :
    ∃ g g', buildGfExact junk a.n es beta egs i false = .ok g ∧ buildGfExact junk' a'.n es' beta egs' i false = .ok g' ∧ ∀ e eta : ℝ, eta ≠ 0 → g'.call e eta = g.call e eta := by
  obtain ⟨n', H', V', z', hf', mu'⟩ := a'
  obtain rfl : n' = a.n := h.n
  obtain ⟨g, h1, h2⟩ := C92_gf_exact (junk := junk) (beta := beta) (egs := egs) ha.le hes h.lt
  obtain ⟨g', h1', h2'⟩ := C92_gf_exact (junk := junk') (beta := beta) (egs := egs') ha'.le hes' h.lt
  refine ⟨g, g', h1, h1', fun e eta he => ?_⟩
  obtain ⟨x, q, q'⟩ := (h.core ha ha' beta).1 false (e + Complex.I * eta) (by simpa using he)
  rw [← (h2 e eta he _).mp q, ← (h2' e eta he _).mp q']

/-- **C179** `build_gf2_exact`: the element of the impurity, for both spins. -/
theorem C179_gf2_exact (ha : a.Valid) (ha' : a'.Valid) (h : SameBath a a' i) (hes : EigenEspace a.n a.ham es) (hes' : EigenEspace a'.n a'.ham es') (s : Bool) :
    ∃ G G', buildGf2Exact junk a.n es beta egs s = .ok G ∧ buildGf2Exact junk' a'.n es' beta egs' s = .ok G' ∧ ∀ e eta : ℝ, eta ≠ 0 → (G' i i).call e eta = (G i i).call e eta := by
  obtain ⟨n', H', V', z', hf', mu'⟩ := a'
  obtain rfl : n' = a.n := h.n
  obtain ⟨G, h1, h2⟩ := C93_gf2_exact (junk := junk) (beta := beta) (egs := egs) ha.le hes s
  obtain ⟨G', h1', h2'⟩ := C93_gf2_exact (junk := junk') (beta := beta) (egs := egs') ha'.le hes' s
  refine ⟨G, G', h1, h1', fun e eta he => ?_⟩
  obtain ⟨x, q, q'⟩ := (h.core ha ha' beta).1 s (e + Complex.I * eta) (by simpa using he)
  exact ((h2' ⟨i, h.lt⟩ ⟨i, h.lt⟩ e eta he _).mp q').symm.trans ((h2 ⟨i, h.lt⟩ ⟨i, h.lt⟩ e eta he _).mp q)

/-- **C179** `get_occupation`: both occupations of the impurity. -/
theorem C179_occupation (ha : a.Valid) (ha' : a'.Valid) (h : SameBath a a' i) (hes : EigenEspace a.n a.ham es) (hes' : EigenEspace a'.n a'.ham es')
    {occ occ' : List OccSct} (hocc : List.Forall₂ OccView es occ) (hocc' : List.Forall₂ OccView es' occ') :
    ∃ U D As U' D' As', getOccupation occ egs beta a.n = .ok (U, D, As) ∧ getOccupation occ' egs' beta a'.n = .ok (U', D', As') ∧ U' i = U i ∧ D' i = D i := by
  obtain ⟨n', H', V', z', hf', mu'⟩ := a'
  obtain rfl : n' = a.n := h.n
  obtain ⟨U, D, As, h1, h2⟩ := C101_get_occupation hes hocc egs beta
  obtain ⟨U', D', As', h1', h2'⟩ := C101_get_occupation hes' hocc' egs' beta
  have q := (h.core ha ha' beta).2
  exact ⟨U, D, As, U', D', As', h1, h1', Complex.ofReal_injective ((h2' ⟨i, h.lt⟩).1.trans ((q false).symm.trans (h2 ⟨i, h.lt⟩).1.symm)),
    Complex.ofReal_injective ((h2' ⟨i, h.lt⟩).2.trans ((q true).symm.trans (h2 ⟨i, h.lt⟩).2.symm))⟩

/-- **C179** `build_gf_lanczos`: the same up to the errors of the Lanczos runs, for both spins and both representations. -/
theorem C179_gf_lanczos {g g' : GfLArgs} (jk : ℝ) (ha : g.ham.Valid) (ha' : g'.ham.Valid) (h : SameBath g.ham g'.ham i)
    (hb : g'.beta = g.beta) (hsp : g'.ispin = g.ispin) (hw : g.ham.n ≤ g.w) (hw' : g'.ham.n ≤ g'.w) (hcfg : g.cfg.Ok) (hcfg' : g'.cfg.Ok)
    (hes : EigenEspace g.ham.n g.ham.ham es) (hes' : EigenEspace g'.ham.n g'.ham.ham es')
    {out out' : GfLOut} (hr : BuildGfLanczos g i false es (.ok out)) (hr' : BuildGfLanczos g' i false es' (.ok out')) (e eta ε : ℝ) (he : eta ≠ 0) (h0 : 0 ≤ ε)
    (hε : ∀ run ∈ out.log, run.ResLe ε) (hε' : ∀ run ∈ out'.log, run.ResLe ε) :
    ‖out'.gfe.call jk e eta - out.gfe.call jk e eta‖ ≤ 2 * (ε / eta ^ 2) + 2 * ((g.cfg.delta ^ 2 + g'.cfg.delta ^ 2) / |eta|) := by
  obtain ⟨cfg', rep', w', jk', ⟨n', H', V', z', hf', mu'⟩, beta', egs', isp'⟩ := g'
  obtain rfl : n' = g.ham.n := h.n
  obtain rfl : beta' = g.beta := hb
  obtain rfl : isp' = g.ispin := hsp
  have hi := h.lt
  have hz : (e + Complex.I * eta : ℂ).im ≠ 0 := by simpa using he
  obtain ⟨o, e1, -, -, -, q⟩ := (C98_gf_lanczos jk ha hw hcfg hi hes false).2 _ hr
  injection e1 with e1; subst e1
  obtain ⟨o', e1', -, -, -, q'⟩ := (C98_gf_lanczos jk ha' hw' hcfg' hi hes' false).2 _ hr'
  injection e1' with e1'; subst e1'
  obtain ⟨ge, gh, hp⟩ := greenParts_exist hes g.beta (ann ℝ (orb g.ispin ⟨i, hi⟩)) (cre ℝ (orb g.ispin ⟨i, hi⟩)) hz
  obtain ⟨ge', gh', hp'⟩ := greenParts_exist hes' g.beta (ann ℝ (orb g.ispin ⟨i, hi⟩)) (cre ℝ (orb g.ispin ⟨i, hi⟩)) hz
  have b1 := q e eta ε he h0 hε ge gh hp
  have b2 := q' e eta ε he h0 hε' ge' gh' hp'
  rw [if_neg (by simp)] at b1 b2
  obtain ⟨x, k1, k2⟩ := (h.core ha ha' g.beta).1 g.ispin (e + Complex.I * eta) hz
  have m1 := ((hes.basis.green g.beta _ _ hz _).mp (IsGreenParts.isGreen hp)).trans ((hes.basis.green g.beta _ _ hz _).mp k1).symm
  have m2 := ((hes'.basis.green g.beta _ _ hz _).mp (IsGreenParts.isGreen hp')).trans ((hes'.basis.green g.beta _ _ hz _).mp k2).symm
  rw [m1] at b1
  rw [m2] at b2
  rw [norm_sub_rev] at b1
  refine (norm_sub_le_norm_sub_add_norm_sub _ _ _).trans ((add_le_add b2 b1).trans (le_of_eq ?_))
  change ε / eta ^ 2 + 2 * (cfg'.delta ^ 2 / |eta|) + (ε / eta ^ 2 + 2 * (g.cfg.delta ^ 2 / |eta|)) = _
  ring

end

section
variable {junk junk' : ℕ} {es es' : Espace (ℕ × ℕ)} {egs egs' beta : ℝ}
variable (nb : ℕ) (ek0 vk0 : ℕ → ℝ) (hist : List ImpOp) (ek vk : ℕ → ℝ) (mus : List ℝ) (ek0' vk0' : ℕ → ℝ) (hist' : List ImpOp) (ek' vk' : ℕ → ℝ) (mus' : List ℝ)

theorem impAfter_sameBath (U : ℝ) (h00 : (impAfter nb ek0' vk0' hist' ek' vk' mus').H 0 0 = (impAfter nb ek0 vk0 hist ek vk mus).H 0 0)
    (hyb : ∀ z : ℂ, z.im ≠ 0 → hybridisation (fun k : Fin nb => ek' k) (fun k : Fin nb => keptCouplings vk' k) z = hybridisation (fun k : Fin nb => ek k) (fun k : Fin nb => keptCouplings vk k) z) :
    SameBath ((impAfter nb ek0 vk0 hist ek vk mus).args (nb + 1) U) ((impAfter nb ek0' vk0' hist' ek' vk' mus').args (nb + 1) U) 0 := by
  refine ⟨rfl, rfl, Nat.succ_pos nb, Nat.succ_pos nb, impAfter_only nb ek0 vk0 hist ek vk mus U, impAfter_only nb ek0' vk0' hist' ek' vk' mus' U, rfl, fun s z hz => ?_⟩
  have e1 := impAfter_oneBody nb ek0 vk0 hist ek vk mus U s
  have e2 := impAfter_oneBody nb ek0' vk0' hist' ek' vk' mus' U s
  have n1 := siam_nonreal ((impAfter nb ek0 vk0 hist ek vk mus).H 0 0) (fun k : Fin nb => ek k) (fun k : Fin nb => keptCouplings vk k) hz
  have n2 := siam_nonreal ((impAfter nb ek0' vk0' hist' ek' vk' mus').H 0 0) (fun k : Fin nb => ek' k) (fun k : Fin nb => keptCouplings vk' k) hz
  have g1 := siam_green n1.1 n1.2
  have g2 := siam_green n2.1 n2.2
  rw [h00, hyb z hz] at g2
  have g3 := g1.trans g2.symm
  unfold impurityGreen at g3
  rw [h00] at e2
  rw [← e1, ← e2] at g3
  exact g3

/-- **C179** for the impurity of the DMFT loop: two histories of fits and updates that end with the same level and the same hybridisation function give the same Green function and the same self-energy. -/
theorem C179_impurity (hn : 1 ≤ nb) (hn' : nb ≤ 31) (U : ℝ) (hv : ∀ k < nb, vk k = 0 ∨ 1 / 10 ^ 7 < |vk k|) (hv' : ∀ k < nb, vk' k = 0 ∨ 1 / 10 ^ 7 < |vk' k|)
    (h00 : (impAfter nb ek0' vk0' hist' ek' vk' mus').H 0 0 = (impAfter nb ek0 vk0 hist ek vk mus).H 0 0)
    (hyb : ∀ z : ℂ, z.im ≠ 0 → hybridisation (fun k : Fin nb => ek' k) (fun k : Fin nb => vk' k) z = hybridisation (fun k : Fin nb => ek k) (fun k : Fin nb => vk k) z)
    (hes : EigenEspace (nb + 1) ((impAfter nb ek0 vk0 hist ek vk mus).args (nb + 1) U).ham es) (hes' : EigenEspace (nb + 1) ((impAfter nb ek0' vk0' hist' ek' vk' mus').args (nb + 1) U).ham es') :
    ∃ g g', buildGfExact junk (nb + 1) es beta egs 0 false = .ok g ∧ buildGfExact junk' (nb + 1) es' beta egs' 0 false = .ok g' ∧
      ∀ z : ℂ, z.im ≠ 0 → g'.call z.re z.im = g.call z.re z.im ∧
        (impAfter nb ek0' vk0' hist' ek' vk' mus').sigma (nb + 1) (fun z => g'.call z.re z.im) z = (impAfter nb ek0 vk0 hist ek vk mus).sigma (nb + 1) (fun z => g.call z.re z.im) z := by
  have hb := impAfter_sameBath nb ek0 vk0 hist ek vk mus ek0' vk0' hist' ek' vk' mus' U h00 (by
    intro z hz
    rw [(kept_of_large nb hv').1, (kept_of_large nb hv).1]; exact hyb z hz)
  obtain ⟨g, g', h1, h2, h3⟩ := C179_gf_exact (junk := junk) (junk' := junk') (beta := beta) (egs := egs) (egs' := egs') (impAfter_valid nb ek0 vk0 hist ek vk mus hn hn' U)
    (impAfter_valid nb ek0' vk0' hist' ek' vk' mus' hn hn' U) hb hes hes'
  refine ⟨g, g', h1, h2, fun z hz => ⟨h3 _ _ hz, ?_⟩⟩
  unfold Imp.sigma
  simp only
  rw [h3 _ _ hz, impAfter_freeInv, impAfter_freeInv, h00, hyb z hz]

end

/-- Two levels at the same energy with couplings 3/10 and 4/10 act as one level with coupling 5/10, whatever the energy of the level that is left over and the order of the levels. -/
example (x U : ℝ) : SameBath ((impAfter 2 (fun _ => 0) (fun _ => 0) [] (fun _ => 1) (fun k => if k = 0 then 3 / 10 else -4 / 10) [2]).args 3 U)
    ((impAfter 2 (fun _ => 0) (fun _ => 0) [.update 7] (fun k => if k = 0 then x else 1) (fun k => if k = 0 then 0 else 5 / 10) [1, 2]).args 3 U) 0 := by
  refine impAfter_sameBath 2 _ _ _ _ _ _ _ _ _ _ _ _ U ?_ fun z _ => ?_
  · simp [impAfter, Imp.run, Imp.step]
  · unfold hybridisation
    rw [Fin.sum_univ_two, Fin.sum_univ_two]
    have big : ∀ (f : ℕ → ℝ) (k : ℕ) (v : ℝ), f k = v → |v| > 1 / 10 ^ 7 → keptCouplings f k = v := fun f k v e h => by
      unfold keptCouplings; rw [e, if_pos h]
    have h3 := big (fun k => if k = 0 then (3 / 10 : ℝ) else -4 / 10) 0 (3 / 10) (by simp) (by rw [abs_of_pos] <;> norm_num)
    have h4 := big (fun k => if k = 0 then (3 / 10 : ℝ) else -4 / 10) 1 (-4 / 10) (by simp) (by rw [abs_of_neg] <;> norm_num)
    have h0 : keptCouplings (fun k => if k = 0 then (0 : ℝ) else 5 / 10) 0 = 0 := by unfold keptCouplings; simp
    have h5 := big (fun k => if k = 0 then (0 : ℝ) else 5 / 10) 1 (5 / 10) (by simp) (by rw [abs_of_pos] <;> norm_num)
    simp only [Fin.val_zero, Fin.val_one, h3, h4, h0, h5]
    norm_num
    ring

end Edpyt
