import Verif.Spec.SameCluster
import Verif.Proof.ClusterHam
import Verif.Proof.PadBath
/-!
C182: a cluster of interacting sites depends on the rest of the system only through the non-interacting Green function between its sites.
-/
namespace Edpyt
open Edpyt.Spec Matrix

/-- The interaction part of the Hamiltonian. -/
noncomputable def HamArgs.inter (a : HamArgs) : FockMat a.n :=
  genHam (n := a.n) a.hf (fun _ _ _ => 0) (fun i => (a.z.getD fun _ => if a.hf then 1 else 0) i) (fun i j => a.V.U.getD 0 i j) (offdiag (n := a.n) (optMat a.V.Jx)) (offdiag (n := a.n) (optMat a.V.Jp))

theorem HamArgs.ham_inter (a : HamArgs) : a.ham = kinetic (fun s i j => a.oneBody s i j) + a.inter := by
  have h0 : kinetic (n := a.n) (fun _ _ _ => (0 : ℝ)) = 0 := by unfold kinetic; simp
  have h1 : kinetic (fun s i j => a.oneBody s i j) = kinetic (fun s => kept (n := a.n) a.mu (a.H (if s then 1 else 0))) := rfl
  unfold HamArgs.ham HamArgs.inter genHam hubbard codeExchange
  rw [h0, zero_add, h1]
  abel

theorem HamArgs.inter_symm {a : HamArgs} (ha : a.Valid) : a.inter.IsSymm := by
  have h1 : a.inter = a.ham - kinetic (fun s i j => a.oneBody s i j) := by rw [a.ham_inter]; abel
  have h2 : (kinetic (fun s i j => a.oneBody s i j))ᵀ = kinetic (fun s i j => a.oneBody s i j) :=
    kinetic_transpose fun s i j => congrFun (congrFun (a.oneBody_symm ha s) j) i
  unfold Matrix.IsSymm
  rw [h1, Matrix.transpose_sub, h2, show a.hamᵀ = a.ham from ham_symm ha]

private theorem offNe {n : ℕ} {A : ℕ → ℕ → ℝ} {i j : Fin n} (h : offdiag (n := n) A i j ≠ 0) : A i j ≠ 0 := fun e => by
  have := (offdiag_ne h).2
  rw [e, abs_zero] at this
  norm_num at this

theorem Spec.InteractsOn.mem {a : HamArgs} {S : ℕ → Prop} (h : InteractsOn a S) : a.inter ∈ evenAlg (OnSites fun i : Fin a.n => S i) := by
  refine genHam_mem _ _ (fun s i j h0 => absurd rfl h0) (fun i j h0 s => ?_) (fun i j h0 s => ?_) (fun i j h0 s => ?_)
  · have := h.U i j i.2 j.2 h0
    exact ⟨onSites_orb this.1, onSites_orb this.2⟩
  · have := h.Jx i j i.2 j.2 (offdiag_ne h0).1 (offNe h0)
    exact ⟨onSites_orb this.1, onSites_orb this.2⟩
  · have := h.Jp i j i.2 j.2 (offdiag_ne h0).1 (offNe h0)
    exact ⟨onSites_orb this.1, onSites_orb this.2⟩

section
variable {a a' : HamArgs} {junk junk' : ℕ} {es es' : Espace (ℕ × ℕ)} {egs egs' beta : ℝ} {S : ℕ → Prop}

theorem Spec.SameCluster.symm (h : SameCluster a a' S) : SameCluster a' a S :=
  ⟨h.hf.symm, h.on', h.on, fun i j hi hj => (h.U i j hi hj).symm, fun i hi => (h.z i hi).symm, fun i j hi hj => (h.Jx i j hi hj).symm, fun i j hi hj => (h.Jp i j hi hj).symm,
    fun s z hz i j hi hj => (h.green s z hz i j hi hj).symm⟩

theorem Spec.SameCluster.core_eq {H' : ℕ → ℕ → ℕ → ℝ} {V' : VArg ℝ} {z' : Option (ℕ → ℝ)} {hf' : Bool} {mu' : ℝ} (ha : a.Valid) (ha' : HamArgs.Valid ⟨a.n, H', V', z', hf', mu'⟩)
    (h : SameCluster a ⟨a.n, H', V', z', hf', mu'⟩ S) (β : ℝ) :
    (∀ (s : Bool) (z : ℂ), z.im ≠ 0 → ∀ i j : Fin a.n, S i → S j → ∃ g, IsGreen β a.ham (ann ℝ (orb s i)) (cre ℝ (orb s j)) z g ∧
      IsGreen β (HamArgs.ham ⟨a.n, H', V', z', hf', mu'⟩) (ann ℝ (orb s i)) (cre ℝ (orb s j)) z g) ∧
    ∀ s, ∀ i : Fin a.n, S i → thermalOcc β a.ham s i = thermalOcc β (HamArgs.ham ⟨a.n, H', V', z', hf', mu'⟩) s i := by
  have : NeZero a.n := ⟨by have := ha.two_le; omega⟩
  have hhf : hf' = a.hf := h.hf
  have hW : HamArgs.inter ⟨a.n, H', V', z', hf', mu'⟩ = a.inter := by
    have eU : (fun i j : Fin a.n => V'.U.getD 0 i j) = fun i j : Fin a.n => a.V.U.getD 0 i j := by
      funext i j
      by_cases hij : S i ∧ S j
      · exact h.U i j hij.1 hij.2
      · have h1 : a.V.U.getD 0 i j = 0 := by by_contra hc; exact hij (h.on.U i j i.2 j.2 hc)
        have h2 : V'.U.getD 0 i j = 0 := by by_contra hc; exact hij (h.on'.U i j i.2 j.2 hc)
        rw [h1, h2]
    have eJ : ∀ (J J' : Option (ℕ → ℕ → ℝ)), (∀ i j, i < a.n → j < a.n → i ≠ j → J.getD (fun _ _ => 0) i j ≠ 0 → S i ∧ S j) →
        (∀ i j, i < a.n → j < a.n → i ≠ j → J'.getD (fun _ _ => 0) i j ≠ 0 → S i ∧ S j) → (∀ i j, S i → S j → J'.getD (fun _ _ => 0) i j = J.getD (fun _ _ => 0) i j) →
        offdiag (n := a.n) (optMat J') = offdiag (n := a.n) (optMat J) := by
      intro J J' h1 h2 h3
      funext i j
      by_cases hij : i = j
      · subst hij; simp [offdiag]
      · have hv : (i : ℕ) ≠ j := fun e => hij (Fin.ext e)
        have : optMat J' i j = optMat J i j := by
          by_cases hS : S i ∧ S j
          · exact h3 i j hS.1 hS.2
          · have k1 : J.getD (fun _ _ => 0) i j = 0 := by by_contra hc; exact hS (h1 i j i.2 j.2 hv hc)
            have k2 : J'.getD (fun _ _ => 0) i j = 0 := by by_contra hc; exact hS (h2 i j i.2 j.2 hv hc)
            exact k2.trans k1.symm
        unfold offdiag
        rw [this]
    have ex := eJ a.V.Jx V'.Jx h.on.Jx h.on'.Jx h.Jx
    have ep := eJ a.V.Jp V'.Jp h.on.Jp h.on'.Jp h.Jp
    unfold HamArgs.inter
    change genHam (n := a.n) hf' _ _ (fun i j : Fin a.n => V'.U.getD 0 i j) (offdiag (n := a.n) (optMat V'.Jx)) (offdiag (n := a.n) (optMat V'.Jp)) = _
    rw [eU, ex, ep, hhf]
    refine genHam_congr_z _ _ _ _ fun i j h0 => ?_
    have := h.on.U i j i.2 j.2 h0
    have hz1 := h.z i this.1
    have hz2 := h.z j this.2
    simp only [hhf] at hz1 hz2
    exact ⟨hz1, hz2⟩
  have key := cluster_core (n := a.n) (S := fun i : Fin a.n => S i) (W := a.inter) (t := a.oneBody) (t' := HamArgs.oneBody ⟨a.n, H', V', z', hf', mu'⟩) (a.oneBody_symm ha)
    (HamArgs.oneBody_symm (a := ⟨a.n, H', V', z', hf', mu'⟩) ha') h.on.mem (HamArgs.inter_symm ha) (fun s i j hi hj z hz => h.green s z hz i j hi hj) β
  have e1 : kinetic (fun s i j => a.oneBody s i j) + a.inter = a.ham := a.ham_inter.symm
  have e2 : kinetic (fun s i j => HamArgs.oneBody ⟨a.n, H', V', z', hf', mu'⟩ s i j) + a.inter = HamArgs.ham ⟨a.n, H', V', z', hf', mu'⟩ := by
    rw [HamArgs.ham_inter, hW]
  rw [e1, e2] at key
  exact ⟨fun s z hz i j hi hj => key.1 s i j hi hj z hz, fun s i hi => key.2 _ (mem_ca (onSites_orb hi) (onSites_orb hi))⟩

theorem Spec.SameCluster.pad (ha : a.Valid) (ha' : a'.Valid) (h : SameCluster a a' S) (hn : a'.n ≤ a.n) : SameCluster a (padded a' a.n) S where
  hf := h.hf
  on := h.on
  on' := by
    have key : ∀ (J : Option (ℕ → ℕ → ℝ)) (i j : ℕ), (J.map fun A i j => if i < a'.n ∧ j < a'.n then A i j else 0).getD (fun _ _ => 0) i j ≠ 0 →
        (i < a'.n ∧ j < a'.n) ∧ J.getD (fun _ _ => 0) i j ≠ 0 := fun J i j h0 => by
      rw [padded_getD] at h0
      by_cases hc : i < a'.n ∧ j < a'.n
      · rw [if_pos hc] at h0; exact ⟨hc, h0⟩
      · rw [if_neg hc] at h0; exact absurd rfl h0
    refine ⟨h.on.lt, fun i j _ _ h0 => ?_, fun i j _ _ hij h0 => ?_, fun i j _ _ hij h0 => ?_⟩
    · have := key a'.V.U i j h0
      exact h.on'.U i j this.1.1 this.1.2 this.2
    · have := key a'.V.Jx i j h0
      exact h.on'.Jx i j this.1.1 this.1.2 hij this.2
    · have := key a'.V.Jp i j h0
      exact h.on'.Jp i j this.1.1 this.1.2 hij this.2
  U i j hi hj := ((padded_first hn).U i j (h.on'.lt i hi) (h.on'.lt j hj)).symm.trans (h.U i j hi hj)
  z i hi := h.z i hi
  Jx i j hi hj := ((padded_first hn).Jx i j (h.on'.lt i hi) (h.on'.lt j hj)).symm.trans (h.Jx i j hi hj)
  Jp i j hi hj := ((padded_first hn).Jp i j (h.on'.lt i hi) (h.on'.lt j hj)).symm.trans (h.Jp i j hi hj)
  green s z hz i j hi hj := by
    rw [h.green s z hz i j hi hj]
    have hv := padded_valid ha' hn ha.le
    refine (resolvent_first hn (t := (padded a' a.n).oneBody s) (HamArgs.oneBody_symm hv s) (HamArgs.oneBody_symm ha' s) (fun k l => ?_) (fun k l hk => ?_) hz ⟨i, h.on'.lt i hi⟩ ⟨j, h.on'.lt j hj⟩).symm
    · change kept (n := a.n) a'.mu ((padded a' a.n).H (if s then 1 else 0)) (Fin.castLE hn k) (Fin.castLE hn l) = kept (n := a'.n) a'.mu (a'.H (if s then 1 else 0)) k l
      rw [kept_apply, kept_apply]
      by_cases hkl : k = l
      · subst hkl; simp [padded]
      · have : Fin.castLE hn k ≠ Fin.castLE hn l := fun e => hkl (Fin.castLE_injective hn e)
        rw [if_neg hkl, if_neg this]
        simp [padded]
    · change kept (n := a.n) a'.mu ((padded a' a.n).H (if s then 1 else 0)) k (Fin.castLE hn l) = 0
      rw [kept_apply]
      have : k ≠ Fin.castLE hn l := fun e => hk (by rw [e]; exact l.2)
      rw [if_neg this]
      simp [padded, hk]

theorem Spec.SameCluster.core_le (ha : a.Valid) (ha' : a'.Valid) (h : SameCluster a a' S) (hn : a'.n ≤ a.n) (β : ℝ) :
    (∀ (s : Bool) (z : ℂ), z.im ≠ 0 → ∀ (i j : ℕ) (hi : S i) (hj : S j), ∃ g, IsGreen β a.ham (ann ℝ (orb s ⟨i, h.on.lt i hi⟩)) (cre ℝ (orb s ⟨j, h.on.lt j hj⟩)) z g ∧
      IsGreen β a'.ham (ann ℝ (orb s ⟨i, h.on'.lt i hi⟩)) (cre ℝ (orb s ⟨j, h.on'.lt j hj⟩)) z g) ∧
    ∀ (s : Bool) (i : ℕ) (hi : S i), thermalOcc β a.ham s ⟨i, h.on.lt i hi⟩ = thermalOcc β a'.ham s ⟨i, h.on'.lt i hi⟩ := by
  have hv := padded_valid ha' hn ha.le
  obtain ⟨c1, c2⟩ := Spec.SameCluster.core_eq ha hv (h.pad ha ha' hn) β
  refine ⟨fun s z hz i j hi hj => ?_, fun s i hi => ?_⟩
  · obtain ⟨g, h1, h2⟩ := c1 s z hz ⟨i, h.on.lt i hi⟩ ⟨j, h.on.lt j hj⟩ hi hj
    obtain ⟨g', h1', h2'⟩ := (padded_first hn).green hv padded_detached β hz s ⟨i, h.on'.lt i hi⟩ ⟨j, h.on'.lt j hj⟩
    obtain ⟨u, E, hb⟩ := EigBasis.of_symm (show ((padded a' a.n).ham)ᵀ = _ from ham_symm hv)
    have e : g = g' := ((hb.green β _ _ hz _).mp h2).trans ((hb.green β _ _ hz _).mp h1').symm
    subst e
    exact ⟨g, h1, h2'⟩
  · exact (c2 s ⟨i, h.on.lt i hi⟩ hi).trans ((padded_first hn).occ hv padded_detached β s ⟨i, h.on'.lt i hi⟩)

theorem Spec.SameCluster.core (ha : a.Valid) (ha' : a'.Valid) (h : SameCluster a a' S) (β : ℝ) :
    (∀ (s : Bool) (z : ℂ), z.im ≠ 0 → ∀ (i j : ℕ) (hi : S i) (hj : S j), ∃ g, IsGreen β a.ham (ann ℝ (orb s ⟨i, h.on.lt i hi⟩)) (cre ℝ (orb s ⟨j, h.on.lt j hj⟩)) z g ∧
      IsGreen β a'.ham (ann ℝ (orb s ⟨i, h.on'.lt i hi⟩)) (cre ℝ (orb s ⟨j, h.on'.lt j hj⟩)) z g) ∧
    ∀ (s : Bool) (i : ℕ) (hi : S i), thermalOcc β a.ham s ⟨i, h.on.lt i hi⟩ = thermalOcc β a'.ham s ⟨i, h.on'.lt i hi⟩ := by
  rcases le_total a'.n a.n with hn | hn
  · exact h.core_le ha ha' hn β
  · obtain ⟨c1, c2⟩ := h.symm.core_le ha' ha hn β
    exact ⟨fun s z hz i j hi hj => (c1 s z hz i j hi hj).imp fun g hg => ⟨hg.2, hg.1⟩, fun s i hi => (c2 s i hi).symm⟩

/-- **C182** `build_gf2_exact`: all elements between sites of the cluster, for both spins. -/
theorem C182_gf2_exact (ha : a.Valid) (ha' : a'.Valid) (h : SameCluster a a' S) (hes : EigenEspace a.n a.ham es) (hes' : EigenEspace a'.n a'.ham es') (s : Bool) :
    ∃ G G', buildGf2Exact junk a.n es beta egs s = .ok G ∧ buildGf2Exact junk' a'.n es' beta egs' s = .ok G' ∧
      ∀ i j, S i → S j → ∀ e eta : ℝ, eta ≠ 0 → (G' i j).call e eta = (G i j).call e eta := by
  obtain ⟨G, h1, h2⟩ := C93_gf2_exact (junk := junk) (beta := beta) (egs := egs) ha.le hes s
  obtain ⟨G', h1', h2'⟩ := C93_gf2_exact (junk := junk') (beta := beta) (egs := egs') ha'.le hes' s
  refine ⟨G, G', h1, h1', fun i j hi hj e eta he => ?_⟩
  obtain ⟨x, q1, q2⟩ := (h.core ha ha' beta).1 s (e + Complex.I * eta) (by simpa using he) i j hi hj
  exact ((h2' ⟨i, h.on'.lt i hi⟩ ⟨j, h.on'.lt j hj⟩ e eta he _).mp q2).symm.trans ((h2 ⟨i, h.on.lt i hi⟩ ⟨j, h.on.lt j hj⟩ e eta he _).mp q1)

/-- **C182** `build_gf_exact` on a site of the cluster. -/
theorem C182_gf_exact (ha : a.Valid) (ha' : a'.Valid) (h : SameCluster a a' S) (hes : EigenEspace a.n a.ham es) (hes' : EigenEspace a'.n a'.ham es') {i : ℕ} (hi : S i) :
    ∃ g g', buildGfExact junk a.n es beta egs i false = .ok g ∧ buildGfExact junk' a'.n es' beta egs' i false = .ok g' ∧ ∀ e eta : ℝ, eta ≠ 0 → g'.call e eta = g.call e eta := by
  obtain ⟨g, h1, h2⟩ := C92_gf_exact (junk := junk) (beta := beta) (egs := egs) ha.le hes (h.on.lt i hi)
  obtain ⟨g', h1', h2'⟩ := C92_gf_exact (junk := junk') (beta := beta) (egs := egs') ha'.le hes' (h.on'.lt i hi)
  refine ⟨g, g', h1, h1', fun e eta he => ?_⟩
  obtain ⟨x, q1, q2⟩ := (h.core ha ha' beta).1 false (e + Complex.I * eta) (by simpa using he) i i hi hi
  rw [← (h2 e eta he _).mp q1, ← (h2' e eta he _).mp q2]

/-- **C182** `get_occupation`: both occupations of every site of the cluster. -/
theorem C182_occupation (ha : a.Valid) (ha' : a'.Valid) (h : SameCluster a a' S) (hes : EigenEspace a.n a.ham es) (hes' : EigenEspace a'.n a'.ham es')
    {occ occ' : List OccSct} (hocc : List.Forall₂ OccView es occ) (hocc' : List.Forall₂ OccView es' occ') :
    ∃ U D As U' D' As', getOccupation occ egs beta a.n = .ok (U, D, As) ∧ getOccupation occ' egs' beta a'.n = .ok (U', D', As') ∧ ∀ i, S i → U' i = U i ∧ D' i = D i := by
  obtain ⟨U, D, As, h1, h2⟩ := C101_get_occupation hes hocc egs beta
  obtain ⟨U', D', As', h1', h2'⟩ := C101_get_occupation hes' hocc' egs' beta
  have c := (h.core ha ha' beta).2
  refine ⟨U, D, As, U', D', As', h1, h1', fun i hi => ?_⟩
  have q := h2 ⟨i, h.on.lt i hi⟩
  have q' := h2' ⟨i, h.on'.lt i hi⟩
  exact ⟨Complex.ofReal_injective (q'.1.trans ((c false i hi).symm.trans q.1.symm)), Complex.ofReal_injective (q'.2.trans ((c true i hi).symm.trans q.2.symm))⟩

/-- **C182** `build_gf_lanczos` on a site of the cluster, up to the errors of the Lanczos runs, for both spins and both representations. -/
theorem C182_gf_lanczos {g g' : GfLArgs} (jk : ℝ) (ha : g.ham.Valid) (ha' : g'.ham.Valid) (h : SameCluster g.ham g'.ham S) {i : ℕ} (hi : S i)
    (hb : g'.beta = g.beta) (hsp : g'.ispin = g.ispin) (hw : g.ham.n ≤ g.w) (hw' : g'.ham.n ≤ g'.w) (hcfg : g.cfg.Ok) (hcfg' : g'.cfg.Ok)
    (hes : EigenEspace g.ham.n g.ham.ham es) (hes' : EigenEspace g'.ham.n g'.ham.ham es')
    {out out' : GfLOut} (hr : BuildGfLanczos g i false es (.ok out)) (hr' : BuildGfLanczos g' i false es' (.ok out')) (e eta ε : ℝ) (he : eta ≠ 0) (h0 : 0 ≤ ε)
    (hε : ∀ run ∈ out.log, run.ResLe ε) (hε' : ∀ run ∈ out'.log, run.ResLe ε) :
    ‖out'.gfe.call jk e eta - out.gfe.call jk e eta‖ ≤ 2 * (ε / eta ^ 2) + 2 * ((g.cfg.delta ^ 2 + g'.cfg.delta ^ 2) / |eta|) := by
  obtain ⟨cfg', rep', w', jk', ham', beta', egs', isp'⟩ := g'
  obtain rfl : beta' = g.beta := hb
  obtain rfl : isp' = g.ispin := hsp
  have hz : (e + Complex.I * eta : ℂ).im ≠ 0 := by simpa using he
  have l1 := h.on.lt i hi
  have l2 := h.on'.lt i hi
  obtain ⟨o, e1, -, -, -, q⟩ := (C98_gf_lanczos jk ha hw hcfg l1 hes false).2 _ hr
  injection e1 with e1; subst e1
  obtain ⟨o', e1', -, -, -, q'⟩ := (C98_gf_lanczos jk ha' hw' hcfg' l2 hes' false).2 _ hr'
  injection e1' with e1'; subst e1'
  obtain ⟨ge, gh, hp⟩ := greenParts_exist hes g.beta (ann ℝ (orb g.ispin ⟨i, l1⟩)) (cre ℝ (orb g.ispin ⟨i, l1⟩)) hz
  obtain ⟨ge', gh', hp'⟩ := greenParts_exist hes' g.beta (ann ℝ (orb g.ispin ⟨i, l2⟩)) (cre ℝ (orb g.ispin ⟨i, l2⟩)) hz
  have b1 := q e eta ε he h0 hε ge gh hp
  have b2 := q' e eta ε he h0 hε' ge' gh' hp'
  rw [if_neg (by simp)] at b1 b2
  obtain ⟨x, k1, k2⟩ := (h.core ha ha' g.beta).1 g.ispin _ hz i i hi hi
  have m1 := ((hes.basis.green g.beta _ _ hz _).mp (IsGreenParts.isGreen hp)).trans ((hes.basis.green g.beta _ _ hz _).mp k1).symm
  have m2 := ((hes'.basis.green g.beta _ _ hz _).mp (IsGreenParts.isGreen hp')).trans ((hes'.basis.green g.beta _ _ hz _).mp k2).symm
  rw [m1] at b1
  rw [m2] at b2
  rw [norm_sub_rev] at b1
  refine (norm_sub_le_norm_sub_add_norm_sub _ _ _).trans ((add_le_add b2 b1).trans (le_of_eq ?_))
  change ε / eta ^ 2 + 2 * (cfg'.delta ^ 2 / |eta|) + (ε / eta ^ 2 + 2 * (g.cfg.delta ^ 2 / |eta|)) = _
  ring

end

/-- A matrix that maps the one system into the other, and the sites `S` onto themselves, gives the resolvent between these sites. -/
theorem resolvent_intertwine {k n : ℕ} {t : Matrix (Fin n) (Fin n) ℝ} {t' : Matrix (Fin k) (Fin k) ℝ} (hs : t.IsSymm) (hs' : t'.IsSymm) (V : Matrix (Fin n) (Fin k) ℝ) (hV : t * V = V * t')
    {z : ℂ} (hz : z.im ≠ 0) {i j : Fin n} {i' j' : Fin k} (hi : ∀ l, V i l = if l = i' then 1 else 0) (hj : ∀ l, V l j' = if l = j then 1 else 0) : resolvent z t i j = resolvent z t' i' j' := by
  have e1 : (z • (1 : Matrix (Fin n) (Fin n) ℂ) - t.map Complex.ofReal) * V.map Complex.ofReal = V.map Complex.ofReal * (z • (1 : Matrix (Fin k) (Fin k) ℂ) - t'.map Complex.ofReal) := by
    rw [Matrix.sub_mul, Matrix.mul_sub, Matrix.smul_mul, Matrix.mul_smul, Matrix.one_mul, Matrix.mul_one]
    congr 1
    have := congrArg (fun M : Matrix (Fin n) (Fin k) ℝ => M.map Complex.ofRealHom) hV
    simp only [Matrix.map_mul] at this
    exact this
  have u1 := isUnit_shifted hs hz
  have u2 := isUnit_shifted hs' hz
  have e2 : resolvent z t * V.map Complex.ofReal = V.map Complex.ofReal * resolvent z t' := by
    unfold Spec.resolvent
    have h2 : V.map Complex.ofReal = (z • (1 : Matrix (Fin n) (Fin n) ℂ) - t.map Complex.ofReal)⁻¹ * (V.map Complex.ofReal * (z • (1 : Matrix (Fin k) (Fin k) ℂ) - t'.map Complex.ofReal)) := by
      rw [← e1, ← Matrix.mul_assoc, Matrix.nonsing_inv_mul _ u1, Matrix.one_mul]
    conv_rhs => rw [h2, Matrix.mul_assoc, Matrix.mul_assoc, Matrix.mul_nonsing_inv _ u2, Matrix.mul_one]
  have e3 := congrFun (congrFun e2 i) j'
  rw [Matrix.mul_apply, Matrix.mul_apply] at e3
  simp only [Matrix.map_apply, hi, hj] at e3
  rw [Finset.sum_eq_single j (fun b _ hb => by rw [if_neg hb, Complex.ofReal_zero, mul_zero]) (by simp), Finset.sum_eq_single i' (fun b _ hb => by rw [if_neg hb, Complex.ofReal_zero, zero_mul]) (by simp),
    if_pos rfl, if_pos rfl, Complex.ofReal_one, mul_one, one_mul] at e3
  exact e3

/-- Two sites with hopping, on-site and inter-site interaction, the second with a bath of two levels at the same energy, with couplings 3/10 and 4/10. -/
noncomputable def dimerTwo (U V : ℝ) : HamArgs :=
  ⟨4, fun _ i j => if i = j then (if i < 2 then -1 else 2) else if (i = 0 ∧ j = 1) ∨ (i = 1 ∧ j = 0) then 1 else if (i = 1 ∧ j = 2) ∨ (i = 2 ∧ j = 1) then 3 / 10 else
    if (i = 1 ∧ j = 3) ∨ (i = 3 ∧ j = 1) then 4 / 10 else 0, .array fun i j => if i < 2 ∧ j < 2 then (if i = j then U else V) else 0, none, false, 0⟩

/-- The same two sites with a bath of one level, with coupling 5/10. -/
noncomputable def dimerOne (U V : ℝ) : HamArgs :=
  ⟨3, fun _ i j => if i = j then (if i < 2 then -1 else 2) else if (i = 0 ∧ j = 1) ∨ (i = 1 ∧ j = 0) then 1 else if (i = 1 ∧ j = 2) ∨ (i = 2 ∧ j = 1) then 5 / 10 else 0,
    .array fun i j => if i < 2 ∧ j < 2 then (if i = j then U else V) else 0, none, false, 0⟩

theorem dimerTwo_valid (U V : ℝ) : (dimerTwo U V).Valid := by
  refine ⟨by simp [dimerTwo], by simp [dimerTwo], rfl, fun s i j _ _ => ?_, by simp [dimerTwo, VArg.array], by simp [dimerTwo, VArg.array], fun _ => rfl⟩
  simp only [dimerTwo]
  by_cases h : i = j
  · subst h; rfl
  · simp only [if_neg h, if_neg (Ne.symm h), or_comm, and_comm]

theorem dimerOne_valid (U V : ℝ) : (dimerOne U V).Valid := by
  refine ⟨by simp [dimerOne], by simp [dimerOne], rfl, fun s i j _ _ => ?_, by simp [dimerOne, VArg.array], by simp [dimerOne, VArg.array], fun _ => rfl⟩
  simp only [dimerOne]
  by_cases h : i = j
  · subst h; rfl
  · simp only [if_neg h, if_neg (Ne.symm h), or_comm, and_comm]

theorem dimer_resolvent {z : ℂ} (hz : z.im ≠ 0) (i j : ℕ) (hi : i < 2) (hj : j < 2) :
    resolvent z (!![-1, 1, 0, 0; 1, -1, 3 / 10, 4 / 10; 0, 3 / 10, 2, 0; 0, 4 / 10, 0, 2] : Matrix (Fin 4) (Fin 4) ℝ) ⟨i, by omega⟩ ⟨j, by omega⟩ = resolvent z (!![-1, 1, 0; 1, -1, 5 / 10; 0, 5 / 10, 2] : Matrix (Fin 3) (Fin 3) ℝ) ⟨i, by omega⟩ ⟨j, by omega⟩ := by
  refine resolvent_intertwine ?_ ?_ (!![1, 0, 0; 0, 1, 0; 0, 0, 3 / 5; 0, 0, 4 / 5] : Matrix (Fin 4) (Fin 3) ℝ) ?_ hz (fun l => ?_) (fun l => ?_)
  · ext i j; fin_cases i <;> fin_cases j <;> rfl
  · ext i j; fin_cases i <;> fin_cases j <;> rfl
  · ext i j
    rw [Matrix.mul_apply, Matrix.mul_apply]
    fin_cases i <;> fin_cases j <;> simp [Fin.sum_univ_succ] <;> norm_num
  · obtain rfl | rfl : i = 0 ∨ i = 1 := by omega
    all_goals (fin_cases l <;> simp)
  · obtain rfl | rfl : j = 0 ∨ j = 1 := by omega
    all_goals (fin_cases l <;> simp)

theorem dimerTwo_oneBody (U V : ℝ) (s : Bool) : (dimerTwo U V).oneBody s = (!![-1, 1, 0, 0; 1, -1, 3 / 10, 4 / 10; 0, 3 / 10, 2, 0; 0, 4 / 10, 0, 2] : Matrix (Fin 4) (Fin 4) ℝ) := by
  have a3 : (1 / 10 ^ 7 : ℝ) < |3 / 10| := by rw [abs_of_pos] <;> norm_num
  have a4 : (1 / 10 ^ 7 : ℝ) < |4 / 10| := by rw [abs_of_pos] <;> norm_num
  have k : ∀ i j : Fin 4, kept (n := 4) 0 ((dimerTwo U V).H (if s then 1 else 0)) i j = (!![-1, 1, 0, 0; 1, -1, 3 / 10, 4 / 10; 0, 3 / 10, 2, 0; 0, 4 / 10, 0, 2] : Matrix (Fin 4) (Fin 4) ℝ) i j := by
    intro i j
    rw [kept_apply]
    fin_cases i <;> fin_cases j <;> simp [dimerTwo] <;> norm_num
  ext i j
  exact k i j

theorem dimerOne_oneBody (U V : ℝ) (s : Bool) : (dimerOne U V).oneBody s = (!![-1, 1, 0; 1, -1, 5 / 10; 0, 5 / 10, 2] : Matrix (Fin 3) (Fin 3) ℝ) := by
  have a5 : (1 / 10 ^ 7 : ℝ) < |5 / 10| := by rw [abs_of_pos] <;> norm_num
  have k : ∀ i j : Fin 3, kept (n := 3) 0 ((dimerOne U V).H (if s then 1 else 0)) i j = (!![-1, 1, 0; 1, -1, 5 / 10; 0, 5 / 10, 2] : Matrix (Fin 3) (Fin 3) ℝ) i j := by
    intro i j
    rw [kept_apply]
    fin_cases i <;> fin_cases j <;> simp [dimerOne] <;> norm_num
  ext i j
  exact k i j

/-- The interaction of the dimer does not depend on whether its bath is one level or two. -/
example (U V : ℝ) : (dimerTwo U V).Valid ∧ (dimerOne U V).Valid ∧ SameCluster (dimerTwo U V) (dimerOne U V) (· < 2) ∧ (∃ es, EigenEspace 4 (dimerTwo U V).ham es) := by
  have key : ∀ i j : ℕ, (if i < 2 ∧ j < 2 then (if i = j then U else V) else 0) ≠ 0 → i < 2 ∧ j < 2 := fun i j h => by
    by_contra hc; rw [if_neg hc] at h; exact h rfl
  refine ⟨dimerTwo_valid U V, dimerOne_valid U V, ⟨rfl, ⟨fun i hi => ?_, fun i j _ _ h => key i j h, fun i j _ _ _ h => absurd rfl h, fun i j _ _ _ h => absurd rfl h⟩,
    ⟨fun i hi => ?_, fun i j _ _ h => key i j h, fun i j _ _ _ h => absurd rfl h, fun i j _ _ _ h => absurd rfl h⟩, fun _ _ _ _ => rfl, fun _ _ => rfl, fun _ _ _ _ => rfl, fun _ _ _ _ => rfl,
    fun s z hz i j hi hj => ?_⟩, eigenEspace_exists (dimerTwo_valid U V)⟩
  · exact lt_trans hi (by simp [dimerTwo])
  · exact lt_trans hi (by simp [dimerOne])
  · exact (congrArg (fun M : Matrix (Fin 4) (Fin 4) ℝ => resolvent z M ⟨i, by omega⟩ ⟨j, by omega⟩) (dimerTwo_oneBody U V s)).trans ((dimer_resolvent hz i j hi hj).trans
      (congrArg (fun M : Matrix (Fin 3) (Fin 3) ℝ => resolvent z M ⟨i, by omega⟩ ⟨j, by omega⟩) (dimerOne_oneBody U V s)).symm)

end Edpyt
