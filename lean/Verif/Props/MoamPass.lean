import Verif.Model.MoamPass
import Verif.Spec.MoamPass
import Verif.Spec.PlainHam
import Verif.Props.DedPass
import Verif.Props.Variational
import Verif.Props.Decouple
/-!
# C186: one pass of `moam_solve`
-/
namespace Edpyt
open Spec Matrix

/-- Only the elements of the impurities, `OfImp`, are not zero. -/
def MoamClean (nimp nb n : ℕ) (H : ℕ → ℕ → ℝ) : Prop := ∀ r c, r < n → c < n → (∀ i < nimp, ¬ OfImp nimp nb i r c) → H r c = 0

theorem OfImp.symm {nimp nb i r c : ℕ} (h : OfImp nimp nb i r c) : OfImp nimp nb i c r := by
  rcases h with ⟨h1, h2⟩ | ⟨k, hk, h⟩
  · exact Or.inl ⟨h2, h1⟩
  · refine Or.inr ⟨k, hk, ?_⟩
    rcases h with ⟨h1, h2⟩ | ⟨h1, h2⟩ | ⟨h1, h2⟩
    · exact Or.inr (Or.inl ⟨h2, h1⟩)
    · exact Or.inl ⟨h2, h1⟩
    · exact Or.inr (Or.inr ⟨h2, h1⟩)

theorem bathIx_lt {n nimp nb i k : ℕ} (hn : n = nimp + nimp * nb) (hi : i < nimp) (hk : k < nb) : bathIx nimp nb i k < n := by
  have : (i + 1) * nb ≤ nimp * nb := Nat.mul_le_mul_right _ hi
  rw [Nat.succ_mul] at this
  unfold bathIx
  omega

theorem HoldsImp.congr {n nimp nb i : ℕ} {g : Gfimp} {H H' : ℕ → ℕ → ℝ} (hn : n = nimp + nimp * nb) (hi : i < nimp) (h : HoldsImp nimp nb i g H)
    (he : ∀ r c, r < n → c < n → OfImp nimp nb i r c → H' r c = H r c) : HoldsImp nimp nb i g H' := by
  have hin : i < n := by omega
  have hlt : ∀ k < nb, bathIx nimp nb i k < n := fun k hk => bathIx_lt hn hi hk
  exact ⟨by rw [he i i hin hin (Or.inl ⟨rfl, rfl⟩)]; exact h.level,
    fun k hk => by rw [he _ _ hin (hlt k hk) (Or.inr ⟨k, hk, Or.inl ⟨rfl, rfl⟩⟩)]; exact h.row k hk,
    fun k hk => by rw [he _ _ (hlt k hk) hin (Or.inr ⟨k, hk, Or.inr (Or.inl ⟨rfl, rfl⟩)⟩)]; exact h.col k hk,
    fun k hk => by rw [he _ _ (hlt k hk) (hlt k hk) (Or.inr ⟨k, hk, Or.inr (Or.inr ⟨rfl, rfl⟩)⟩)]; exact h.bath k hk⟩

/-- `build_moam` on the array that an earlier pass left. -/
theorem buildMoam_again {n nb : ℕ} {gs : List Gfimp} {H : ℕ → ℕ → ℝ} (hn : n = gs.length + gs.length * nb) (hlen : ∀ g ∈ gs, g.vk2.length = nb ∧ g.ek.length = nb)
    (hH : MoamClean gs.length nb n H) :
    ∃ H', buildMoam n H gs = .ok H' ∧ (∀ i (hi : i < gs.length), HoldsImp gs.length nb i gs[i] H') ∧ MoamClean gs.length nb n H' := by
  unfold buildMoam
  obtain ⟨nimp, hN⟩ : ∃ k, k = gs.length := ⟨_, rfl⟩
  rw [← hN] at hn hH
  have key : ∀ (l : List Gfimp) (q : ℕ) (H : ℕ → ℕ → ℝ), q + l.length = nimp → (∀ j (hj : j < l.length), ∃ hq : q + j < gs.length, l[j] = gs[q + j]) →
      (∀ i (hi : i < gs.length), i < q → HoldsImp nimp nb i gs[i] H) → MoamClean nimp nb n H →
      ∃ H', forM' (moamStep n nimp) (l.zipIdx q) H = .ok H' ∧ (∀ i (hi : i < gs.length), HoldsImp nimp nb i gs[i] H') ∧ MoamClean nimp nb n H' := by
    intro l
    induction l with
    | nil =>
      intro q H hq _ h1 h2
      have : q = nimp := by simpa using hq
      subst this
      exact ⟨H, rfl, fun i hi => h1 i hi (by omega), h2⟩
    | cons g l ih =>
      intro q H hq hg h1 h2
      simp only [List.length_cons] at hq
      obtain ⟨hq0, hg0⟩ := hg 0 (by simp)
      simp only [List.getElem_cons_zero, add_zero] at hg0 hq0
      obtain ⟨hv, he⟩ := hlen g (by rw [hg0]; exact List.getElem_mem _)
      obtain ⟨H1, e1, e2, e3⟩ := moamStep_spec (H := H) hn (show q < nimp by omega) hv he
      obtain ⟨H', f1, f2⟩ := ih (q + 1) H1 (by omega) (fun j hj => by
        obtain ⟨a, b⟩ := hg (j + 1) (by simpa using hj)
        refine ⟨by omega, ?_⟩
        simpa [show q + (j + 1) = q + 1 + j by ring] using b) (fun i hi hiq => by
        rcases Nat.lt_succ_iff_lt_or_eq.mp hiq with hlt | rfl
        · refine (h1 i hi hlt).congr hn (by omega) fun r c hr hc ha => e3 r c hr hc fun hb => ?_
          have := ofImp_disjoint (by omega) (by omega) ha hb
          omega
        · rw [← hg0]; exact e2) (fun r c hr hc hno => by
        rw [e3 r c hr hc (hno q (by omega))]
        exact h2 r c hr hc hno)
      refine ⟨H', ?_, f2⟩
      rw [List.zipIdx_cons]
      unfold forM'
      rw [e1]
      exact f1
  obtain ⟨H', a, b, c⟩ := key gs 0 H (by omega) (fun j hj => ⟨by omega, by simp⟩) (fun i _ h => absurd h (by omega)) hH
  subst hN
  exact ⟨H', a, b, c⟩

theorem subImp_eq {n nimp : ℕ} (hle : nimp ≤ n) (s : ℕ → ℝ) (H : ℕ → ℕ → ℝ) {r c : ℕ} (hr : r < n) (hc : c < n) :
    subImp n nimp s H r c = if r = c ∧ r < nimp then H r c - s r else H r c := by
  unfold subImp
  obtain ⟨h1, h2⟩ := flat_diag hr hc
  by_cases h : r = c
  · subst h
    have e : r * n + r = r * (n + 1) := by ring
    have hlt : r * n + r < nimp * (n + 1) ↔ r < nimp := by rw [e]; exact Nat.mul_lt_mul_right (Nat.succ_pos n)
    by_cases hi : r < nimp
    · rw [if_pos ⟨hlt.mpr hi, h1.mpr rfl⟩, if_pos ⟨rfl, hi⟩, h2 rfl]
    · rw [if_neg (fun hh => hi (hlt.mp hh.1)), if_neg (fun hh => hi hh.2)]
  · rw [if_neg (fun hh => h (h1.mp hh.2)), if_neg (fun hh => h hh.1)]

section
variable {n nimp nb : ℕ} {H : ℕ → ℕ → ℝ} {s : ℕ → ℝ}

theorem HoldsImp.sub {i : ℕ} {g : Gfimp} (hn : n = nimp + nimp * nb) (hi : i < nimp) (h : HoldsImp nimp nb i g H) :
    HoldsImp nimp nb i { g with e0 := g.e0 - s i } (subImp n nimp s H) := by
  have hin : i < n := by omega
  have hlt : ∀ k < nb, bathIx nimp nb i k < n := fun k hk => bathIx_lt hn hi hk
  have hge : ∀ k, nimp ≤ bathIx nimp nb i k := fun k => by unfold bathIx; omega
  have hle : nimp ≤ n := by omega
  refine ⟨?_, fun k hk => ?_, fun k hk => ?_, fun k hk => ?_⟩
  · rw [subImp_eq hle s H hin hin, if_pos ⟨rfl, hi⟩, h.level]
  · rw [subImp_eq hle s H hin (hlt k hk), if_neg (fun hh => by have := hge k; omega), h.row k hk]
  · rw [subImp_eq hle s H (hlt k hk) hin, if_neg (fun hh => by have := hge k; omega), h.col k hk]
  · rw [subImp_eq hle s H (hlt k hk) (hlt k hk), if_neg (fun hh => by have := hge k; omega), h.bath k hk]

theorem MoamClean.sub (hn : n = nimp + nimp * nb) (h : MoamClean nimp nb n H) : MoamClean nimp nb n (subImp n nimp s H) := by
  intro r c hr hc hno
  rw [subImp_eq (by omega) s H hr hc, if_neg, h r c hr hc hno]
  rintro ⟨rfl, hi⟩
  exact hno r hi (Or.inl ⟨rfl, rfl⟩)

/-- An interaction that `build_espace` accepts: it has `U`, the exchange matrices are symmetric, and there is no pair hopping without spin exchange. -/
structure MoamUOk (nimp : ℕ) (U : VArg ℝ) : Prop where
  hU : U.U.isSome
  symmX : ∀ A ∈ U.Jx, ∀ i j, i < nimp → j < nimp → A i j = A j i
  symmP : ∀ A ∈ U.Jp, ∀ i j, i < nimp → j < nimp → A i j = A j i
  hJ : U.Jx = none → U.Jp = none

theorem holds_symm {gs : ℕ → Gfimp} (hh : ∀ i < nimp, HoldsImp nimp nb i (gs i) H) (hc : MoamClean nimp nb n H) {r c : ℕ} (hr : r < n) (hcn : c < n) : H r c = H c r := by
  by_cases h : ∃ i < nimp, OfImp nimp nb i r c
  · obtain ⟨i, hi, h⟩ := h
    rcases h with ⟨rfl, rfl⟩ | ⟨k, hk, ⟨rfl, rfl⟩ | ⟨rfl, rfl⟩ | ⟨rfl, rfl⟩⟩
    · rfl
    · rw [(hh _ hi).row k hk, (hh _ hi).col k hk]
    · rw [(hh _ hi).row k hk, (hh _ hi).col k hk]
    · rfl
  · rw [hc r c hr hcn fun i hi ho => h ⟨i, hi, ho⟩, hc c r hcn hr fun i hi ho => h ⟨i, hi, ho.symm⟩]

theorem moamArgs_valid {V : VArg ℝ} {gs : ℕ → Gfimp} (h2 : 2 ≤ n) (h32 : n ≤ 32) (hh : ∀ i < nimp, HoldsImp nimp nb i (gs i) H) (hc : MoamClean nimp nb n H) (hU : MoamUOk n V) :
    (moamArgs n H V).Valid :=
  ⟨h2, h32, hU.hU, fun _ _ _ hi hj => holds_symm hh hc hi hj, hU.symmX, hU.symmP, hU.hJ⟩

theorem moamV_ok {U : VArg ℝ} (h : MoamUOk nimp U) (n : ℕ) : MoamUOk n (moamV nimp U) := by
  have hp : ∀ J : Option (ℕ → ℕ → ℝ), (∀ A ∈ J, ∀ i j, i < nimp → j < nimp → A i j = A j i) →
      ∀ A ∈ J.map (fun A i j => if i < nimp ∧ j < nimp then A i j else 0), ∀ i j, i < n → j < n → A i j = A j i := by
    intro J hJ A hA i j _ _
    obtain ⟨B, hB, rfl⟩ := Option.mem_map.mp hA
    dsimp only
    by_cases hij : i < nimp ∧ j < nimp
    · rw [if_pos hij, if_pos hij.symm, hJ B hB i j hij.1 hij.2]
    · rw [if_neg hij, if_neg (fun hh => hij hh.symm)]
  refine ⟨?_, hp _ h.symmX, hp _ h.symmP, fun hx => ?_⟩
  · have := h.hU
    unfold moamV
    simpa using this
  · unfold moamV at hx ⊢
    simp only [Option.map_eq_none_iff] at hx ⊢
    exact h.hJ hx

/-- The occupation that `get_occupation` computes from the coefficients of a state of a sector. -/
theorem occupation_ket {p q : ℕ} {up dw : List ℕ} (hu : SectorList n p up) (hd : SectorList n q dw) (v : ℕ → ℝ) {k : ℕ} (hk : k < n) :
    dedOccupation v up dw k = .ok (siteOcc n (Spec.ket n up dw v) k) := by
  rw [C90_occupation, siteOcc, dif_pos hk, num_up_ket hu hd, num_dw_ket hu hd]
  congr 1
  rw [Finset.sum_congr rfl fun i _ => Finset.sum_congr rfl fun j _ => mul_add _ _ _]
  simp only [Finset.sum_add_distrib]
  congr 1
  · refine Finset.sum_congr rfl fun i _ => ?_
    rw [Finset.mul_sum]
    refine Finset.sum_congr rfl fun j _ => ?_
    rw [mul_comm j]
    cases (up[i]?.getD 0).testBit k <;> simp [sq]
  · rw [Finset.sum_comm]
    refine Finset.sum_congr rfl fun j _ => ?_
    rw [Finset.mul_sum]
    refine Finset.sum_congr rfl fun i _ => ?_
    rw [mul_comm j]
    cases (dw[j]?.getD 0).testBit k <;> simp [sq]

theorem moam_mapM {α β : Type} {f : α → Except PyErr β} {g : α → β} : ∀ (l : List α), (∀ x ∈ l, f x = .ok (g x)) → l.mapM f = .ok (l.map g) := by
  intro l
  induction l with
  | nil => intro _; rfl
  | cons a l ih =>
    intro h
    rw [List.mapM_cons, h a (by simp), ih fun x hx => h x (by simp [hx])]
    rfl

/-- What a run of `build_espace` gives to the rest of the pass: a state within `1e-7` of the lowest energy and its occupations. -/
theorem espace_occs {a : HamArgs} {w : ℕ} (ha : a.Valid) (hw : a.n ≤ w) (hn : a.n = nimp + nimp * nb) {es : Espace (ℕ × ℕ)} {E0 : WithTop ℝ} (h : BuildEspace w a none (.ok (es, E0))) :
    ∃ p, firstGround (E0.untopD 0) es = .ok p ∧ ∃ ψ, GroundWithin a.ham (1 / 10 ^ 7) ψ ∧
      moamOccs nimp nb p.2 = .ok ((List.range nimp).map fun i => (subsystemPos nimp nb i).map (siteOcc a.n ψ)) := by
  have hes := buildEspace_eigen ha hw h
  have hat : ∀ p ∈ es, p.1.1 ≤ a.n ∧ p.1.2 ≤ a.n ∧ sctAt es p.1 = p.2 := fun p hp => by
    obtain ⟨h1, h2, h3⟩ := sctAt_of_mem hes (p := p.1.1) (q := p.1.2) (I := p.2) hp
    exact ⟨h2, h3, h1⟩
  have hne : ∀ p ∈ es, p.2.eigvals ≠ [] := fun p hp h0 => by
    obtain ⟨h1, h2, h3⟩ := hat p hp
    obtain ⟨-, -, -, -, -, -, -, hlen⟩ := hes.toCompleteEspace.at h1 h2
    rw [show ((p.1.1, p.1.2) : ℕ × ℕ) = p.1 from rfl, h3, h0] at hlen
    have := Nat.mul_pos (Nat.choose_pos h1) (Nat.choose_pos h2)
    rw [List.length_nil] at hlen
    exact absurd hlen this.ne
  obtain ⟨E, rfl, hE⟩ := buildEspace_least ha hw h
  obtain ⟨p, hp, h1, x, l, h2, hx⟩ := firstGround_ok hne (fun p hp => buildEspace_sorted ha hw h (k := p.1) (I := p.2) hp) hE
  obtain ⟨up, dw, hok, hcomp⟩ := hes.ok p hp
  have hlen0 : 0 < p.2.eigvals.length := by rw [h2]; simp
  refine ⟨p, h1, p.2.ket a.n 0, ⟨ket_norm ⟨⟨up, dw, hok⟩, hes.eig p hp⟩ hcomp hlen0, x, ?_, ?_⟩, ?_⟩
  · have := hes.eig p hp 0 hlen0
    rw [h2] at this
    simpa using this
  · intro E' φ hφ hH
    have : E ≤ E' := by
      have h3 := (C127_variational ha hw h).1 φ
      rw [hH, dotProduct_smul, smul_eq_mul] at h3
      exact le_of_mul_le_mul_right h3 (lt_of_le_of_ne (Finset.sum_nonneg fun i _ => mul_self_nonneg _) fun h0 => hφ (dotProduct_self_eq_zero.mp h0.symm))
    have := (abs_lt.mp hx).2
    linarith
  · unfold moamOccs
    rw [hok.states, hok.ket_eq]
    have hl := hok.len
    cases hv : p.2.eigvecs with
    | nil => rw [hv, h2] at hl; simp at hl
    | cons v vs =>
      dsimp only
      refine moam_mapM _ fun i hi => moam_mapM _ fun k hk => ?_
      have hi := List.mem_range.mp hi
      have hkn : k < a.n := by
        unfold subsystemPos at hk
        rcases List.mem_cons.mp hk with rfl | hk
        · omega
        · obtain ⟨h1, h2⟩ := List.mem_range'_1.mp hk
          have : (i + 1) * nb ≤ nimp * nb := Nat.mul_le_mul_right _ hi
          rw [Nat.succ_mul] at this
          omega
      exact occupation_ket hok.hup hok.hdw v hkn

theorem moam_occs {V : VArg ℝ} {w : ℕ} (ha : (moamArgs n H V).Valid) (hw : n ≤ w) (hn : n = nimp + nimp * nb) {es : Espace (ℕ × ℕ)} {E0 : WithTop ℝ}
    (h : BuildEspace w (moamArgs n H V) none (.ok (es, E0))) :
    ∃ p, firstGround (E0.untopD 0) es = .ok p ∧ ∃ ψ : Finset (Fin (n + n)) → ℝ, GroundWithin (ι := Finset (Fin (n + n))) (moamArgs n H V).ham (1 / 10 ^ 7) ψ ∧
      moamOccs nimp nb p.2 = .ok ((List.range nimp).map fun i => (subsystemPos nimp nb i).map (siteOcc n ψ)) := espace_occs ha hw hn h

theorem subOcc_sum (m : ℕ) (ψ : Finset (Fin (m + m)) → ℝ) (i : ℕ) : ((subsystemPos nimp nb i).map (siteOcc m ψ)).sum = subOcc nimp nb m ψ i := by
  unfold subsystemPos subOcc
  rw [List.map_cons, List.sum_cons, List.range'_eq_map_range, List.map_map, ← ded_sum_map_range]
  congr 3
  funext k
  simp only [Function.comp]
  congr 1
  ring

/-- The loop over the impurities: it returns, with a sample for exactly the impurities that fulfil the condition, and every Green function is that of the shared Hamiltonian. -/
theorem moamLoop_spec {g : GfLArgs} {acc : ℕ → Prop} {mk : ℕ → GfLOut → MoamSample} {es0 : Espace (ℕ × ℕ)} (jk : ℝ) (ha : g.ham.Valid) (hw : g.ham.n ≤ g.w) (hc : g.cfg.Ok)
    (h0 : EigenEspace g.ham.n g.ham.ham es0) {κ : ℝ} (hκ : 0 ≤ κ) : ∀ (l : List ℕ) (es : Espace (ℕ × ℕ)), (∀ i ∈ l, i < g.ham.n) → SubEspace g.ham.n g.ham.ham es →
      1 ≤ partition es g.beta g.egs → partition es0 g.beta g.egs - partition es g.beta g.egs ≤ κ →
      (∃ r, MoamLoop g acc mk l es r) ∧ ∀ r, MoamLoop g acc mk l es r → ∃ smps, r = .ok smps ∧ smps.length = l.length ∧
        ∀ j (hj : j < l.length), (¬ acc l[j] ∧ smps[j]? = some none) ∨ (acc l[j] ∧ ∃ out, smps[j]? = some (some (mk l[j] out)) ∧
          ∀ (hpos : l[j] < g.ham.n) (e eta ε : ℝ), eta ≠ 0 → 0 ≤ ε → (∀ run ∈ out.log, run.ResLe ε) → ∀ gr,
            IsGreen g.beta g.ham.ham (ann ℝ (orb g.ispin (⟨l[j], hpos⟩ : Fin g.ham.n))) (cre ℝ (orb g.ispin (⟨l[j], hpos⟩ : Fin g.ham.n))) (e + Complex.I * eta) gr →
            ‖out.gfe.call jk e eta - gr‖ ≤ ε / eta ^ 2 + 2 * (g.cfg.delta ^ 2 / |eta|) + 2 * κ / |eta|) := by
  intro l
  induction l with
  | nil =>
    intro es _ _ _ _
    refine ⟨⟨_, rfl⟩, fun r hr => ⟨[], hr, rfl, fun j hj => absurd hj (by simp)⟩⟩
  | cons i l ih =>
    intro es hl hes k1 k2
    have hi : i < g.ham.n := hl i (by simp)
    have hl' : ∀ i ∈ l, i < g.ham.n := fun j hj => hl j (by simp [hj])
    obtain ⟨t1, t2⟩ := C118_truncated jk ha hw hc hi h0 hes (by linarith)
    have hgrow : ∀ out, BuildGfLanczos g i false es (.ok out) → SubEspace g.ham.n g.ham.ham out.es ∧ partition es g.beta g.egs ≤ partition out.es g.beta g.egs := by
      intro out hx
      obtain ⟨out', e1, e2, -, -, -, hZ, -⟩ := gfBuild_sub (jk := jk) ha hw hc hi h0 hes hx
      injection e1 with e1; subst e1
      exact ⟨e2, by rw [gfBuild_Z hx] at hZ; exact hZ⟩
    constructor
    · by_cases hacc : acc i
      · obtain ⟨r, hr⟩ : ∃ r, BindR (BuildGfLanczos g i false es) (fun out => BindR (MoamLoop g acc mk l out.es) fun rest => DetR (.ok (some (mk i out) :: rest))) r := by
          refine bindR_exists t1 fun out hx => ?_
          obtain ⟨s1, s2⟩ := hgrow out hx
          exact bindR_exists (ih out.es hl' s1 (by linarith) (by linarith)).1 fun _ _ => ⟨_, rfl⟩
        exact ⟨r, Or.inl ⟨hacc, hr⟩⟩
      · obtain ⟨r, hr⟩ : ∃ r, BindR (MoamLoop g acc mk l es) (fun rest => DetR (.ok (none :: rest))) r :=
          bindR_exists (ih es hl' hes k1 k2).1 fun _ _ => ⟨_, rfl⟩
        exact ⟨r, Or.inr ⟨hacc, hr⟩⟩
    · rintro r (⟨hacc, hr⟩ | ⟨hacc, hr⟩)
      · rcases hr with ⟨out, hx, hr⟩ | ⟨e, hx, -⟩
        swap
        · obtain ⟨out, e1, -⟩ := t2 _ hx
          cases e1
        obtain ⟨s1, s2⟩ := hgrow out hx
        obtain ⟨-, ih2⟩ := ih out.es hl' s1 (by linarith) (by linarith)
        rcases hr with ⟨rest, hy, hr⟩ | ⟨e, hy, -⟩
        swap
        · obtain ⟨out, e1, -⟩ := ih2 _ hy
          cases e1
        obtain ⟨smps, e1, e2, e3⟩ := ih2 _ hy
        injection e1 with e1; subst e1
        refine ⟨_, hr, by simp [e2], fun j hj => ?_⟩
        cases j with
        | zero =>
          refine Or.inr ⟨hacc, out, rfl, fun hpos e eta ε he hε hlog gr hg => ?_⟩
          obtain ⟨out', e1, -, -, -, -, hb⟩ := t2 _ hx
          injection e1 with e1; subst e1
          have := hb e eta ε he hε hlog gr hg
          have h3 := loss_le (Z0 := partition es0 g.beta g.egs) (K := partition es g.beta g.egs) (κ := κ) he k1 hκ k2
          linarith
        | succ j => exact e3 j (by simpa using hj)
      · obtain ⟨-, ih2⟩ := ih es hl' hes k1 k2
        rcases hr with ⟨rest, hy, hr⟩ | ⟨e, hy, -⟩
        swap
        · obtain ⟨out, e1, -⟩ := ih2 _ hy
          cases e1
        obtain ⟨smps, e1, e2, e3⟩ := ih2 _ hy
        injection e1 with e1; subst e1
        refine ⟨_, hr, by simp [e2], fun j hj => ?_⟩
        cases j with
        | zero => exact Or.inl ⟨hacc, rfl⟩
        | succ j => exact e3 j (by simpa using hj)

end

variable {fsolve : (ℝ → ℝ) → ℝ → ℝ} {cfg : LancCfg} {w junk n nb : ℕ} {jk : ℝ} {U : VArg ℝ} {sigma0 : ℕ → ℝ} {beta : ℝ} {poles : List (List ℝ)} {H : ℕ → ℕ → ℝ}

/-- **C186** One pass of `moam_solve`, for every number of impurities and bath sites, every interaction and every draw of poles, on the array that the passes before it left: it returns. The array
then holds, for each impurity, the fitted bath and the mean of the poles minus `sigma0`, and nothing else. There is a ground state (up to `1e-7` in energy) without and one with interaction such that
an impurity gets a sample exactly if the numbers of electrons on it and its bath sites agree in the two within the tolerances of `np.allclose`; the occupations that are recorded are
those of the impurity in the two states; the self-energy that is recorded is the inverse of the sampled Green function minus the inverse of a function that differs from the thermal Green function
of the impurity by no more than the errors of the Lanczos recurrences and of the screening. -/
theorem C186_pass (hn : n = poles.length + poles.length * nb) (h2 : 2 ≤ n) (h32 : n ≤ 32) (hw : n ≤ w) (hc : cfg.Ok) (hβ : 0 < beta) (hl : ∀ p ∈ poles, p.length = nb + 1)
    (hU : MoamUOk poles.length U) (hH : MoamClean poles.length nb n H) :
    (∃ r, MoamPass fsolve cfg w junk jk n U sigma0 beta poles H r) ∧
    ∀ r, MoamPass fsolve cfg w junk jk n U sigma0 beta poles H r → ∃ H0 H' smps, r = .ok (H', smps) ∧ smps.length = poles.length ∧
      MoamClean poles.length nb n H0 ∧ (∀ i (hi : i < poles.length), HoldsImp poles.length nb i (gfimpFit fsolve poles[i]) H0) ∧
      MoamClean poles.length nb n H' ∧
      (∀ i (hi : i < poles.length), HoldsImp poles.length nb i { gfimpFit fsolve poles[i] with e0 := (gfimpFit fsolve poles[i]).e0 - sigma0 i } H') ∧
      ∃ ψ0 ψ1, GroundWithin (plainHam n H0 noV) (1 / 10 ^ 7) ψ0 ∧ GroundWithin (plainHam n H' (amongFirst poles.length U)) (1 / 10 ^ 7) ψ1 ∧
        ∀ i (hi : i < poles.length),
          (smps[i]? = some none ↔ ¬ |subOcc poles.length nb n ψ1 i - subOcc poles.length nb n ψ0 i| ≤ 1 / 10 ^ 8 + 1 / 10 ^ 5 * |subOcc poles.length nb n ψ0 i|) ∧
          ∀ smp, smps[i]? = some (some smp) → smp.occ0 = siteOcc n ψ0 i ∧ smp.occ1 = siteOcc n ψ1 i ∧
            (∀ z : ℂ, smp.sigma z = (gf0Call (poles[i].map Complex.ofReal) z)⁻¹ - (smp.gf.call jk z.re z.im)⁻¹) ∧
            ∀ (hpos : i < n) (e eta ε : ℝ), eta ≠ 0 → 0 ≤ ε → (∀ run ∈ smp.log, run.ResLe ε) → ∀ gr,
              IsGreen (ι := Finset (Fin (n + n))) beta (plainHam n H' (amongFirst poles.length U)) (ann ℝ (orb false (⟨i, hpos⟩ : Fin n))) (cre ℝ (orb false (⟨i, hpos⟩ : Fin n))) (e + Complex.I * eta) gr →
              ‖smp.gf.call jk e eta - gr‖ ≤ ε / eta ^ 2 + 2 * (cfg.delta ^ 2 / |eta|) + 2 * (4 ^ n * (1 / 10 ^ 9)) / |eta| := by
  have hN : (poles.map (gfimpFit fsolve)).length = poles.length := List.length_map _
  have hpos : 0 < poles.length := by
    rcases Nat.eq_zero_or_pos poles.length with h | h
    · rw [h] at hn; omega
    · exact h
  have hbath : (n - poles.length) / poles.length = nb := by
    rw [hn, Nat.add_sub_cancel_left, Nat.mul_div_cancel_left _ hpos]
  obtain ⟨H1, b1, b2, b3⟩ := buildMoam_again (gs := poles.map (gfimpFit fsolve)) (n := n) (nb := nb) (H := H) (by rw [hN]; exact hn) (fun g hg => by
    obtain ⟨p, hp, rfl⟩ := List.mem_map.mp hg
    simp [gfimpFit, hl p hp]) (by rw [hN]; exact hH)
  rw [hN] at b3
  have b2' : ∀ i (hi : i < poles.length), HoldsImp poles.length nb i (gfimpFit fsolve poles[i]) H1 := fun i hi => by
    have := b2 i (by rw [hN]; exact hi)
    simpa only [List.getElem_map, List.length_map] using this
  have c2 : ∀ i (hi : i < poles.length), HoldsImp poles.length nb i { gfimpFit fsolve poles[i] with e0 := (gfimpFit fsolve poles[i]).e0 - sigma0 i } (subImp n poles.length sigma0 H1) :=
    fun i hi => (b2' i hi).sub hn hi
  have c3 : MoamClean poles.length nb n (subImp n poles.length sigma0 H1) := b3.sub hn
  have ha0 : (moamArgs n H1 (.array fun _ _ => 0)).Valid := moamArgs_valid (gs := fun i => gfimpFit fsolve (poles[i]?.getD [])) h2 h32 (fun i hi => by
    have := b2' i hi
    rwa [← Option.getD_some (a := poles[i]) (b := []), ← List.getElem?_eq_getElem hi] at this) b3 ⟨rfl, by simp [VArg.array], by simp [VArg.array], fun _ => rfl⟩
  have ha1 : (moamArgs n (subImp n poles.length sigma0 H1) (moamV poles.length U)).Valid :=
    moamArgs_valid (gs := fun i => { gfimpFit fsolve (poles[i]?.getD []) with e0 := (gfimpFit fsolve (poles[i]?.getD [])).e0 - sigma0 i }) h2 h32 (fun i hi => by
      have := c2 i hi
      rwa [← Option.getD_some (a := poles[i]) (b := []), ← List.getElem?_eq_getElem hi] at this) c3 (moamV_ok hU n)
  obtain ⟨⟨x0, hx0⟩, hno0⟩ := buildEspace_none_ok (w := w) ha0 hw
  obtain ⟨⟨x1, hx1⟩, hno1⟩ := buildEspace_none_ok (w := w) ha1 hw
  have hκ : (0 : ℝ) ≤ 4 ^ n * (1 / 10 ^ 9) := by positivity
  have hle : poles.length ≤ n := by omega
  have hscr : ∀ {es1 : Espace (ℕ × ℕ)} {E1 : WithTop ℝ}, BuildEspace w (moamArgs n (subImp n poles.length sigma0 H1) (moamV poles.length U)) none (.ok (es1, E1)) →
      ∃ es', screenEspace es1 (E1.untopD 0) beta (1 / 10 ^ 9) = .ok es' ∧ EigenEspace n (moamArgs n (subImp n poles.length sigma0 H1) (moamV poles.length U)).ham es1 ∧
        SubEspace n (moamArgs n (subImp n poles.length sigma0 H1) (moamV poles.length U)).ham es' ∧ 1 ≤ partition es' beta (E1.untopD 0) ∧
        partition es1 beta (E1.untopD 0) - partition es' beta (E1.untopD 0) ≤ 4 ^ n * (1 / 10 ^ 9) := by
    intro es1 E1 h1
    obtain ⟨E, rfl, -⟩ := buildEspace_least ha1 hw h1
    have hE := buildEspace_eigen ha1 hw h1
    obtain ⟨es', k0, k3⟩ := hE.subEspace.screen E beta (1 / 10 ^ 9)
    obtain ⟨k1, k2⟩ := screen_weights ha1 hw h1 hβ.le le_rfl (by norm_num) (by norm_num) k0
    exact ⟨es', k0, hE, k3, k1, k2⟩
  have hrange : ∀ i ∈ List.range poles.length, i < n := fun i hi => (List.mem_range.mp hi).trans_le hle
  have hget : ∀ (ψ : Finset (Fin (n + n)) → ℝ) (i : ℕ), i < poles.length →
      ((List.range poles.length).map fun i => (subsystemPos poles.length nb i).map (siteOcc n ψ))[i]?.getD [] = (subsystemPos poles.length nb i).map (siteOcc n ψ) := by
    intro ψ i hi
    rw [List.getElem?_map, List.getElem?_range hi]
    rfl
  unfold MoamPass
  simp only [hbath]
  constructor
  · simp only [bindR_ok b1]
    refine bindR_exists ⟨_, hx0⟩ fun p0 hp0 => ?_
    obtain ⟨s0, f0, ψ0, -, o0⟩ := moam_occs (nimp := poles.length) (nb := nb) ha0 hw hn (es := p0.1) (E0 := p0.2) hp0
    simp only [bindR_ok f0, bindR_ok o0]
    refine bindR_exists ⟨_, hx1⟩ fun p1 hp1 => ?_
    obtain ⟨s1, f1, ψ1, -, o1⟩ := moam_occs (nimp := poles.length) (nb := nb) ha1 hw hn (es := p1.1) (E0 := p1.2) hp1
    obtain ⟨es', k0, hE, k3, k1, k2⟩ := hscr (es1 := p1.1) (E1 := p1.2) hp1
    simp only [bindR_ok f1, bindR_ok o1, bindR_ok k0]
    refine bindR_exists ?_ fun _ _ => ⟨_, rfl⟩
    exact (moamLoop_spec (g := ⟨cfg, .cf, w, junk, moamArgs n (subImp n poles.length sigma0 H1) (moamV poles.length U), beta, p1.2.untopD 0, false⟩) jk ha1 hw hc hE hκ _ es' hrange k3 k1 k2).1
  · intro r hr
    rw [bindR_ok b1] at hr
    rcases hr with ⟨p0, hp0, hr⟩ | ⟨e, hx, -⟩
    swap
    · exact absurd hx (hno0 e)
    obtain ⟨s0, f0, ψ0, g0, o0⟩ := moam_occs (nimp := poles.length) (nb := nb) ha0 hw hn (es := p0.1) (E0 := p0.2) hp0
    rw [bindR_ok f0, bindR_ok o0] at hr
    rcases hr with ⟨p1, hp1, hr⟩ | ⟨e, hx, -⟩
    swap
    · exact absurd hx (hno1 e)
    obtain ⟨s1, f1, ψ1, g1, o1⟩ := moam_occs (nimp := poles.length) (nb := nb) ha1 hw hn (es := p1.1) (E0 := p1.2) hp1
    obtain ⟨es', k0, hE, k3, k1, k2⟩ := hscr (es1 := p1.1) (E1 := p1.2) hp1
    rw [bindR_ok f1, bindR_ok o1, bindR_ok k0] at hr
    obtain ⟨-, hall⟩ := moamLoop_spec (g := ⟨cfg, .cf, w, junk, moamArgs n (subImp n poles.length sigma0 H1) (moamV poles.length U), beta, p1.2.untopD 0, false⟩)
      (acc := fun i => npClose (((List.range poles.length).map fun i => (subsystemPos poles.length nb i).map (siteOcc n ψ1))[i]?.getD []).sum
        (((List.range poles.length).map fun i => (subsystemPos poles.length nb i).map (siteOcc n ψ0))[i]?.getD []).sum)
      (mk := fun i out => ⟨out.gfe, fun z => (gf0Call ((poles[i]?.getD []).map Complex.ofReal) z)⁻¹ - (out.gfe.call jk z.re z.im)⁻¹,
        (((List.range poles.length).map fun i => (subsystemPos poles.length nb i).map (siteOcc n ψ0))[i]?.getD [])[0]?.getD 0,
        (((List.range poles.length).map fun i => (subsystemPos poles.length nb i).map (siteOcc n ψ1))[i]?.getD [])[0]?.getD 0, out.log⟩)
      jk ha1 hw hc hE hκ _ es' hrange k3 k1 k2
    rcases hr with ⟨smps, hs, hr⟩ | ⟨e, hs, -⟩
    swap
    · obtain ⟨_, h, -⟩ := hall _ hs
      cases h
    obtain ⟨smps', e1, e2, e3⟩ := hall _ hs
    injection e1 with e1; subst e1
    refine ⟨H1, _, smps, hr, by simpa using e2, b3, b2', c3, c2, ψ0, ψ1, g0, g1, fun i hi => ?_⟩
    have h3 := e3 i (by simpa using hi)
    simp only [List.getElem_range, hget _ i hi, subOcc_sum] at h3
    rcases h3 with ⟨h3, h4⟩ | ⟨h3, out, h4, h5⟩
    · refine ⟨⟨fun _ => h3, fun _ => h4⟩, fun smp h => ?_⟩
      rw [h4] at h
      cases h
    · refine ⟨⟨fun h => ?_, fun h => absurd h3 h⟩, fun smp h => ?_⟩
      · rw [h4] at h
        cases h
      · rw [h4] at h
        injection h with h
        injection h with h
        subst h
        refine ⟨rfl, rfl, fun z => ?_, fun hpos e eta ε he hε hlog gr hg => h5 hpos e eta ε he hε hlog gr hg⟩
        simp only [List.getElem?_eq_getElem hi, Option.getD_some]

/-- **C186** With increasing poles and a root finder that finds the zeros, the self-energy that is recorded is the frequency minus the mean of the poles, minus the hybridisation with the fitted bath, minus
the inverse of the computed Green function. -/
theorem C186_sample (hs : ∀ p ∈ poles, p.Pairwise (· < ·)) (hf : ∀ p ∈ poles, FindsZeros fsolve p)
    (hn : n = poles.length + poles.length * nb) (h2 : 2 ≤ n) (h32 : n ≤ 32) (hw : n ≤ w) (hc : cfg.Ok) (hβ : 0 < beta) (hl : ∀ p ∈ poles, p.length = nb + 1)
    (hU : MoamUOk poles.length U) (hH : MoamClean poles.length nb n H) {H' : ℕ → ℕ → ℝ} {smps : List (Option MoamSample)}
    (hr : MoamPass fsolve cfg w junk jk n U sigma0 beta poles H (.ok (H', smps))) {i : ℕ} (hi : i < poles.length) {smp : MoamSample} (hsm : smps[i]? = some (some smp)) {z : ℂ} (hz : z.im ≠ 0) :
    smp.sigma z = z - ((gfimpFit fsolve poles[i]).e0 : ℂ) -
      hybridisation (fun k : Fin nb => dedFitEk (gfimpFit fsolve poles[i]) k) (fun k : Fin nb => dedFitVk (gfimpFit fsolve poles[i]) k) z - (smp.gf.call jk z.re z.im)⁻¹ := by
  obtain ⟨-, hall⟩ := C186_pass (fsolve := fsolve) (junk := junk) (jk := jk) (sigma0 := sigma0) hn h2 h32 hw hc hβ hl hU hH
  obtain ⟨H0, H1, smps', e1, -, -, -, -, -, ψ0, ψ1, -, -, h3⟩ := hall _ hr
  injection e1 with e1
  injection e1 with e1 e2
  subst e2
  have hm := List.getElem_mem hi
  rw [((h3 i hi).2 smp hsm).2.2.1 z, gf0_inv (hl _ hm) (hs _ hm) (hf _ hm) hz]

/-- The passes of `moam_solve`: pass `t` draws the poles `ps t` and finds the array that the pass before it left. -/
structure MoamPasses (fsolve : (ℝ → ℝ) → ℝ → ℝ) (cfg : LancCfg) (w junk : ℕ) (jk : ℝ) (n : ℕ) (U : VArg ℝ) (sigma0 : ℕ → ℝ) (beta : ℝ) (ps : ℕ → List (List ℝ))
    (st : ℕ → ℕ → ℕ → ℝ) (out : ℕ → List (Option MoamSample)) : Prop where
  start : st 0 = fun _ _ => 0
  step : ∀ t, MoamPass fsolve cfg w junk jk n U sigma0 beta (ps t) (st t) (.ok (st (t + 1), out t))

/-- **C186** From the zero array, with any draws, the passes go on without end: none of them raises, and each finds an array that holds only elements of the impurities. -/
theorem C186_passes {nimp : ℕ} (hn : n = nimp + nimp * nb) (h2 : 2 ≤ n) (h32 : n ≤ 32) (hw : n ≤ w) (hc : cfg.Ok) (hβ : 0 < beta) (hU : MoamUOk nimp U)
    (ps : ℕ → List (List ℝ)) (hp : ∀ t, (ps t).length = nimp) (hl : ∀ t, ∀ p ∈ ps t, p.length = nb + 1) :
    (∃ st out, MoamPasses fsolve cfg w junk jk n U sigma0 beta ps st out) ∧
    ∀ st out, MoamPasses fsolve cfg w junk jk n U sigma0 beta ps st out → ∀ t, MoamClean nimp nb n (st t) := by
  have hpass : ∀ t (s : ℕ → ℕ → ℝ), MoamClean nimp nb n s → (∃ H' o, MoamPass fsolve cfg w junk jk n U sigma0 beta (ps t) s (.ok (H', o))) ∧
      ∀ H' o, MoamPass fsolve cfg w junk jk n U sigma0 beta (ps t) s (.ok (H', o)) → MoamClean nimp nb n H' := by
    intro t s hs
    have hpt := hp t
    obtain ⟨⟨r, hr⟩, hall⟩ := C186_pass (fsolve := fsolve) (cfg := cfg) (w := w) (junk := junk) (jk := jk) (U := U) (sigma0 := sigma0) (beta := beta) (poles := ps t) (nb := nb) (n := n) (H := s)
      (by rw [hpt]; exact hn) h2 h32 hw hc hβ (hl t) (by rw [hpt]; exact hU) (by rw [hpt]; exact hs)
    constructor
    · obtain ⟨-, H', o, e, -⟩ := hall r hr
      exact ⟨H', o, e ▸ hr⟩
    · intro H' o h
      obtain ⟨-, H1, o1, e, -, -, -, h4, -⟩ := hall _ h
      injection e with e
      injection e with e e'
      subst e
      rw [hpt] at h4
      exact h4
  have h0 : MoamClean nimp nb n (fun _ _ => 0) := fun _ _ _ _ _ => rfl
  constructor
  · have hstep : ∀ (t : ℕ) (s : {s : ℕ → ℕ → ℝ // MoamClean nimp nb n s}), ∃ q : {s : ℕ → ℕ → ℝ // MoamClean nimp nb n s} × List (Option MoamSample),
        MoamPass fsolve cfg w junk jk n U sigma0 beta (ps t) s.1 (.ok (q.1.1, q.2)) := by
      rintro t ⟨s, hs⟩
      obtain ⟨⟨H', o, h⟩, hall⟩ := hpass t s hs
      exact ⟨⟨⟨H', hall H' o h⟩, o⟩, h⟩
    choose q hq using hstep
    let st : ℕ → {s : ℕ → ℕ → ℝ // MoamClean nimp nb n s} := fun t => Nat.rec ⟨fun _ _ => 0, h0⟩ (fun t s => (q t s).1) t
    exact ⟨fun t => (st t).1, fun t => (q t (st t)).2, rfl, fun t => hq t (st t)⟩
  · intro st out h t
    induction t with
    | zero => rw [h.start]; exact h0
    | succ t ih => exact (hpass t _ ih).2 _ _ (h.step t)

/-- Site `j` is impurity `i` or one of its bath sites. -/
def inSub (nimp nb i j : ℕ) : Bool := j == i || (decide (nimp + i * nb ≤ j) && decide (j < nimp + i * nb + nb))

theorem inSub_iff {nimp nb i j : ℕ} : inSub nimp nb i j = true ↔ j = i ∨ ∃ k < nb, j = bathIx nimp nb i k := by
  unfold inSub bathIx
  simp only [Bool.or_eq_true, beq_iff_eq, Bool.and_eq_true, decide_eq_true_eq]
  refine or_congr Iff.rfl ⟨fun h => ⟨j - (nimp + i * nb), by omega, by omega⟩, ?_⟩
  rintro ⟨k, hk, rfl⟩
  omega

theorem OfImp.inSub_eq {nimp nb i l r c : ℕ} (hi : i < nimp) (hl : l < nimp) (h : OfImp nimp nb l r c) : inSub nimp nb i r = inSub nimp nb i c := by
  have key : ∀ x, (x = l ∨ ∃ k < nb, x = bathIx nimp nb l k) → (inSub nimp nb i x = true ↔ i = l) := by
    intro x hx
    rw [inSub_iff]
    constructor
    · rintro (rfl | ⟨k, hk, rfl⟩)
      · rcases hx with h | ⟨k, -, h⟩
        · exact h
        · unfold bathIx at h; omega
      · rcases hx with h | ⟨k', hk', h⟩
        · unfold bathIx at h; omega
        · exact (bathIx_inj hk hk' h).1
    · rintro rfl; exact hx
  have h1 : (r = l ∨ ∃ k < nb, r = bathIx nimp nb l k) ∧ (c = l ∨ ∃ k < nb, c = bathIx nimp nb l k) := by
    rcases h with ⟨h1, h2⟩ | ⟨k, hk, ⟨h1, h2⟩ | ⟨h1, h2⟩ | ⟨h1, h2⟩⟩
    · exact ⟨Or.inl h1, Or.inl h2⟩
    · exact ⟨Or.inl h1, Or.inr ⟨k, hk, h2⟩⟩
    · exact ⟨Or.inr ⟨k, hk, h1⟩, Or.inl h2⟩
    · exact ⟨Or.inr ⟨k, hk, h1⟩, Or.inr ⟨k, hk, h2⟩⟩
  rw [Bool.eq_iff_iff, key r h1.1, key c h1.2]

section
variable {nimp : ℕ} {A A' : ℕ → ℕ → ℝ} {H' : ℕ → ℕ → ℝ}

/-- Without interaction between different impurities the subsystem of impurity `i` is separate. -/
theorem moam_splits (hn : n = nimp + nimp * nb) (hc : MoamClean nimp nb n H) (hA : ∀ r c, r < nimp → c < nimp → r ≠ c → A r c = 0) {i : ℕ} (hi : i < nimp) :
    Splits (moamArgs n H (moamV nimp (.array A))) fun _ j => inSub nimp nb i j := by
  refine ⟨fun _ r c hr hcn h => ?_, fun B hB r c hr hcn h _ _ => ?_, fun B hB => ?_, fun B hB => ?_⟩
  · by_contra hne
    have : H r c = 0 := hc r c hr hcn fun l hl ho => hne (ho.inSub_eq hi hl)
    have h' : 1 / 10 ^ 7 < |H r c| := h
    rw [this, abs_zero] at h'
    norm_num at h'
  · have hB' : (fun i j => if i < nimp ∧ j < nimp then A i j else 0) = B := Option.some.inj hB
    subst hB'
    dsimp only at h ⊢
    by_cases hrc : r < nimp ∧ c < nimp
    · rw [if_pos hrc] at h
      by_cases e : r = c
      · rw [e]
      · exact absurd (hA r c hrc.1 hrc.2 e) h
    · rw [if_neg hrc] at h
      exact absurd rfl h
  · cases hB
  · cases hB

/-- Two arrays with the same parameters of impurity `i` agree on its subsystem. -/
theorem moam_sameGroup (hc : MoamClean nimp nb n H) (hc' : MoamClean nimp nb n H') {i : ℕ} (hi : i < nimp) {g : Gfimp} (hh : HoldsImp nimp nb i g H) (hh' : HoldsImp nimp nb i g H')
    (hA : ∀ r c, r < nimp → c < nimp → r ≠ c → A r c = 0) (hA' : ∀ r c, r < nimp → c < nimp → r ≠ c → A' r c = 0) (hi' : A' i i = A i i) :
    SameGroup (moamArgs n H (moamV nimp (.array A))) (moamArgs n H' (moamV nimp (.array A'))) fun _ j => inSub nimp nb i j := by
  refine ⟨rfl, rfl, fun _ r c hr hcn h1 h2 => ?_, fun r c _ _ h1 h2 => ?_, fun _ _ _ => rfl, fun _ _ _ _ _ _ => rfl, fun _ _ _ _ _ _ => rfl⟩
  · have : H' r c = H r c := by
      by_cases ho : OfImp nimp nb i r c
      · rcases ho with ⟨rfl, rfl⟩ | ⟨k, hk, ⟨rfl, rfl⟩ | ⟨rfl, rfl⟩ | ⟨rfl, rfl⟩⟩
        · rw [hh.level, hh'.level]
        · rw [hh.row k hk, hh'.row k hk]
        · rw [hh.col k hk, hh'.col k hk]
        · rw [hh.bath k hk, hh'.bath k hk]
      · have hno : ∀ l < nimp, ¬ OfImp nimp nb l r c := by
          intro l hl hol
          have hli : l = i := by
            rcases hol with ⟨e1, -⟩ | ⟨k, hk, ⟨e1, -⟩ | ⟨e1, -⟩ | ⟨e1, -⟩⟩
            all_goals
              rcases inSub_iff.mp h1 with e2 | ⟨k', hk', e2⟩
            all_goals first
              | omega
              | (unfold bathIx at *; omega)
              | exact (bathIx_inj hk hk' (e1.symm.trans e2)).1
          exact ho (hli ▸ hol)
        rw [hc r c hr hcn hno, hc' r c hr hcn hno]
    show H' r c + _ = H r c + _
    rw [this]
    rfl
  · show (if r < nimp ∧ c < nimp then A' r c else 0) = if r < nimp ∧ c < nimp then A r c else 0
    by_cases hrc : r < nimp ∧ c < nimp
    · rw [if_pos hrc, if_pos hrc]
      by_cases e : r = c
      · subst e
        have : r = i := by
          rcases inSub_iff.mp h1 with e | ⟨k, -, e⟩
          · exact e
          · unfold bathIx at e; omega
        rw [this, hi']
      · rw [hA r c hrc.1 hrc.2 e, hA' r c hrc.1 hrc.2 e]
    · rw [if_neg hrc, if_neg hrc]

end

/-- **C186** Without interaction between different impurities, the Green function from which the sample of an impurity is computed does not depend on the others: two passes in which the impurity has the same poles,
`U` and `sigma0`, whatever the other impurities have and whatever the arrays held before, agree up to the errors of the Lanczos recurrences and of the screening. -/
theorem C186_independent {poles' : List (List ℝ)} {A A' : ℕ → ℕ → ℝ} {sigma0' : ℕ → ℝ} {H1 H2 : ℕ → ℕ → ℝ} {smps smps' : List (Option MoamSample)} {smp smp' : MoamSample} {i : ℕ} (hi : i < poles.length)
    (hlen : poles'.length = poles.length) (hpi : poles'[i]? = poles[i]?) (hsi : sigma0' i = sigma0 i) (hAi : A' i i = A i i)
    (hA : ∀ r c, r < poles.length → c < poles.length → r ≠ c → A r c = 0) (hA' : ∀ r c, r < poles.length → c < poles.length → r ≠ c → A' r c = 0)
    (hn : n = poles.length + poles.length * nb) (h2 : 2 ≤ n) (h32 : n ≤ 32) (hw : n ≤ w) (hc : cfg.Ok) (hβ : 0 < beta) (hl : ∀ p ∈ poles, p.length = nb + 1) (hl' : ∀ p ∈ poles', p.length = nb + 1)
    {Hs Hs' : ℕ → ℕ → ℝ} (hH : MoamClean poles.length nb n Hs) (hH' : MoamClean poles.length nb n Hs')
    (hr : MoamPass fsolve cfg w junk jk n (.array A) sigma0 beta poles Hs (.ok (H1, smps))) (hr' : MoamPass fsolve cfg w junk jk n (.array A') sigma0' beta poles' Hs' (.ok (H2, smps')))
    (hsm : smps[i]? = some (some smp)) (hsm' : smps'[i]? = some (some smp')) {e eta ε : ℝ} (he : eta ≠ 0) (hε : 0 ≤ ε) (hlog : ∀ run ∈ smp.log, run.ResLe ε) (hlog' : ∀ run ∈ smp'.log, run.ResLe ε) :
    ‖smp.gf.call jk e eta - smp'.gf.call jk e eta‖ ≤ 2 * (ε / eta ^ 2 + 2 * (cfg.delta ^ 2 / |eta|) + 2 * (4 ^ n * (1 / 10 ^ 9)) / |eta|) := by
  have hok : ∀ {m : ℕ} (B : ℕ → ℕ → ℝ), MoamUOk m (.array B) := fun B => ⟨rfl, by simp [VArg.array], by simp [VArg.array], fun _ => rfl⟩
  obtain ⟨-, hall⟩ := C186_pass (fsolve := fsolve) (junk := junk) (jk := jk) (sigma0 := sigma0) hn h2 h32 hw hc hβ hl (hok A) hH
  obtain ⟨-, hall'⟩ := C186_pass (fsolve := fsolve) (junk := junk) (jk := jk) (sigma0 := sigma0') (poles := poles') (by rw [hlen]; exact hn) h2 h32 hw hc hβ hl' (hok A') (by rw [hlen]; exact hH')
  obtain ⟨_, H1', _, e1, -, -, -, k1, k2, ψ0, ψ1, -, -, h3⟩ := hall _ hr
  obtain ⟨_, H2', _, e1', -, -, -, k1', k2', ψ0', ψ1', -, -, h3'⟩ := hall' _ hr'
  injection e1 with e1; injection e1 with e1 e2; subst e1 e2
  injection e1' with e1'; injection e1' with e1' e2'; subst e1' e2'
  have hi' : i < poles'.length := by rw [hlen]; exact hi
  have hin : i < n := by omega
  have hpe : poles'[i] = poles[i] := by
    rw [List.getElem?_eq_getElem hi, List.getElem?_eq_getElem hi'] at hpi
    exact Option.some.inj hpi
  have q := ((h3 i hi).2 smp hsm).2.2.2 hin e eta ε he hε hlog
  have q' := ((h3' i hi').2 smp' hsm').2.2.2 hin e eta ε he hε hlog'
  have c := k2 i hi
  have c' := k2' i hi'
  have hget : ∀ {m : ℕ} {ps : List (List ℝ)} {s : ℕ → ℝ} {K : ℕ → ℕ → ℝ}, (∀ i (hi : i < ps.length), HoldsImp m nb i { gfimpFit fsolve ps[i] with e0 := (gfimpFit fsolve ps[i]).e0 - s i } K) →
      ∀ i < ps.length, HoldsImp m nb i ((fun i => { gfimpFit fsolve (ps[i]?.getD []) with e0 := (gfimpFit fsolve (ps[i]?.getD [])).e0 - s i }) i) K := by
    intro m ps s K h i hi
    have := h i hi
    rwa [← Option.getD_some (a := ps[i]) (b := []), ← List.getElem?_eq_getElem hi] at this
  rw [hpe, hsi] at c'
  rw [hlen] at c' k1' q'
  have hg' := hget k2'
  rw [hlen] at hg'
  have ha : (moamArgs n H1 (moamV poles.length (.array A))).Valid := moamArgs_valid h2 h32 (hget k2) k1 (moamV_ok (hok A) n)
  have ha' : (moamArgs n H2 (moamV poles.length (.array A'))).Valid := moamArgs_valid h2 h32 hg' k1' (moamV_ok (hok A') n)
  have hz : (e + Complex.I * eta : ℂ).im ≠ 0 := by simpa using he
  have hcol : inSub poles.length nb i i = true := inSub_iff.mpr (Or.inl rfl)
  obtain ⟨u, E, hb⟩ := EigBasis.of_symm (show ((moamArgs n H1 (moamV poles.length (.array A))).partHam (fun _ j => inSub poles.length nb i j) true)ᵀ = _ from partHam_symm ha true)
  have hg := (hb.green beta (ann ℝ (orb false (⟨i, hin⟩ : Fin n))) (cre ℝ (orb false (⟨i, hin⟩ : Fin n))) hz _).mpr rfl
  have heq : (moamArgs n H1 (moamV poles.length (.array A))).partHam (fun _ j => inSub poles.length nb i j) true =
      (moamArgs n H2 (moamV poles.length (.array A'))).partHam (fun _ j => inSub poles.length nb i j) true := (SameGroup_partHam (moam_sameGroup k1 k1' hi c c' hA hA' hAi)).symm
  have b1 := q _ ((moam_splits hn k1 hA hi).green ha beta hz (i := (⟨i, hin⟩ : Fin n)) (j := (⟨i, hin⟩ : Fin n)) hcol hcol hg)
  have b2 := q' _ ((moam_splits hn k1' hA' hi).green ha' beta hz (i := (⟨i, hin⟩ : Fin n)) (j := (⟨i, hin⟩ : Fin n)) hcol hcol
    (heq ▸ hg))
  refine (norm_sub_le_norm_sub_add_norm_sub _ _ _).trans ((add_le_add b1 ((norm_sub_rev _ _).trans_le b2)).trans (le_of_eq (by ring)))

/-- Non-vacuity: two impurities with one bath site each and a density interaction between them. -/
example : ∃ st out, MoamPasses (fun _ x => x) ⟨500, 10, 1 / 10 ^ 13, fun _ _ => 0, fun _ _ => false⟩ 64 0 0 4 (.array fun i j => if i = j then 2 else 1) (fun _ => 1) 100 (fun _ => [[-1, 1], [-2, 2]]) st out :=
  (C186_passes (nimp := 2) (nb := 1) (by norm_num) (by norm_num) (by norm_num) (by norm_num) ⟨by norm_num, by norm_num, by norm_num⟩ (by norm_num)
    ⟨rfl, by simp [VArg.array], by simp [VArg.array], fun _ => rfl⟩ _ (fun _ => rfl) (fun _ p hp => by
      simp only [List.mem_cons, List.not_mem_nil, or_false] at hp
      rcases hp with rfl | rfl <;> rfl)).1

end Edpyt
