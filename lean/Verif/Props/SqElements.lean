import Verif.Props.SqCurrent
import Verif.Props.CoBuild
import Verif.Proof.EigenEspace
/-!
# C155: the dictionary of sequential tunnelling holds exactly the amplitudes between the active states
-/
namespace Edpyt
open Spec Matrix

/-! ## Specification -/

/-- `id` labels an eigenstate of the full spectrum of `n` sites. -/
def Spec.IsState (n : ℕ) (id : TId) : Prop := 0 ≤ id.1 ∧ id.1 ≤ n ∧ 0 ≤ id.2.1 ∧ id.2.1 ≤ n ∧ id.2.2 < n.choose id.1.toNat * n.choose id.2.1.toNat

/-- `F` has one electron of spin `σ` (`true` = down) more than `I`. -/
def Spec.OneMore (σ : Bool) (F I : TId) : Prop := F.1 = I.1 + (if σ then 0 else 1) ∧ F.2.1 = I.2.1 + (if σ then 1 else 0)

/-- The eigenvector of the state `id`, on the Fock space. -/
def Spec.idKet (n : ℕ) (es : Espace (ℕ × ℕ)) (id : TId) : Finset (Fin (n + n)) → ℝ := (sctAt es (id.1.toNat, id.2.1.toNat)).ket n id.2.2

/-- The amplitude `⟨F| c†_{k,σ} |I⟩`. -/
noncomputable def Spec.addAmp (n : ℕ) (es : Espace (ℕ × ℕ)) (σ : Bool) (F I : TId) (k : ℕ) : ℝ :=
  if h : k < n then idKet n es F ⬝ᵥ cre ℝ (orb σ (⟨k, h⟩ : Fin n)) *ᵥ idKet n es I else 0

/-- What a cutoff keeps: small energy of the transition, and both states close to the ground state. -/
def Spec.WithinCutoff (es : Espace (ℕ × ℕ)) (egs : ℝ) (cutoff : Option ℝ) (F I : TId) : Prop :=
  ∀ c ∈ cutoff, |idEnergy es F - idEnergy es I| < c ∧ |idEnergy es F - egs| < c ∧ |idEnergy es I - egs| < c

/-- The sector of the state is a ground state sector or has one electron more or less. -/
def Spec.NearGround (n : ℕ) (es : Espace (ℕ × ℕ)) (egs : ℝ) (id : TId) : Prop :=
  ∃ g : ℕ × ℕ, g.1 ≤ n ∧ g.2 ≤ n ∧ GroundSector es egs g ∧ |id.1 - g.1| + |id.2.1 - g.2| ≤ 1

variable {n junk : ℕ} {es : Espace (ℕ × ℕ)}

/-! ## Helpers -/

/-- The sign of the up elements, from the ordering of the modes. -/
def upSign (σ : Bool) (b : ℕ) : ℝ := if σ then 1 else (-1) ^ b

theorem upSign_sq (σ : Bool) (b : ℕ) : upSign σ b ^ 2 = 1 := by
  unfold upSign
  cases σ
  · rw [if_neg (by simp), ← pow_mul, mul_comm, pow_mul]; simp
  · simp

theorem sctAt_eq {q : ℕ × ℕ} {s : Sct} (h : dictGet es q = .ok s) : sctAt es q = s := by
  unfold sctAt; rw [h]

theorem projectAll_sqElem (hn : n ≤ 32) (hes : SectorsOk n es) (σ : Bool) {a b : ℕ} {I J : Sct} (hI : dictGet es (a, b) = .ok I) (hJ : dictGet es (addSpin σ a b) = .ok J) :
    ∃ vs ws, projectAll junk (ispinOf σ) n .cdg I J = .ok vs ∧ projectAll junk (ispinOf σ) n .c J I = .ok ws ∧
      (∀ j k, j < J.eigvals.length → k < I.eigvals.length → vs.map (fun M => M j k) = (List.range n).map fun x => upSign σ b *
        if h : x < n then J.ket n j ⬝ᵥ cre ℝ (orb σ (⟨x, h⟩ : Fin n)) *ᵥ I.ket n k else 0) ∧
      ∀ j k, j < J.eigvals.length → k < I.eigvals.length → vs.map (fun M => M j k) = ws.map fun M => M k j := by
  obtain ⟨-, -, upI, dwI, okI⟩ := hes _ _ hI
  obtain ⟨-, -, upJ, dwJ, okJ⟩ := hes _ _ hJ
  have key : ∀ i, ∃ A B, i < n → projectSpin junk (ispinOf σ) i n .cdg I J = .ok A ∧ projectSpin junk (ispinOf σ) i n .c J I = .ok B ∧
      (∀ j k, j < J.eigvals.length → k < I.eigvals.length → A j k = upSign σ b * if h : i < n then J.ket n j ⬝ᵥ cre ℝ (orb σ (⟨i, h⟩ : Fin n)) *ᵥ I.ket n k else 0) ∧
      ∀ j k, j < J.eigvals.length → k < I.eigvals.length → A j k = B k j := by
    intro i
    by_cases hi : i < n
    · cases σ
      · obtain ⟨A, B, h1, h2, h3⟩ := C34_adjoint_up (junk := junk) hn hi okI okJ
        obtain ⟨A', h1', h4⟩ := C34_project_exact_up (junk := junk) hn hi .cdg (p := a) (q := a + 1) rfl okI okJ
        rw [h1] at h1'
        obtain rfl := Except.ok.inj h1'
        refine ⟨A, B, fun _ => ⟨h1, h2, fun j k hj hk => ?_, h3⟩⟩
        rw [h4 j k hj hk, dif_pos hi, okI.ket_eq, okJ.ket_eq]
        rfl
      · obtain ⟨A, B, h1, h2, h3⟩ := C34_adjoint_dw (junk := junk) hn hi okI okJ
        obtain ⟨A', h1', h4⟩ := C34_project_exact_dw (junk := junk) hn hi .cdg (p := b) (q := b + 1) rfl okI okJ
        rw [h1] at h1'
        obtain rfl := Except.ok.inj h1'
        refine ⟨A, B, fun _ => ⟨h1, h2, fun j k hj hk => ?_, h3⟩⟩
        rw [h4 j k hj hk, dif_pos hi, okI.ket_eq, okJ.ket_eq, upSign, if_pos rfl, one_mul]
        rfl
    · exact ⟨fun _ _ => 0, fun _ _ => 0, fun h => absurd h hi⟩
  choose A B h using key
  refine ⟨_, _, projectAll_ok A fun i hi => (h i hi).1, projectAll_ok B fun i hi => (h i hi).2.1, fun j k hj hk => ?_, fun j k hj hk => ?_⟩
  · rw [List.map_map]
    exact List.map_congr_left fun i hi => (h i (List.mem_range.mp hi)).2.2.1 j k hj hk
  · rw [List.map_map, List.map_map]
    exact List.map_congr_left fun i hi => (h i (List.mem_range.mp hi)).2.2.2 j k hj hk

theorem project_elem (hn : n ≤ 32) (hes : SectorsOk n es) (σ : Bool) {a b : ℕ} {I J : Sct} (hI : dictGet es (a, b) = .ok I) (hJ : dictGet es (addSpin σ a b) = .ok J) :
    ∃ vs ws, sqProjectAdd junk (ispinOf σ) n (zp (a, b)) es = .ok (transitionList true (zp (addSpin σ a b)) (zp (a, b)) vs I J) ∧
      sqProjectSub junk (ispinOf σ) n (zp (addSpin σ a b)) es = .ok (transitionList false (zp (a, b)) (zp (addSpin σ a b)) ws J I) ∧
      (∀ j k, j < J.eigvals.length → k < I.eigvals.length → vs.map (fun M => M j k) = (List.range n).map fun x => upSign σ b *
        if h : x < n then J.ket n j ⬝ᵥ cre ℝ (orb σ (⟨x, h⟩ : Fin n)) *ᵥ I.ket n k else 0) ∧
      ∀ j k, j < J.eigvals.length → k < I.eigvals.length → ws.map (fun M => M k j) = (List.range n).map fun x => upSign σ b *
        if h : x < n then J.ket n j ⬝ᵥ cre ℝ (orb σ (⟨x, h⟩ : Fin n)) *ᵥ I.ket n k else 0 := by
  obtain ⟨vs, ws, h1, h2, h3, h4⟩ := projectAll_sqElem (junk := junk) hn hes σ hI hJ
  have hJn := hes _ _ hJ
  refine ⟨vs, ws, ?_, ?_, h3, fun j k hj hk => by rw [← h4 j k hj hk, h3 j k hj hk]⟩
  · have : getCdgSector n (zp (a, b)).1 (zp (a, b)).2 (ispinOf σ) = .ok (zp (addSpin σ a b)) := by
      change getCdgSector n (a : ℤ) (b : ℤ) (ispinOf σ) = _
      cases σ
      · simp only [addSpin, Bool.false_eq_true, if_false] at hJn
        change getCdgSector n (a : ℤ) (b : ℤ) 0 = .ok (((a + 1 : ℕ) : ℤ), (b : ℤ))
        have : ¬ ((a : ℤ) + 1 > n) := by omega
        simp [getCdgSector, this]
      · simp only [addSpin, if_true] at hJn
        change getCdgSector n (a : ℤ) (b : ℤ) 1 = .ok ((a : ℤ), ((b + 1 : ℕ) : ℤ))
        have : ¬ ((b : ℤ) + 1 > n) := by omega
        simp [getCdgSector, this]
    simp only [sqProjectAdd, this, espaceGet_zp, hI, hJ, h1, bind, Except.bind, pure, Except.pure]
  · have : getCSector (zp (addSpin σ a b)).1 (zp (addSpin σ a b)).2 (ispinOf σ) = .ok (zp (a, b)) := by
      cases σ
      · change getCSector ((a + 1 : ℕ) : ℤ) (b : ℤ) 0 = .ok ((a : ℤ), (b : ℤ))
        have : ¬ ((a : ℤ) < 0) := by omega
        simp [getCSector, this]
      · change getCSector (a : ℤ) ((b + 1 : ℕ) : ℤ) 1 = .ok ((a : ℤ), (b : ℤ))
        have : ¬ ((b : ℤ) < 0) := by omega
        simp [getCSector, this]
    simp only [sqProjectSub, this, espaceGet_zp, hI, hJ, h2, bind, Except.bind, pure, Except.pure]

/-- What the loop inserts for a pair of neighbouring active sectors. -/
theorem oneList_add (hn : n ≤ 32) (hes : SectorsOk n es) (σ : Bool) {a b : ℕ} {I J : Sct} (hI : dictGet es (a, b) = .ok I) (hJ : dictGet es (addSpin σ a b) = .ok J) :
    ∃ vs ws, oneList junk n es (zp (a, b)) (if σ then (0, 1) else (1, 0)) = transitionList true (zp (addSpin σ a b)) (zp (a, b)) vs I J ∧
      oneList junk n es (zp (addSpin σ a b)) (if σ then (0, -1) else (-1, 0)) = transitionList false (zp (a, b)) (zp (addSpin σ a b)) ws J I ∧
      (∀ j k, j < J.eigvals.length → k < I.eigvals.length → vs.map (fun M => M j k) = (List.range n).map fun x => upSign σ b *
        if h : x < n then J.ket n j ⬝ᵥ cre ℝ (orb σ (⟨x, h⟩ : Fin n)) *ᵥ I.ket n k else 0) ∧
      ∀ j k, j < J.eigvals.length → k < I.eigvals.length → ws.map (fun M => M k j) = (List.range n).map fun x => upSign σ b *
        if h : x < n then J.ket n j ⬝ᵥ cre ℝ (orb σ (⟨x, h⟩ : Fin n)) *ᵥ I.ket n k else 0 := by
  obtain ⟨vs, ws, h1, h2, h3, h4⟩ := project_elem (junk := junk) hn hes σ hI hJ
  refine ⟨vs, ws, oneList_eq ?_, oneList_eq ?_, h3, h4⟩
  · cases σ
    · exact h1
    · exact h1
  · cases σ
    · exact h2
    · exact h2

/-- The stored row of amplitudes. -/
noncomputable def rowOf (n : ℕ) (σ : Bool) (b : ℕ) (J I : Sct) (j i : ℕ) : List ℝ :=
  (List.range n).map fun x => upSign σ b * if h : x < n then J.ket n j ⬝ᵥ cre ℝ (orb σ (⟨x, h⟩ : Fin n)) *ᵥ I.ket n i else 0

theorem allElements_iff (hn : n ≤ 32) (hes : SectorsOk n es) {act : List (ℤ × ℤ)} (hact : ActiveIn es act) (g : GfT) :
    g ∈ allElements junk n es act ↔ ∃ (σ : Bool) (a b : ℕ) (I J : Sct) (i j : ℕ), dictGet es (a, b) = .ok I ∧ dictGet es (addSpin σ a b) = .ok J ∧
      zp (a, b) ∈ act ∧ zp (addSpin σ a b) ∈ act ∧ i < I.eigvals.length ∧ j < J.eigvals.length ∧
      (g = ⟨true, ((zp (addSpin σ a b)).1, (zp (addSpin σ a b)).2, j), ((a : ℤ), (b : ℤ), i), rowOf n σ b J I j i, J.eigvals[j]?.getD 0 - I.eigvals[i]?.getD 0⟩ ∨
       g = ⟨false, ((a : ℤ), (b : ℤ), i), ((zp (addSpin σ a b)).1, (zp (addSpin σ a b)).2, j), rowOf n σ b J I j i, J.eigvals[j]?.getD 0 - I.eigvals[i]?.getD 0⟩) := by
  have key : ∀ (σ : Bool) (a b : ℕ) (I J : Sct), dictGet es (a, b) = .ok I → dictGet es (addSpin σ a b) = .ok J →
      (g ∈ oneList junk n es (zp (a, b)) (if σ then (0, 1) else (1, 0)) ↔ ∃ i j, i < I.eigvals.length ∧ j < J.eigvals.length ∧
        g = ⟨true, ((zp (addSpin σ a b)).1, (zp (addSpin σ a b)).2, j), ((a : ℤ), (b : ℤ), i), rowOf n σ b J I j i, J.eigvals[j]?.getD 0 - I.eigvals[i]?.getD 0⟩) ∧
      (g ∈ oneList junk n es (zp (addSpin σ a b)) (if σ then (0, -1) else (-1, 0)) ↔ ∃ i j, i < I.eigvals.length ∧ j < J.eigvals.length ∧
        g = ⟨false, ((a : ℤ), (b : ℤ), i), ((zp (addSpin σ a b)).1, (zp (addSpin σ a b)).2, j), rowOf n σ b J I j i, J.eigvals[j]?.getD 0 - I.eigvals[i]?.getD 0⟩) := by
    intro σ a b I J hI hJ
    obtain ⟨vs, ws, h1, h2, h3, h4⟩ := oneList_add (junk := junk) hn hes σ hI hJ
    rw [h1, h2, mem_transitionList, mem_transitionList]
    constructor
    · constructor
      · rintro ⟨j, i, hj, hi, rfl⟩
        exact ⟨i, j, hi, hj, by rw [h3 j i hj hi]; rfl⟩
      · rintro ⟨i, j, hi, hj, rfl⟩
        exact ⟨j, i, hj, hi, by rw [h3 j i hj hi]; rfl⟩
    · constructor
      · rintro ⟨i, j, hi, hj, rfl⟩
        refine ⟨i, j, hi, hj, ?_⟩
        rw [h4 j i hj hi, if_neg (by simp), neg_add_eq_sub]
        rfl
      · rintro ⟨i, j, hi, hj, rfl⟩
        refine ⟨i, j, hi, hj, ?_⟩
        rw [h4 j i hj hi, if_neg (by simp), neg_add_eq_sub]
        rfl
  rw [mem_allElements]
  constructor
  · rintro ⟨q, d, hq, hd, hqd, hm⟩
    obtain ⟨⟨a, b⟩, I, rfl, hI⟩ := hact q hq
    obtain ⟨⟨a', b'⟩, J, hJe, hJ⟩ := hact _ hqd
    rw [allDns_eq] at hd
    simp only [List.mem_cons, List.not_mem_nil, or_false] at hd
    have hJe' := hJe
    simp only [zp, Prod.mk.injEq] at hJe
    rcases hd with rfl | rfl | rfl | rfl
    · obtain rfl : a = a' + 1 := by omega
      obtain rfl : b = b' := by omega
      obtain ⟨i, j, hi, hj, e⟩ := ((key false a' b J I hJ hI).2).mp hm
      exact ⟨false, a', b, J, I, i, j, hJ, hI, hJe' ▸ hqd, hq, hi, hj, .inr e⟩
    · obtain rfl : a = a' := by omega
      obtain rfl : b = b' + 1 := by omega
      obtain ⟨i, j, hi, hj, e⟩ := ((key true a b' J I hJ hI).2).mp hm
      exact ⟨true, a, b', J, I, i, j, hJ, hI, hJe' ▸ hqd, hq, hi, hj, .inr e⟩
    · obtain rfl : a' = a + 1 := by omega
      obtain rfl : b' = b := by omega
      obtain ⟨i, j, hi, hj, e⟩ := ((key false a b' I J hI hJ).1).mp hm
      exact ⟨false, a, b', I, J, i, j, hI, hJ, hq, hJe' ▸ hqd, hi, hj, .inl e⟩
    · obtain rfl : a' = a := by omega
      obtain rfl : b' = b + 1 := by omega
      obtain ⟨i, j, hi, hj, e⟩ := ((key true a' b I J hI hJ).1).mp hm
      exact ⟨true, a', b, I, J, i, j, hI, hJ, hq, hJe' ▸ hqd, hi, hj, .inl e⟩
  · rintro ⟨σ, a, b, I, J, i, j, hI, hJ, ha, hs, hi, hj, e | e⟩
    · refine ⟨zp (a, b), if σ then (0, 1) else (1, 0), ha, by rw [allDns_eq]; cases σ <;> simp, ?_, ((key σ a b I J hI hJ).1).mpr ⟨i, j, hi, hj, e⟩⟩
      cases σ <;> simpa [zp, addSpin] using hs
    · refine ⟨zp (addSpin σ a b), if σ then (0, -1) else (-1, 0), hs, by rw [allDns_eq]; cases σ <;> simp, ?_, ((key σ a b I J hI hJ).2).mpr ⟨i, j, hi, hj, e⟩⟩
      cases σ <;> simpa [zp, addSpin] using ha

/-- The dictionary by its elements, with any cutoff. -/
theorem sqBuild_get (hn : n ≤ 32) (hes : SectorsOk n es) {egs : ℝ} {ngs : List (ℤ × ℤ)} (hg : groundSectors es egs = .ok ngs) (hact : ActiveIn es (sqActive n ngs)) (cutoff : Option ℝ) :
    ∃ gd, sqBuild junk n egs es cutoff = .ok gd ∧ ∀ F I g, dictGet gd (F, I) = .ok g ↔
      (g ∈ allElements junk n es (sqActive n ngs) ∧ (g.idF, g.idI) = (F, I)) ∧ ∀ c ∈ cutoff, keepGf es egs c ((F, I), g) := by
  classical
  have hget := dictGet_insertAll (allElements junk n es (sqActive n ngs)) (allElements_inj hn junk hes hact)
  cases cutoff with
  | none => exact ⟨_, sqBuild_none hn junk hes hg hact, fun F I g => by rw [hget]; simp⟩
  | some c =>
    have hr : ∀ p ∈ insertAll [] (allElements junk n es (sqActive n ngs)), InRange es p.1.1 ∧ InRange es p.1.2 := by
      intro p hp
      obtain ⟨h1, h2⟩ := mem_insertAll hp
      rw [h2]
      exact allElements_inRange h1
    refine ⟨(insertAll [] (allElements junk n es (sqActive n ngs))).filter fun p => decide (keepGf es egs c p), ?_, fun F I g => ?_⟩
    · simp only [sqBuild, hg, bind, Except.bind, sqBuild_loop hn junk hes hact]
      exact sqScreen_eq hr egs c
    · rw [dictGet_filter _ (nodup_insertAll _), hget]
      simp

/-- A run of `build_espace` meets the hypotheses. -/
theorem espace_active {a : HamArgs} (ha : a.Valid) {w : ℕ} (hw : a.n ≤ w) {e0 : WithTop ℝ} (h : BuildEspace w a none (.ok (es, e0))) (egs : ℝ) :
    SectorsOk a.n es ∧ ∃ ngs, groundSectors es egs = .ok ngs ∧ ActiveIn es (sqActive a.n ngs) := by
  obtain ⟨hc, hk⟩ := buildEspace_complete' ha hw h
  have h' : ∃ neig, BuildEspace w a (some neig) (.ok (es, e0)) := by
    obtain ⟨l, hl, -⟩ := C25_default_neig a.n
    refine ⟨l, ?_⟩
    simp only [BuildEspace, hl] at h
    simpa only [BuildEspace, neigOrDefault] using h
  obtain ⟨neig, h'⟩ := h'
  obtain ⟨hs, hne⟩ := buildEspace_sectorsOk ha hw h'
  obtain ⟨ngs, hg, hsub⟩ := groundSectors_ok hne egs
  refine ⟨hs, ngs, hg, activeIn_of_keys (fun q hq => ?_) fun q hq => ?_⟩
  · obtain ⟨q', hq', rfl⟩ := hsub q hq
    rw [hk, mem_ndindex2] at hq'
    simp only [zp]
    omega
  · have hv : ∀ q ∈ ngs, 0 ≤ q.1 ∧ q.1 ≤ a.n ∧ 0 ≤ q.2 ∧ q.2 ≤ a.n := by
      intro q hq
      obtain ⟨q', hq', rfl⟩ := hsub q hq
      rw [hk, mem_ndindex2] at hq'
      simp only [zp]
      omega
    have := C59_valid a.n ngs hv _ hq
    simp only [zp] at this
    rw [hk, mem_ndindex2]
    omega

theorem sq_elements {a : HamArgs} (ha : a.Valid) {w : ℕ} (hw : a.n ≤ w) {e0 : WithTop ℝ} (h : BuildEspace w a none (.ok (es, e0))) (junk : ℕ) (egs : ℝ) (cutoff : Option ℝ) :
    ∃ gd ngs, sqBuild junk a.n egs es cutoff = .ok gd ∧ groundSectors es egs = .ok ngs ∧
      (∀ F I, (∃ g, dictGet gd (F, I) = .ok g) ↔ IsState a.n F ∧ IsState a.n I ∧ (∃ σ, OneMore σ F I ∨ OneMore σ I F) ∧
        (F.1, F.2.1) ∈ sqActive a.n ngs ∧ (I.1, I.2.1) ∈ sqActive a.n ngs ∧ WithinCutoff es egs cutoff F I) ∧
      ∀ F I g, dictGet gd (F, I) = .ok g → ∀ σ,
        (OneMore σ F I → g.el = true ∧ g.E = idEnergy es F - idEnergy es I ∧ ∃ s, s ^ 2 = 1 ∧ g.v = (List.range a.n).map fun k => s * addAmp a.n es σ F I k) ∧
        (OneMore σ I F → g.el = false ∧ g.E = idEnergy es I - idEnergy es F ∧ ∃ s, s ^ 2 = 1 ∧ g.v = (List.range a.n).map fun k => s * addAmp a.n es σ I F k) := by
  obtain ⟨hs, ngs, hg, hact⟩ := espace_active ha hw h egs
  obtain ⟨gd, h1, h2⟩ := sqBuild_get (junk := junk) ha.le hs hg hact cutoff
  have hE := buildEspace_eigen ha hw h
  have hlen : ∀ (u d : ℕ) (s : Sct), dictGet es (u, d) = .ok s → u ≤ a.n ∧ d ≤ a.n ∧ s.eigvals.length = a.n.choose u * a.n.choose d := by
    intro u d s hsd
    obtain ⟨b1, b2, -⟩ := hs _ _ hsd
    obtain ⟨up, dw, -, hget, -, -, -, hl⟩ := hE.toCompleteEspace.at (u := u) (d := d) b1 b2
    rw [hsd] at hget
    rw [Except.ok.inj hget]
    exact ⟨b1, b2, hl⟩
  have hen : ∀ (q : ℕ × ℕ) (s : Sct) (i : ℕ), dictGet es q = .ok s → idEnergy es ((zp q).1, (zp q).2, i) = s.eigvals[i]?.getD 0 := by
    intro q s i hq
    unfold idEnergy
    rw [show (((zp q).1, (zp q).2, i).1, (((zp q).1, (zp q).2, i) : TId).2.1) = zp q from rfl, espaceGet_zp, hq]
  have hen' : ∀ (u d : ℕ) (s : Sct) (i : ℕ), dictGet es (u, d) = .ok s → idEnergy es ((u : ℤ), (d : ℤ), i) = s.eigvals[i]?.getD 0 := fun u d s i hq => hen (u, d) s i hq
  have hmore : ∀ (σ : Bool) (u d i j : ℕ), OneMore σ ((zp (addSpin σ u d)).1, (zp (addSpin σ u d)).2, j) ((u : ℤ), (d : ℤ), i) := by
    intro σ u d i j
    cases σ <;> simp [OneMore, zp, addSpin]
  have huniq : ∀ (σ τ : Bool) (F I : TId), OneMore σ F I → OneMore τ F I → σ = τ := by
    rintro σ τ F I ⟨h1, h2⟩ ⟨h3, h4⟩
    cases σ <;> cases τ <;> simp at * <;> omega
  have hasym : ∀ (σ τ : Bool) (F I : TId), OneMore σ F I → ¬ OneMore τ I F := by
    rintro σ τ F I ⟨h1, h2⟩ ⟨h3, h4⟩
    cases σ <;> cases τ <;> simp at * <;> omega
  have hst : ∀ (q : ℕ × ℕ) (s : Sct) (i : ℕ), dictGet es q = .ok s → i < s.eigvals.length → IsState a.n ((zp q).1, (zp q).2, i) := by
    rintro ⟨u, d⟩ s i hq hi
    obtain ⟨b1, b2, hl⟩ := hlen u d s hq
    refine ⟨?_, ?_, ?_, ?_, ?_⟩ <;> simp only [zp] <;> try omega
    rw [hl] at hi
    simpa using hi
  have hrow : ∀ (σ : Bool) (u d : ℕ) (I J : Sct) (i j : ℕ), dictGet es (u, d) = .ok I → dictGet es (addSpin σ u d) = .ok J →
      rowOf a.n σ d J I j i = (List.range a.n).map fun k => upSign σ d * addAmp a.n es σ ((zp (addSpin σ u d)).1, (zp (addSpin σ u d)).2, j) ((u : ℤ), (d : ℤ), i) k := by
    intro σ u d I J i j hI hJ
    have e1 : idKet a.n es ((u : ℤ), (d : ℤ), i) = I.ket a.n i := by
      unfold idKet
      simp only [Int.toNat_natCast]
      rw [sctAt_eq hI]
    have e2 : idKet a.n es ((zp (addSpin σ u d)).1, (zp (addSpin σ u d)).2, j) = J.ket a.n j := by
      unfold idKet
      simp only [zp, Int.toNat_natCast]
      rw [sctAt_eq hJ]
    unfold rowOf addAmp
    rw [e1, e2]
  refine ⟨gd, ngs, h1, hg, fun F I => ⟨?_, ?_⟩, fun F I g hgd τ => ?_⟩
  · rintro ⟨g, hgd⟩
    obtain ⟨⟨hm, hid⟩, hc⟩ := (h2 F I g).mp hgd
    obtain ⟨σ, u, d, sI, sJ, i, j, hI, hJ, ha1, ha2, hi, hj, rfl | rfl⟩ := (allElements_iff ha.le hs hact g).mp hm
    · simp only [Prod.mk.injEq] at hid
      obtain ⟨rfl, rfl⟩ := hid
      refine ⟨hst _ _ _ hJ hj, hst (u, d) _ _ hI hi, ⟨σ, .inl (hmore σ u d i j)⟩, ha2, ha1, fun c hcc => ?_⟩
      obtain ⟨k1, k2, k3⟩ := hc c hcc
      refine ⟨?_, k2, k3⟩
      rw [hen _ _ _ hJ, hen' u d _ _ hI]
      exact k1
    · simp only [Prod.mk.injEq] at hid
      obtain ⟨rfl, rfl⟩ := hid
      refine ⟨hst (u, d) _ _ hI hi, hst _ _ _ hJ hj, ⟨σ, .inr (hmore σ u d i j)⟩, ha1, ha2, fun c hcc => ?_⟩
      obtain ⟨k1, k2, k3⟩ := hc c hcc
      refine ⟨?_, k2, k3⟩
      rw [hen _ _ _ hJ, hen' u d _ _ hI, abs_sub_comm]
      exact k1
  · have build : ∀ (σ : Bool) (F I : TId), IsState a.n F → IsState a.n I → OneMore σ F I → (F.1, F.2.1) ∈ sqActive a.n ngs → (I.1, I.2.1) ∈ sqActive a.n ngs →
        ∃ (u d : ℕ) (sI sJ : Sct) (i j : ℕ), I = ((u : ℤ), (d : ℤ), i) ∧ F = ((zp (addSpin σ u d)).1, (zp (addSpin σ u d)).2, j) ∧ dictGet es (u, d) = .ok sI ∧ dictGet es (addSpin σ u d) = .ok sJ ∧
          zp (u, d) ∈ sqActive a.n ngs ∧ zp (addSpin σ u d) ∈ sqActive a.n ngs ∧ i < sI.eigvals.length ∧ j < sJ.eigvals.length := by
      rintro σ ⟨F1, F2, j⟩ ⟨I1, I2, i⟩ hF hI hσ aF aI
      obtain ⟨⟨u, d⟩, sI, eI, hsI⟩ := hact _ aI
      obtain ⟨⟨u', d'⟩, sJ, eJ, hsJ⟩ := hact _ aF
      simp only [zp, Prod.mk.injEq] at eI eJ
      obtain ⟨rfl, rfl⟩ := eI
      obtain ⟨rfl, rfl⟩ := eJ
      have e : (u', d') = addSpin σ u d := by
        obtain ⟨s1, s2⟩ := hσ
        cases σ <;> simp [addSpin] at * <;> omega
      refine ⟨u, d, sI, sJ, i, j, rfl, by rw [← e]; rfl, hsI, e ▸ hsJ, aI, e ▸ aF, ?_, ?_⟩
      · rw [(hlen _ _ _ hsI).2.2]
        simpa using hI.2.2.2.2
      · rw [(hlen _ _ _ hsJ).2.2]
        simpa using hF.2.2.2.2
    rintro ⟨hF, hI, ⟨σ, hσ | hσ⟩, aF, aI, hc⟩
    · obtain ⟨u, d, sI, sJ, i, j, rfl, rfl, hsI, hsJ, a1, a2, hi, hj⟩ := build σ F I hF hI hσ aF aI
      refine ⟨_, (h2 _ _ _).mpr ⟨⟨(allElements_iff ha.le hs hact _).mpr ⟨σ, u, d, sI, sJ, i, j, hsI, hsJ, a1, a2, hi, hj, .inl rfl⟩, rfl⟩, fun c hcc => ?_⟩⟩
      obtain ⟨k1, k2, k3⟩ := hc c hcc
      refine ⟨?_, k2, k3⟩
      rw [hen _ _ _ hsJ, hen' u d _ _ hsI] at k1
      exact k1
    · obtain ⟨u, d, sI, sJ, i, j, rfl, rfl, hsI, hsJ, a1, a2, hi, hj⟩ := build σ I F hI hF hσ aI aF
      refine ⟨_, (h2 _ _ _).mpr ⟨⟨(allElements_iff ha.le hs hact _).mpr ⟨σ, u, d, sI, sJ, i, j, hsI, hsJ, a1, a2, hi, hj, .inr rfl⟩, rfl⟩, fun c hcc => ?_⟩⟩
      obtain ⟨k1, k2, k3⟩ := hc c hcc
      refine ⟨?_, k2, k3⟩
      rw [hen _ _ _ hsJ, hen' u d _ _ hsI, abs_sub_comm] at k1
      exact k1
  · obtain ⟨⟨hm, hid⟩, hc⟩ := (h2 F I g).mp hgd
    obtain ⟨σ, u, d, sI, sJ, i, j, hI, hJ, ha1, ha2, hi, hj, rfl | rfl⟩ := (allElements_iff ha.le hs hact g).mp hm
    · simp only [Prod.mk.injEq] at hid
      obtain ⟨rfl, rfl⟩ := hid
      refine ⟨fun hτ => ?_, fun hτ => absurd hτ (hasym σ τ _ _ (hmore σ u d i j))⟩
      obtain rfl := huniq σ τ _ _ (hmore σ u d i j) hτ
      refine ⟨rfl, ?_, upSign σ d, upSign_sq σ d, hrow σ u d sI sJ i j hI hJ⟩
      rw [hen _ _ _ hJ, hen' u d _ _ hI]
    · simp only [Prod.mk.injEq] at hid
      obtain ⟨rfl, rfl⟩ := hid
      refine ⟨fun hτ => absurd hτ (hasym σ τ _ _ (hmore σ u d i j)), fun hτ => ?_⟩
      obtain rfl := huniq σ τ _ _ (hmore σ u d i j) hτ
      refine ⟨rfl, ?_, upSign σ d, upSign_sq σ d, hrow σ u d sI sJ i j hI hJ⟩
      rw [hen _ _ _ hJ, hen' u d _ _ hI]

/-- The elements between the sectors of a list, whatever the list. -/
theorem elements_between {a : HamArgs} (ha : a.Valid) {w : ℕ} (hw : a.n ≤ w) {e0 : WithTop ℝ} (h : BuildEspace w a none (.ok (es, e0))) (junk : ℕ) (hs : SectorsOk a.n es)
    {act : List (ℤ × ℤ)} (hact : ActiveIn es act) :
    (∀ F I, (∃ g ∈ allElements junk a.n es act, (g.idF, g.idI) = (F, I)) ↔ IsState a.n F ∧ IsState a.n I ∧ (∃ σ, OneMore σ F I ∨ OneMore σ I F) ∧ (F.1, F.2.1) ∈ act ∧ (I.1, I.2.1) ∈ act) ∧
      ∀ F I, ∀ g ∈ allElements junk a.n es act, (g.idF, g.idI) = (F, I) → ∀ σ,
        (OneMore σ F I → g.el = true ∧ g.E = idEnergy es F - idEnergy es I ∧ ∃ s, s ^ 2 = 1 ∧ g.v = (List.range a.n).map fun k => s * addAmp a.n es σ F I k) ∧
        (OneMore σ I F → g.el = false ∧ g.E = idEnergy es I - idEnergy es F ∧ ∃ s, s ^ 2 = 1 ∧ g.v = (List.range a.n).map fun k => s * addAmp a.n es σ I F k) := by
  have hE := buildEspace_eigen ha hw h
  have hlen : ∀ (u d : ℕ) (s : Sct), dictGet es (u, d) = .ok s → u ≤ a.n ∧ d ≤ a.n ∧ s.eigvals.length = a.n.choose u * a.n.choose d := by
    intro u d s hsd
    obtain ⟨b1, b2, -⟩ := hs _ _ hsd
    obtain ⟨up, dw, -, hget, -, -, -, hl⟩ := hE.toCompleteEspace.at (u := u) (d := d) b1 b2
    rw [hsd] at hget
    rw [Except.ok.inj hget]
    exact ⟨b1, b2, hl⟩
  have hen : ∀ (q : ℕ × ℕ) (s : Sct) (i : ℕ), dictGet es q = .ok s → idEnergy es ((zp q).1, (zp q).2, i) = s.eigvals[i]?.getD 0 := by
    intro q s i hq
    unfold idEnergy
    rw [show (((zp q).1, (zp q).2, i).1, (((zp q).1, (zp q).2, i) : TId).2.1) = zp q from rfl, espaceGet_zp, hq]
  have hen' : ∀ (u d : ℕ) (s : Sct) (i : ℕ), dictGet es (u, d) = .ok s → idEnergy es ((u : ℤ), (d : ℤ), i) = s.eigvals[i]?.getD 0 := fun u d s i hq => hen (u, d) s i hq
  have hmore : ∀ (σ : Bool) (u d i j : ℕ), OneMore σ ((zp (addSpin σ u d)).1, (zp (addSpin σ u d)).2, j) ((u : ℤ), (d : ℤ), i) := by
    intro σ u d i j
    cases σ <;> simp [OneMore, zp, addSpin]
  have huniq : ∀ (σ τ : Bool) (F I : TId), OneMore σ F I → OneMore τ F I → σ = τ := by
    rintro σ τ F I ⟨h1, h2⟩ ⟨h3, h4⟩
    cases σ <;> cases τ <;> simp at * <;> omega
  have hasym : ∀ (σ τ : Bool) (F I : TId), OneMore σ F I → ¬ OneMore τ I F := by
    rintro σ τ F I ⟨h1, h2⟩ ⟨h3, h4⟩
    cases σ <;> cases τ <;> simp at * <;> omega
  have hst : ∀ (q : ℕ × ℕ) (s : Sct) (i : ℕ), dictGet es q = .ok s → i < s.eigvals.length → IsState a.n ((zp q).1, (zp q).2, i) := by
    rintro ⟨u, d⟩ s i hq hi
    obtain ⟨b1, b2, hl⟩ := hlen u d s hq
    refine ⟨?_, ?_, ?_, ?_, ?_⟩ <;> simp only [zp] <;> try omega
    rw [hl] at hi
    simpa using hi
  have hrow : ∀ (σ : Bool) (u d : ℕ) (I J : Sct) (i j : ℕ), dictGet es (u, d) = .ok I → dictGet es (addSpin σ u d) = .ok J →
      rowOf a.n σ d J I j i = (List.range a.n).map fun k => upSign σ d * addAmp a.n es σ ((zp (addSpin σ u d)).1, (zp (addSpin σ u d)).2, j) ((u : ℤ), (d : ℤ), i) k := by
    intro σ u d I J i j hI hJ
    have e1 : idKet a.n es ((u : ℤ), (d : ℤ), i) = I.ket a.n i := by
      unfold idKet
      simp only [Int.toNat_natCast]
      rw [sctAt_eq hI]
    have e2 : idKet a.n es ((zp (addSpin σ u d)).1, (zp (addSpin σ u d)).2, j) = J.ket a.n j := by
      unfold idKet
      simp only [zp, Int.toNat_natCast]
      rw [sctAt_eq hJ]
    unfold rowOf addAmp
    rw [e1, e2]
  refine ⟨fun F I => ⟨?_, ?_⟩, fun F I g hm hid τ => ?_⟩
  · rintro ⟨g, hm, hid⟩
    obtain ⟨σ, u, d, sI, sJ, i, j, hI, hJ, ha1, ha2, hi, hj, rfl | rfl⟩ := (allElements_iff ha.le hs hact g).mp hm
    · simp only [Prod.mk.injEq] at hid
      obtain ⟨rfl, rfl⟩ := hid
      exact ⟨hst _ _ _ hJ hj, hst (u, d) _ _ hI hi, ⟨σ, .inl (hmore σ u d i j)⟩, ha2, ha1⟩
    · simp only [Prod.mk.injEq] at hid
      obtain ⟨rfl, rfl⟩ := hid
      exact ⟨hst (u, d) _ _ hI hi, hst _ _ _ hJ hj, ⟨σ, .inr (hmore σ u d i j)⟩, ha1, ha2⟩
  · have build : ∀ (σ : Bool) (F I : TId), IsState a.n F → IsState a.n I → OneMore σ F I → (F.1, F.2.1) ∈ act → (I.1, I.2.1) ∈ act →
        ∃ (u d : ℕ) (sI sJ : Sct) (i j : ℕ), I = ((u : ℤ), (d : ℤ), i) ∧ F = ((zp (addSpin σ u d)).1, (zp (addSpin σ u d)).2, j) ∧ dictGet es (u, d) = .ok sI ∧ dictGet es (addSpin σ u d) = .ok sJ ∧
          zp (u, d) ∈ act ∧ zp (addSpin σ u d) ∈ act ∧ i < sI.eigvals.length ∧ j < sJ.eigvals.length := by
      rintro σ ⟨F1, F2, j⟩ ⟨I1, I2, i⟩ hF hI hσ aF aI
      obtain ⟨⟨u, d⟩, sI, eI, hsI⟩ := hact _ aI
      obtain ⟨⟨u', d'⟩, sJ, eJ, hsJ⟩ := hact _ aF
      simp only [zp, Prod.mk.injEq] at eI eJ
      obtain ⟨rfl, rfl⟩ := eI
      obtain ⟨rfl, rfl⟩ := eJ
      have e : (u', d') = addSpin σ u d := by
        obtain ⟨s1, s2⟩ := hσ
        cases σ <;> simp [addSpin] at * <;> omega
      refine ⟨u, d, sI, sJ, i, j, rfl, by rw [← e]; rfl, hsI, e ▸ hsJ, aI, e ▸ aF, ?_, ?_⟩
      · rw [(hlen _ _ _ hsI).2.2]
        simpa using hI.2.2.2.2
      · rw [(hlen _ _ _ hsJ).2.2]
        simpa using hF.2.2.2.2
    rintro ⟨hF, hI, ⟨σ, hσ | hσ⟩, aF, aI⟩
    · obtain ⟨u, d, sI, sJ, i, j, rfl, rfl, hsI, hsJ, a1, a2, hi, hj⟩ := build σ F I hF hI hσ aF aI
      exact ⟨_, (allElements_iff ha.le hs hact _).mpr ⟨σ, u, d, sI, sJ, i, j, hsI, hsJ, a1, a2, hi, hj, .inl rfl⟩, rfl⟩
    · obtain ⟨u, d, sI, sJ, i, j, rfl, rfl, hsI, hsJ, a1, a2, hi, hj⟩ := build σ I F hI hF hσ aI aF
      exact ⟨_, (allElements_iff ha.le hs hact _).mpr ⟨σ, u, d, sI, sJ, i, j, hsI, hsJ, a1, a2, hi, hj, .inr rfl⟩, rfl⟩
  · obtain ⟨σ, u, d, sI, sJ, i, j, hI, hJ, ha1, ha2, hi, hj, rfl | rfl⟩ := (allElements_iff ha.le hs hact g).mp hm
    · simp only [Prod.mk.injEq] at hid
      obtain ⟨rfl, rfl⟩ := hid
      refine ⟨fun hτ => ?_, fun hτ => absurd hτ (hasym σ τ _ _ (hmore σ u d i j))⟩
      obtain rfl := huniq σ τ _ _ (hmore σ u d i j) hτ
      refine ⟨rfl, ?_, upSign σ d, upSign_sq σ d, hrow σ u d sI sJ i j hI hJ⟩
      rw [hen _ _ _ hJ, hen' u d _ _ hI]
    · simp only [Prod.mk.injEq] at hid
      obtain ⟨rfl, rfl⟩ := hid
      refine ⟨fun hτ => absurd hτ (hasym σ τ _ _ (hmore σ u d i j)), fun hτ => ?_⟩
      obtain rfl := huniq σ τ _ _ (hmore σ u d i j) hτ
      refine ⟨rfl, ?_, upSign σ d, upSign_sq σ d, hrow σ u d sI sJ i j hI hJ⟩
      rw [hen _ _ _ hJ, hen' u d _ _ hI]

/-- `insertAll` from any dictionary: the new elements, else what was there. -/
theorem dictGet_insertAll_from (gd : GfDict) (L : List GfT) (hL : ∀ g ∈ L, ∀ g' ∈ L, (g.idF, g.idI) = (g'.idF, g'.idI) → g = g') (k : TId × TId) :
    (∀ g ∈ L, (g.idF, g.idI) = k → dictGet (insertAll gd L) k = .ok g) ∧ ((∀ g ∈ L, (g.idF, g.idI) ≠ k) → dictGet (insertAll gd L) k = dictGet gd k) := by
  induction L using List.reverseRecOn with
  | nil => simp [insertAll]
  | append_singleton L a ih =>
    obtain ⟨ih1, ih2⟩ := ih fun g hg g' hg' => hL g (by simp [hg]) g' (by simp [hg'])
    have e : dictGet (insertAll gd (L ++ [a])) k = if (a.idF, a.idI) = k then .ok a else dictGet (insertAll gd L) k := by
      rw [insertAll, List.foldl_append, List.foldl_cons, List.foldl_nil, dictGet_dictSet]
      rfl
    rw [e]
    refine ⟨fun g hg hk => ?_, fun hn => ?_⟩
    · split
      · rename_i hak
        rw [hL a (by simp) g hg (hak.trans hk.symm)]
      · rename_i hak
        rcases List.mem_append.mp hg with h' | h'
        · exact ih1 g h' hk
        · obtain rfl := List.mem_singleton.mp h'
          exact absurd hk hak
    · rw [if_neg (hn a (by simp))]
      exact ih2 fun g hg => hn g (by simp [hg])

/-- A pass towards numbers outside of the Hilbert space changes nothing. -/
theorem sqProjectStep_out {junk n u d : ℕ} {es : Espace (ℕ × ℕ)} {v : ℤ × ℤ} (hv : v ∈ allDns) (hu : u ≤ n) (hd : d ≤ n)
    (ho : ¬ (0 ≤ (u : ℤ) + v.1 ∧ (u : ℤ) + v.1 ≤ n ∧ 0 ≤ (d : ℤ) + v.2 ∧ (d : ℤ) + v.2 ≤ n)) {s : Sct} (hs : dictGet es (u, d) = .ok s) (gd : GfDict) :
    sqProjectStep junk n (zp (u, d)) es gd v = .ok gd := by
  have hg : espaceGet es (zp (u, d)) = .ok s := by rw [espaceGet_zp, hs]
  rw [allDns_eq] at hv
  simp only [List.mem_cons, List.not_mem_nil, or_false] at hv
  unfold sqProjectStep
  rcases hv with rfl | rfl | rfl | rfl
  · rw [show getdns (-1, 0) = .ok (-1, 1) by decide]
    have : u = 0 := by simp only at ho; omega
    subst this
    simp [sqProjectSub, getCSector, zp, Bind.bind, Except.bind, pure, Except.pure]
  · rw [show getdns (0, -1) = .ok (-1, -1) by decide]
    have : d = 0 := by simp only at ho; omega
    subst this
    simp [sqProjectSub, getCSector, zp, Bind.bind, Except.bind, pure, Except.pure]
  · rw [show getdns (1, 0) = .ok (1, 1) by decide]
    have : u = n := by simp only at ho; omega
    subst this
    simp [sqProjectAdd, getCdgSector, zp, Bind.bind, Except.bind, pure, Except.pure]
  · rw [show getdns (0, 1) = .ok (1, -1) by decide]
    have : d = n := by simp only at ho; omega
    subst this
    simp [sqProjectAdd, getCdgSector, zp, Bind.bind, Except.bind, pure, Except.pure]

theorem abs_add_abs_le_one (x y : ℤ) : |x| + |y| ≤ 1 ↔ (x = 0 ∧ y = 0) ∨ (x = 1 ∧ y = 0) ∨ (x = -1 ∧ y = 0) ∨ (x = 0 ∧ y = 1) ∨ (x = 0 ∧ y = -1) := by
  rcases abs_cases x with ⟨h1, h3⟩ | ⟨h1, h3⟩ <;> rcases abs_cases y with ⟨h2, h4⟩ | ⟨h2, h4⟩ <;> omega

theorem nearGround_iff {a : HamArgs} (ha : a.Valid) {w : ℕ} (hw : a.n ≤ w) {e0 : WithTop ℝ} (h : BuildEspace w a none (.ok (es, e0))) {egs : ℝ} {ngs : List (ℤ × ℤ)}
    (hg : groundSectors es egs = .ok ngs) {id : TId} (hid : IsState a.n id) : (id.1, id.2.1) ∈ sqActive a.n ngs ↔ NearGround a.n es egs id := by
  obtain ⟨ngs', e1, e2⟩ := groundSectors_complete (buildEspace_eigen ha hw h) egs
  rw [hg] at e1
  obtain rfl := Except.ok.inj e1
  obtain ⟨x1, x2, i⟩ := id
  obtain ⟨b1, b2, b3, b4, -⟩ := hid
  rw [C59_mem]
  simp only [e2]
  unfold NearGround
  simp only at b1 b2 b3 b4 ⊢
  constructor
  · rintro (⟨g, g1, g2, g3, g4⟩ | ⟨-, ⟨g, g1, g2, g3, g4⟩ | ⟨g, g1, g2, g3, g4⟩ | ⟨g, g1, g2, g3, g4⟩ | ⟨g, g1, g2, g3, g4⟩⟩) <;> refine ⟨g, g1, g2, g4, ?_⟩ <;>
      simp only [zp, Prod.mk.injEq] at g3 <;> rw [abs_add_abs_le_one] <;> omega
  · rintro ⟨g, g1, g2, g3, g4⟩
    have : (x1 = g.1 ∧ x2 = g.2) ∨ (x1 + 1 = g.1 ∧ x2 = g.2) ∨ (x1 - 1 = g.1 ∧ x2 = g.2) ∨ (x1 = g.1 ∧ x2 + 1 = g.2) ∨ (x1 = g.1 ∧ x2 - 1 = g.2) := by
      rw [abs_add_abs_le_one] at g4
      omega
    simp only [zp, Prod.mk.injEq]
    rcases this with h | h | h | h | h
    · exact .inl ⟨g, g1, g2, h, g3⟩
    · exact .inr ⟨⟨b1, b2, b3, b4⟩, .inl ⟨g, g1, g2, h, g3⟩⟩
    · exact .inr ⟨⟨b1, b2, b3, b4⟩, .inr (.inl ⟨g, g1, g2, h, g3⟩)⟩
    · exact .inr ⟨⟨b1, b2, b3, b4⟩, .inr (.inr (.inl ⟨g, g1, g2, h, g3⟩))⟩
    · exact .inr ⟨⟨b1, b2, b3, b4⟩, .inr (.inr (.inr ⟨g, g1, g2, h, g3⟩))⟩

/-! ## C155 -/

/-- **C155** On the full spectrum from `build_espace`, for every cutoff: `build_transition_elements` returns a dictionary that holds an element for the
states `F`, `I` exactly if they differ by one electron, both are in a ground state sector or a neighbour of one, and the cutoff keeps them. The
element stores the energy `E(N+1) - E(N)`, its kind, and the amplitudes `⟨N+1| c†_{k,σ} |N⟩` of all sites `k` with a common sign. -/
theorem C155_elements {a : HamArgs} (ha : a.Valid) {w : ℕ} (hw : a.n ≤ w) {e0 : WithTop ℝ} (h : BuildEspace w a none (.ok (es, e0))) (junk : ℕ) (egs : ℝ) (cutoff : Option ℝ) :
    ∃ gd, sqBuild junk a.n egs es cutoff = .ok gd ∧
      (∀ F I, (∃ g, dictGet gd (F, I) = .ok g) ↔ IsState a.n F ∧ IsState a.n I ∧ (∃ σ, OneMore σ F I ∨ OneMore σ I F) ∧
        NearGround a.n es egs F ∧ NearGround a.n es egs I ∧ WithinCutoff es egs cutoff F I) ∧
      ∀ F I g, dictGet gd (F, I) = .ok g → ∀ σ,
        (OneMore σ F I → g.el = true ∧ g.E = idEnergy es F - idEnergy es I ∧ ∃ s, s ^ 2 = 1 ∧ g.v = (List.range a.n).map fun k => s * addAmp a.n es σ F I k) ∧
        (OneMore σ I F → g.el = false ∧ g.E = idEnergy es I - idEnergy es F ∧ ∃ s, s ^ 2 = 1 ∧ g.v = (List.range a.n).map fun k => s * addAmp a.n es σ I F k) := by
  obtain ⟨gd, ngs, h1, h2, h3, h4⟩ := sq_elements ha hw h junk egs cutoff
  refine ⟨gd, h1, fun F I => ?_, h4⟩
  rw [h3]
  constructor
  · rintro ⟨c1, c2, c3, c4, c5, c6⟩
    exact ⟨c1, c2, c3, (nearGround_iff ha hw h h2 c1).mp c4, (nearGround_iff ha hw h h2 c2).mp c5, c6⟩
  · rintro ⟨c1, c2, c3, c4, c5, c6⟩
    exact ⟨c1, c2, c3, (nearGround_iff ha hw h h2 c1).mpr c4, (nearGround_iff ha hw h h2 c2).mpr c5, c6⟩

/-- **C155** `project_sector` with the default `dns`, on the full spectrum from `build_espace`, for every sector of the Hilbert space and every
dictionary: it never raises, changes to numbers outside of the Hilbert space are passed over, and it sets exactly the elements out of the states
of the sector into the states with one electron more or less, with the values of `C155_elements`. -/
theorem C155_sector {a : HamArgs} (ha : a.Valid) {w : ℕ} (hw : a.n ≤ w) {e0 : WithTop ℝ} (h : BuildEspace w a none (.ok (es, e0))) (junk : ℕ) {u d : ℕ} (hu : u ≤ a.n) (hd : d ≤ a.n) (gd : GfDict) :
    ∃ gd', sqProjectSector junk a.n ((u : ℤ), (d : ℤ)) es gd allDns = .ok gd' ∧
      (∀ F I, ¬ (IsState a.n F ∧ IsState a.n I ∧ (I.1, I.2.1) = ((u : ℤ), (d : ℤ)) ∧ ∃ σ, OneMore σ F I ∨ OneMore σ I F) → dictGet gd' (F, I) = dictGet gd (F, I)) ∧
      ∀ F I, IsState a.n F → IsState a.n I → (I.1, I.2.1) = ((u : ℤ), (d : ℤ)) → ∀ σ,
        (OneMore σ F I → ∃ g, dictGet gd' (F, I) = .ok g ∧ g.el = true ∧ g.E = idEnergy es F - idEnergy es I ∧
          ∃ s, s ^ 2 = 1 ∧ g.v = (List.range a.n).map fun k => s * addAmp a.n es σ F I k) ∧
        (OneMore σ I F → ∃ g, dictGet gd' (F, I) = .ok g ∧ g.el = false ∧ g.E = idEnergy es I - idEnergy es F ∧
          ∃ s, s ^ 2 = 1 ∧ g.v = (List.range a.n).map fun k => s * addAmp a.n es σ I F k) := by
  obtain ⟨hs, -⟩ := espace_active ha hw h 0
  obtain ⟨hc, hk⟩ := buildEspace_complete' ha hw h
  have hE := buildEspace_eigen ha hw h
  have hev : ∀ x y : ℕ, x ≤ a.n → y ≤ a.n → ∃ s, dictGet es (x, y) = .ok s := fun x y hx hy => by
    obtain ⟨up, dw, -, hget, -⟩ := hE.toCompleteEspace.at (u := x) (d := y) hx hy
    exact ⟨_, hget⟩
  obtain ⟨act, hactdef⟩ : ∃ act : List (ℤ × ℤ), act = (es.map Prod.fst).map zp := ⟨_, rfl⟩
  have hmem : ∀ x : ℤ × ℤ, x ∈ act ↔ 0 ≤ x.1 ∧ x.1 ≤ a.n ∧ 0 ≤ x.2 ∧ x.2 ≤ a.n := by
    rintro ⟨x, y⟩
    rw [hactdef, List.mem_map]
    constructor
    · rintro ⟨⟨p, q⟩, hp, hq⟩
      rw [hk, mem_ndindex2] at hp
      simp only [zp, Prod.mk.injEq] at hq
      simp only
      omega
    · rintro ⟨h1, h2, h3, h4⟩
      simp only at h1 h2 h3 h4
      refine ⟨(x.toNat, y.toNat), ?_, ?_⟩
      · rw [hk, mem_ndindex2]; simp only; omega
      · simp only [zp, Prod.mk.injEq]; omega
  have hact : ActiveIn es act := by
    rintro ⟨x, y⟩ hx
    obtain ⟨h1, h2, h3, h4⟩ := (hmem _).mp hx
    simp only at h1 h2 h3 h4
    obtain ⟨s, hs'⟩ := hev x.toNat y.toNat (by omega) (by omega)
    exact ⟨(x.toNat, y.toNat), s, by simp only [zp, Prod.mk.injEq]; omega, hs'⟩
  obtain ⟨s0, hs0⟩ := hev u d hu hd
  have hq : ((u : ℤ), (d : ℤ)) ∈ act := (hmem _).mpr (by simp only; omega)
  have hrun : sqProjectSector junk a.n ((u : ℤ), (d : ℤ)) es gd allDns =
      .ok (insertAll gd (allDns.flatMap fun v => if ((u : ℤ) + v.1, (d : ℤ) + v.2) ∈ act then oneList junk a.n es ((u : ℤ), (d : ℤ)) v else [])) := by
    unfold sqProjectSector
    rw [← foldl_insertAll]
    refine forM'_ok _ (fun gd v => insertAll gd (if ((u : ℤ) + v.1, (d : ℤ) + v.2) ∈ act then oneList junk a.n es ((u : ℤ), (d : ℤ)) v else [])) _ _ fun gd v hv => ?_
    split
    · rename_i hin
      obtain ⟨l, l', h1, -⟩ := one_conj ha.le junk hs hact hq hv hin
      rw [oneList_eq h1]
      exact sqProjectStep_ok hv h1 gd
    · rename_i hin
      rw [hmem] at hin
      exact sqProjectStep_out hv hu hd hin hs0 gd
  have hL : ∀ g, (g ∈ allDns.flatMap fun v => if ((u : ℤ) + v.1, (d : ℤ) + v.2) ∈ act then oneList junk a.n es ((u : ℤ), (d : ℤ)) v else []) ↔
      g ∈ allElements junk a.n es act ∧ (g.idI.1, g.idI.2.1) = ((u : ℤ), (d : ℤ)) := by
    intro g
    rw [mem_allElements, List.mem_flatMap]
    constructor
    · rintro ⟨v, hv, hg⟩
      split at hg
      · rename_i hin
        refine ⟨⟨_, v, hq, hv, hin, hg⟩, ?_⟩
        obtain ⟨l, l', h1, -, -, h2, -⟩ := one_conj ha.le junk hs hact hq hv hin
        rw [oneList_eq h1] at hg
        exact (h2 g hg).1
      · simp at hg
    · rintro ⟨⟨q, v, hq', hv, hin, hg⟩, hI⟩
      obtain ⟨l, l', h1, -, -, h2, -⟩ := one_conj ha.le junk hs hact hq' hv hin
      have hg' := hg
      rw [oneList_eq h1] at hg'
      obtain rfl : q = ((u : ℤ), (d : ℤ)) := by rw [← hI, (h2 g hg').1]
      exact ⟨v, hv, by rw [if_pos hin]; exact hg⟩
  obtain ⟨hkey, hval⟩ := elements_between ha hw h junk hs hact
  have hinj : ∀ g ∈ (allDns.flatMap fun v => if ((u : ℤ) + v.1, (d : ℤ) + v.2) ∈ act then oneList junk a.n es ((u : ℤ), (d : ℤ)) v else []),
      ∀ g' ∈ (allDns.flatMap fun v => if ((u : ℤ) + v.1, (d : ℤ) + v.2) ∈ act then oneList junk a.n es ((u : ℤ), (d : ℤ)) v else []), (g.idF, g.idI) = (g'.idF, g'.idI) → g = g' :=
    fun g hg g' hg' => allElements_inj ha.le junk hs hact g ((hL g).mp hg).1 g' ((hL g').mp hg').1
  have hstate : ∀ F, IsState a.n F → (F.1, F.2.1) ∈ act := fun F hF => (hmem _).mpr ⟨hF.1, hF.2.1, hF.2.2.1, hF.2.2.2.1⟩
  refine ⟨_, hrun, fun F I hno => ?_, fun F I hF hI hIq σ => ?_⟩
  · refine (dictGet_insertAll_from gd _ hinj (F, I)).2 fun g hg hgk => hno ?_
    obtain ⟨k1, k2, k3, -, -⟩ := (hkey F I).mp ⟨g, ((hL g).mp hg).1, hgk⟩
    have hI := ((hL g).mp hg).2
    rw [(Prod.mk.inj hgk).2] at hI
    exact ⟨k1, k2, hI, k3⟩
  · have key : (∃ σ, OneMore σ F I ∨ OneMore σ I F) → ∃ g ∈ allElements junk a.n es act, (g.idF, g.idI) = (F, I) ∧
        dictGet (insertAll gd (allDns.flatMap fun v => if ((u : ℤ) + v.1, (d : ℤ) + v.2) ∈ act then oneList junk a.n es ((u : ℤ), (d : ℤ)) v else [])) (F, I) = .ok g := by
      intro hex
      obtain ⟨g, hg, hgk⟩ := (hkey F I).mpr ⟨hF, hI, hex, hstate F hF, hstate I hI⟩
      refine ⟨g, hg, hgk, (dictGet_insertAll_from gd _ hinj (F, I)).1 g ((hL g).mpr ⟨hg, ?_⟩) hgk⟩
      rw [(Prod.mk.inj hgk).2, hIq]
    refine ⟨fun hσ => ?_, fun hσ => ?_⟩
    · obtain ⟨g, hg, hgk, hgd⟩ := key ⟨σ, .inl hσ⟩
      exact ⟨g, hgd, (hval F I g hg hgk σ).1 hσ⟩
    · obtain ⟨g, hg, hgk, hgd⟩ := key ⟨σ, .inr hσ⟩
      exact ⟨g, hgd, (hval F I g hg hgk σ).2 hσ⟩

/-- Non-vacuity: the empty sector of two sites, where removals leave the Hilbert space. -/
example : ∃ es e0 gd' g, BuildEspace 64 exampleArgs none (.ok (es, e0)) ∧ sqProjectSector 0 2 (0, 0) es [] allDns = .ok gd' ∧ dictGet gd' ((1, 0, 0), (0, 0, 0)) = .ok g ∧ g.el = true := by
  obtain ⟨l, hl, hlb⟩ := C25_default_neig exampleArgs.n
  obtain ⟨⟨⟨es, e0⟩, h⟩, -⟩ := C25_build_espace_partial exampleArgs_valid (w := 64) (by simp [exampleArgs]) l hlb
  have h' : BuildEspace 64 exampleArgs none (.ok (es, e0)) := by
    simp only [BuildEspace, hl]
    simpa only [BuildEspace, neigOrDefault] using h
  obtain ⟨gd', h1, -, h3⟩ := C155_sector exampleArgs_valid (by simp [exampleArgs]) h' 0 (u := 0) (d := 0) (by simp) (by simp) []
  obtain ⟨g, hg, he, -⟩ := (h3 (1, 0, 0) (0, 0, 0) (by simp [IsState, exampleArgs]) (by simp [IsState, exampleArgs]) rfl false).1 (by simp [OneMore])
  exact ⟨es, e0, gd', g, h', h1, hg, he⟩

/-- Runs of `build_espace` on the two-site example. -/
theorem exampleArgs_run : ∃ es e0, BuildEspace 64 exampleArgs none (.ok (es, e0)) := by
  obtain ⟨l, hl, hlb⟩ := C25_default_neig exampleArgs.n
  obtain ⟨⟨⟨es, e0⟩, h⟩, -⟩ := C25_build_espace_partial exampleArgs_valid (w := 64) (by simp [exampleArgs]) l hlb
  refine ⟨es, e0, ?_⟩
  simp only [BuildEspace, hl]
  simpa only [BuildEspace, neigOrDefault] using h

/-- Non-vacuity: from one electron on the two sites an electron is added. -/
example : ∃ es e0 egs gd g, BuildEspace 64 exampleArgs none (.ok (es, e0)) ∧ sqBuild 0 2 egs es none = .ok gd ∧ dictGet gd ((1, 1, 3), (1, 0, 0)) = .ok g ∧ g.el = true := by
  obtain ⟨es, e0, h⟩ := exampleArgs_run
  have hE := buildEspace_eigen exampleArgs_valid (by simp [exampleArgs]) h
  obtain ⟨up, dw, -, -, -, -, -, k3⟩ := hE.toCompleteEspace.at (u := 1) (d := 0) (by simp [exampleArgs]) (by simp)
  have k4 : (sctAt es (1, 0)).eigvals.length = 2 := by simpa [exampleArgs] using k3
  obtain ⟨e, t, het⟩ := List.exists_cons_of_ne_nil (l := (sctAt es (1, 0)).eigvals) (by intro h0; rw [h0] at k4; simp at k4)
  obtain ⟨m1, m2⟩ := foldl_min_spec t e
  have hg : GroundSector es (t.foldl min e) (1, 0) := ⟨_, by rw [het]; exact m1, by rw [het]; exact m2, by simp; norm_num⟩
  obtain ⟨gd, h1, h2, h3⟩ := C155_elements exampleArgs_valid (by simp [exampleArgs]) h 0 (t.foldl min e) none
  obtain ⟨g, hgd⟩ := (h2 (1, 1, 3) (1, 0, 0)).mpr ⟨by simp [IsState, exampleArgs], by simp [IsState, exampleArgs], ⟨true, .inl (by simp [OneMore])⟩,
    ⟨(1, 0), by simp [exampleArgs], by simp, hg, by simp⟩, ⟨(1, 0), by simp [exampleArgs], by simp, hg, by simp⟩, by simp [WithinCutoff]⟩
  exact ⟨es, e0, _, gd, g, h, h1, hgd, ((h3 _ _ _ hgd true).1 (by simp [OneMore])).1⟩

end Edpyt
