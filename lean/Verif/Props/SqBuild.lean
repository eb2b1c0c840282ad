import Verif.Proof.SqBuild
import Verif.Props.SqTunneling
import Verif.Props.GfExact
/-!
C56 end to end, C59: the dictionary of transition elements of sequential tunnelling.
-/
namespace Edpyt
open Spec

theorem dictGet_mem_of_ok {α β : Type} [DecidableEq α] {es : List (α × β)} {q : α} {s : β} (h : dictGet es q = .ok s) : (q, s) ∈ es :=
  List.mem_of_find?_eq_some (dictGet_eq_ok.mp h)

theorem dictGet_of_key {α β : Type} [DecidableEq α] {es : List (α × β)} {q : α} (h : q ∈ es.map Prod.fst) : ∃ s, dictGet es q = .ok s := by
  induction es with
  | nil => simp at h
  | cons p es ih =>
    rw [dictGet_cons]
    by_cases hp : p.1 = q
    · exact ⟨_, by rw [if_pos hp]⟩
    · rw [if_neg hp]
      refine ih ?_
      rcases List.mem_map.mp h with ⟨x, hx, rfl⟩
      rcases List.mem_cons.mp hx with rfl | hx
      · exact absurd rfl hp
      · exact List.mem_map.mpr ⟨x, hx, rfl⟩

theorem mem_dictSet {α β : Type} [DecidableEq α] {es : List (α × β)} {q : α} {s : β} {p : α × β} (h : p ∈ dictSet es q s) : p ∈ es ∨ p = (q, s) := by
  unfold dictSet at h
  split at h
  · obtain ⟨x, hx, rfl⟩ := List.mem_map.mp h
    split
    · right; rfl
    · left; exact hx
  · rcases List.mem_append.mp h with h | h
    · left; exact h
    · right; simpa using h

theorem mem_insertAll {L : List GfT} {p : (TId × TId) × GfT} (h : p ∈ insertAll [] L) : p.2 ∈ L ∧ p.1 = (p.2.idF, p.2.idI) := by
  induction L using List.reverseRecOn with
  | nil => simp [insertAll] at h
  | append_singleton L a ih =>
    rw [insertAll, List.foldl_append, List.foldl_cons, List.foldl_nil] at h
    rcases mem_dictSet h with h | h
    · obtain ⟨h1, h2⟩ := ih h
      exact ⟨by simp [h1], h2⟩
    · subst h; exact ⟨by simp, rfl⟩

/-! ### Ground state sectors -/

theorem groundSectors_ok {es : Espace (ℕ × ℕ)} (hne : ∀ p ∈ es, p.2.eigvals ≠ []) (egs : ℝ) :
    ∃ ngs, groundSectors es egs = .ok ngs ∧ ∀ q ∈ ngs, ∃ q' ∈ es.map Prod.fst, q = zp q' := by
  have key : ∀ (l : Espace (ℕ × ℕ)) (acc : List (ℤ × ℤ)), (∀ p ∈ l, p ∈ es) → (∀ q ∈ acc, ∃ q' ∈ es.map Prod.fst, q = zp q') →
      ∃ ngs, forM' (fun (acc : List (ℤ × ℤ)) (p : (ℕ × ℕ) × Sct) => (match p.2.eigvals with
        | [] => .error .valueError
        | e :: l => pure (if |l.foldl min e - egs| < 1e-9 then acc ++ [((p.1.1 : ℤ), (p.1.2 : ℤ))] else acc) : Except PyErr _)) l acc = .ok ngs ∧
        ∀ q ∈ ngs, ∃ q' ∈ es.map Prod.fst, q = zp q' := by
    intro l
    induction l with
    | nil => intro acc _ ha; exact ⟨acc, rfl, ha⟩
    | cons p l ih =>
      intro acc hl ha
      have hp := hl p (by simp)
      cases he : p.2.eigvals with
      | nil => exact absurd he (hne p hp)
      | cons e t =>
        simp only [forM', he, pure, Except.pure]
        refine ih _ (fun x hx => hl x (by simp [hx])) ?_
        split
        · intro q hq
          rcases List.mem_append.mp hq with hq | hq
          · exact ha q hq
          · rw [List.mem_singleton] at hq
            exact ⟨p.1, List.mem_map.mpr ⟨p, hp, rfl⟩, hq⟩
        · exact ha
  exact key es [] (fun _ h => h) (by simp)

/-! ### C59 -/

/-- C59: all active sectors are valid. -/
theorem C59_valid (n : ℕ) (ngs : List (ℤ × ℤ)) (h : ∀ q ∈ ngs, 0 ≤ q.1 ∧ q.1 ≤ n ∧ 0 ≤ q.2 ∧ q.2 ≤ n) :
    ∀ q ∈ sqActive n ngs, 0 ≤ q.1 ∧ q.1 ≤ n ∧ 0 ≤ q.2 ∧ q.2 ≤ n := by
  intro q hq
  rcases List.mem_append.mp hq with hq | hq
  · exact of_decide_eq_true (List.mem_filter.mp hq).2
  · exact h q hq

/-- C59: exactly the ground state sectors and the valid sectors with one electron more or less of one spin are active. -/
theorem C59_mem (n : ℕ) (ngs : List (ℤ × ℤ)) (q : ℤ × ℤ) :
    q ∈ sqActive n ngs ↔ q ∈ ngs ∨ ((0 ≤ q.1 ∧ q.1 ≤ n ∧ 0 ≤ q.2 ∧ q.2 ≤ n) ∧
      ((q.1 + 1, q.2) ∈ ngs ∨ (q.1 - 1, q.2) ∈ ngs ∨ (q.1, q.2 + 1) ∈ ngs ∨ (q.1, q.2 - 1) ∈ ngs)) := by
  unfold sqActive reachedByGs
  rw [List.mem_append, List.mem_filter, allDns_eq]
  simp only [List.mem_flatMap, List.map_cons, List.map_nil, List.mem_cons, List.not_mem_nil, or_false, decide_eq_true_eq]
  constructor
  · rintro (⟨⟨x, hx, h⟩, hv⟩ | h)
    · right
      refine ⟨hv, ?_⟩
      rcases h with rfl | rfl | rfl | rfl
      · left; simpa using hx
      · right; right; left; simpa using hx
      · right; left; simpa using hx
      · right; right; right; simpa using hx
    · left; exact h
  · rintro (h | ⟨hv, h⟩)
    · right; exact h
    · left
      refine ⟨?_, hv⟩
      rcases h with h | h | h | h
      · exact ⟨_, h, by left; simp⟩
      · exact ⟨_, h, by right; right; left; simp⟩
      · exact ⟨_, h, by right; left; simp⟩
      · exact ⟨_, h, by right; right; right; simp⟩

theorem sqBuild_none {n : ℕ} (hn : n ≤ 32) (junk : ℕ) {es : Espace (ℕ × ℕ)} (hes : SectorsOk n es) {egs : ℝ} {ngs : List (ℤ × ℤ)}
    (hg : groundSectors es egs = .ok ngs) (hact : ActiveIn es (sqActive n ngs)) :
    sqBuild junk n egs es none = .ok (insertAll [] (allElements junk n es (sqActive n ngs))) := by
  simp only [sqBuild, hg, bind, Except.bind, sqBuild_loop hn junk hes hact, pure, Except.pure]

/-- C59: when the dictionary holds the active sectors of its ground state sectors (well formed, any number of eigenpairs),
building the transition elements does not raise. -/
theorem C59_no_key_error {n : ℕ} (hn : n ≤ 32) (junk : ℕ) {es : Espace (ℕ × ℕ)} (hes : SectorsOk n es) {egs : ℝ} {ngs : List (ℤ × ℤ)}
    (hg : groundSectors es egs = .ok ngs) (hact : ∀ q ∈ sqActive n ngs, ∃ s, espaceGet es q = .ok s) :
    ∃ gd, sqBuild junk n egs es none = .ok gd := by
  refine ⟨_, sqBuild_none hn junk hes hg fun q hq => ?_⟩
  obtain ⟨s, hs⟩ := hact q hq
  unfold espaceGet at hs
  split at hs
  · rename_i h
    refine ⟨(q.1.toNat, q.2.toNat), s, ?_, hs⟩
    simp [zp, Int.toNat_of_nonneg h.1, Int.toNat_of_nonneg h.2]
  · cases hs

/-! ### C56 for the dictionary that is built -/

/-- The label belongs to an eigenpair of the dictionary. -/
def InRange (es : Espace (ℕ × ℕ)) (id : TId) : Prop := ∃ s, espaceGet es (id.1, id.2.1) = .ok s ∧ id.2.2 < s.eigvals.length

theorem transitionList_inRange {el : Bool} {qJ qI : ℤ × ℤ} {vs : List (ℕ → ℕ → ℝ)} {I J : Sct} {es : Espace (ℕ × ℕ)}
    (hI : espaceGet es qI = .ok I) (hJ : espaceGet es qJ = .ok J) : ∀ g ∈ transitionList el qJ qI vs I J, InRange es g.idF ∧ InRange es g.idI := by
  intro g hg
  obtain ⟨j, i, hj, hi, rfl⟩ := mem_transitionList.mp hg
  exact ⟨⟨J, hJ, hj⟩, ⟨I, hI, hi⟩⟩

theorem sqProjectAdd_inRange {junk n : ℕ} {ispin : ℤ} {q : ℤ × ℤ} {es : Espace (ℕ × ℕ)} {l : List GfT}
    (h : sqProjectAdd junk ispin n q es = .ok l) : ∀ g ∈ l, InRange es g.idF ∧ InRange es g.idI := by
  unfold sqProjectAdd at h
  cases h1 : getCdgSector n q.1 q.2 ispin with
  | error e => simp [h1, bind, Except.bind] at h
  | ok qJ =>
    cases h2 : espaceGet es q with
    | error e => simp [h1, h2, bind, Except.bind] at h
    | ok I =>
      cases h3 : espaceGet es qJ with
      | error e => simp [h1, h2, h3, bind, Except.bind] at h
      | ok J =>
        cases h4 : projectAll junk ispin n .cdg I J with
        | error e => simp [h1, h2, h3, h4, bind, Except.bind] at h
        | ok vs =>
          simp only [h1, h2, h3, h4, bind, Except.bind, pure, Except.pure, Except.ok.injEq] at h
          subst h
          exact transitionList_inRange h2 h3

theorem sqProjectSub_inRange {junk n : ℕ} {ispin : ℤ} {q : ℤ × ℤ} {es : Espace (ℕ × ℕ)} {l : List GfT}
    (h : sqProjectSub junk ispin n q es = .ok l) : ∀ g ∈ l, InRange es g.idF ∧ InRange es g.idI := by
  unfold sqProjectSub at h
  cases h1 : getCSector q.1 q.2 ispin with
  | error e => simp [h1, bind, Except.bind] at h
  | ok qJ =>
    cases h2 : espaceGet es q with
    | error e => simp [h1, h2, bind, Except.bind] at h
    | ok I =>
      cases h3 : espaceGet es qJ with
      | error e => simp [h1, h2, h3, bind, Except.bind] at h
      | ok J =>
        cases h4 : projectAll junk ispin n .c I J with
        | error e => simp [h1, h2, h3, h4, bind, Except.bind] at h
        | ok vs =>
          simp only [h1, h2, h3, h4, bind, Except.bind, pure, Except.pure, Except.ok.injEq] at h
          subst h
          exact transitionList_inRange h2 h3

theorem allElements_inRange {n junk : ℕ} {es : Espace (ℕ × ℕ)} {act : List (ℤ × ℤ)} {g : GfT} (hg : g ∈ allElements junk n es act) :
    InRange es g.idF ∧ InRange es g.idI := by
  obtain ⟨q, d, -, -, -, hm⟩ := mem_allElements.mp hg
  unfold oneList at hm
  split at hm
  · rename_i l h
    unfold sqOne at h
    split at h
    · exact sqProjectAdd_inRange h g hm
    split at h
    · exact sqProjectAdd_inRange h g hm
    split at h
    · exact sqProjectSub_inRange h g hm
    · exact sqProjectSub_inRange h g hm
  · simp at hm

/-- What the screening keeps. -/
def keepGf (es : Espace (ℕ × ℕ)) (egs c : ℝ) (p : (TId × TId) × GfT) : Prop :=
  |p.2.E| < c ∧ |idEnergy es p.1.1 - egs| < c ∧ |idEnergy es p.1.2 - egs| < c

theorem getItem_inRange {es : Espace (ℕ × ℕ)} {id : TId} (h : InRange es id) :
    ∃ s, espaceGet es (id.1, id.2.1) = .ok s ∧ getItem s.eigvals (id.2.2 : ℤ) = .ok (idEnergy es id) := by
  obtain ⟨s, h1, h2⟩ := h
  refine ⟨s, h1, ?_⟩
  rw [getItem_natCast _ _ h2, idEnergy, h1]
  simp [h2]

open Classical in
theorem sqScreen_eq {es : Espace (ℕ × ℕ)} {gd : GfDict} (h : ∀ p ∈ gd, InRange es p.1.1 ∧ InRange es p.1.2) (egs c : ℝ) :
    sqScreen gd egs es c = .ok (gd.filter fun p => decide (keepGf es egs c p)) := by
  unfold sqScreen
  rw [forM'_ok _ (fun acc p => if keepGf es egs c p then acc ++ [p] else acc) _ _ ?_]
  · congr 1
    have : ∀ (l acc : GfDict), l.foldl (fun acc p => if keepGf es egs c p then acc ++ [p] else acc) acc = acc ++ l.filter fun p => decide (keepGf es egs c p) := by
      intro l
      induction l with
      | nil => simp
      | cons p l ih =>
        intro acc
        rw [List.foldl_cons, ih, List.filter_cons]
        by_cases hp : keepGf es egs c p <;> simp [hp]
    rw [this]; rfl
  · intro acc p hp
    obtain ⟨hF, hI⟩ := h p hp
    obtain ⟨sF, f1, f2⟩ := getItem_inRange hF
    obtain ⟨sI, i1, i2⟩ := getItem_inRange hI
    by_cases k1 : |p.2.E| < c
    · by_cases k2 : |idEnergy es p.1.1 - egs| < c
      · by_cases k3 : |idEnergy es p.1.2 - egs| < c
        · simp [keepGf, f1, f2, i1, i2, k1, k2, k3, bind, Except.bind, pure, Except.pure]
        · simp [keepGf, f1, f2, i1, i2, k1, k2, k3, bind, Except.bind, pure, Except.pure]
      · simp [keepGf, f1, f2, k1, k2, bind, Except.bind, pure, Except.pure]
    · simp [keepGf, k1, pure, Except.pure]

theorem dictGet_filter {L : GfDict} (P : (TId × TId) × GfT → Prop) [DecidablePred P] (hL : (L.map Prod.fst).Nodup) {k : TId × TId} {g : GfT} :
    dictGet (L.filter fun p => decide (P p)) k = .ok g ↔ dictGet L k = .ok g ∧ P (k, g) := by
  constructor
  · intro h
    have := dictGet_mem_of_ok h
    rw [List.mem_filter, decide_eq_true_eq] at this
    exact ⟨dictGet_mem hL this.1, this.2⟩
  · rintro ⟨h1, h2⟩
    refine dictGet_mem ?_ (List.mem_filter.mpr ⟨dictGet_mem_of_ok h1, by simpa using h2⟩)
    exact hL.sublist ((List.filter_sublist).map _)

theorem nodup_dictSet {α β : Type} [DecidableEq α] {L : List (α × β)} (h : (L.map Prod.fst).Nodup) (k : α) (v : β) : ((dictSet L k v).map Prod.fst).Nodup := by
  unfold dictSet
  split
  · have : (L.map fun p => if p.1 = k then (k, v) else p).map Prod.fst = L.map Prod.fst := by
      rw [List.map_map]
      refine List.map_congr_left fun p _ => ?_
      by_cases hp : p.1 = k <;> simp [hp]
    rw [this]; exact h
  · rename_i hk
    rw [List.map_append, List.nodup_append]
    refine ⟨h, by simp, ?_⟩
    intro a ha b hb
    simp only [List.map_cons, List.map_nil, List.mem_singleton] at hb
    subst hb
    rintro rfl
    exact hk ha

theorem nodup_insertAll (L : List GfT) : ((insertAll [] L).map Prod.fst).Nodup := by
  induction L using List.reverseRecOn with
  | nil => simp [insertAll]
  | append_singleton L a ih =>
    rw [insertAll, List.foldl_append, List.foldl_cons, List.foldl_nil]
    exact nodup_dictSet ih _ _

/-- The dictionary of transition elements, with or without energy cutoff, contains with each transition its conjugate. -/
theorem sqBuild_conjugate {n : ℕ} (hn : n ≤ 32) (junk : ℕ) {es : Espace (ℕ × ℕ)} (hes : SectorsOk n es) {egs : ℝ} {ngs : List (ℤ × ℤ)}
    (hg : groundSectors es egs = .ok ngs) (hact : ActiveIn es (sqActive n ngs)) (cutoff : Option ℝ) :
    ∃ gd, sqBuild junk n egs es cutoff = .ok gd ∧ Conjugate gd (idEnergy es) := by
  classical
  set L := allElements junk n es (sqActive n ngs) with hL
  have hget := dictGet_insertAll L (allElements_inj hn junk hes hact)
  have hconj : Conjugate (insertAll [] L) (idEnergy es) := by
    intro F I g h
    obtain ⟨h1, h2⟩ := (hget _ _).mp h
    obtain ⟨g', h3, h4⟩ := allElements_conj hn junk hes hact h1
    simp only [Prod.mk.injEq] at h2
    obtain ⟨rfl, rfl⟩ := h2
    exact ⟨g', (hget _ _).mpr ⟨h3, by rw [h4.idF, h4.idI]⟩, h4.v, h4.E, h4.el, h4.add, h4.sub⟩
  cases cutoff with
  | none => exact ⟨_, sqBuild_none hn junk hes hg hact, hconj⟩
  | some c =>
    have hr : ∀ p ∈ insertAll [] L, InRange es p.1.1 ∧ InRange es p.1.2 := by
      intro p hp
      obtain ⟨h1, h2⟩ := mem_insertAll hp
      rw [h2]
      exact allElements_inRange h1
    refine ⟨(insertAll [] L).filter fun p => decide (keepGf es egs c p), ?_, ?_⟩
    · simp only [sqBuild, hg, bind, Except.bind, sqBuild_loop hn junk hes hact]
      exact sqScreen_eq hr egs c
    · intro F I g h
      obtain ⟨h1, h2, h3, h4⟩ := (dictGet_filter _ (nodup_insertAll L)).mp h
      obtain ⟨g', c1, c2, c3, c4, c5, c6⟩ := hconj F I g h1
      exact ⟨g', (dictGet_filter _ (nodup_insertAll L)).mpr ⟨c1, by rw [c3]; exact h2, h4, h3⟩, c2, c3, c4, c5, c6⟩

theorem buildEspace_sectorsOk {a : HamArgs} (ha : a.Valid) {w : ℕ} (hw : a.n ≤ w) {neig : List ℕ} {es : Espace (ℕ × ℕ)} {egs : WithTop ℝ}
    (h : BuildEspace w a (some neig) (.ok (es, egs))) : SectorsOk a.n es ∧ (∀ p ∈ es, p.2.eigvals ≠ []) := by
  obtain ⟨c1, c2, -⟩ := C28_build_espace ha hw neig es egs h
  have hkey : ∀ p ∈ es, p.1.1 ≤ a.n ∧ p.1.2 ≤ a.n ∧ neig[p.1.1 * (a.n + 1) + p.1.2]?.getD 0 ≠ 0 := by
    intro p hp
    have : p.1 ∈ es.map Prod.fst := List.mem_map.mpr ⟨p, hp, rfl⟩
    rw [c1, List.mem_filter, decide_eq_true_eq, mem_ndindex2] at this
    exact ⟨by omega, by omega, this.2⟩
  constructor
  · intro q s hs
    have hp := dictGet_mem_of_ok hs
    obtain ⟨b1, b2, -⟩ := hkey _ hp
    obtain ⟨d1, d2, d3, d4, d5⟩ := c2 _ hp
    have su := sectorList_of_generate ha.le hw b1 (generateStates_gs (w := w) (n := a.n) (p := q.1) b1)
    have sd := sectorList_of_generate ha.le hw b2 (generateStates_gs (w := w) (n := a.n) (p := q.2) b2)
    have hd : s.d = (gs w a.n q.1).length * (gs w a.n q.2).length := by rw [d2, su.len, sd.len]
    exact ⟨b1, b2, _, _, ⟨d1, su, sd, hd, d5⟩⟩
  · intro p hp h0
    obtain ⟨b1, b2, b3⟩ := hkey _ hp
    obtain ⟨d1, d2, d3, d4, d5⟩ := c2 _ hp
    rw [h0, List.length_nil, d2] at d4
    have := Nat.choose_pos b1
    have := Nat.choose_pos b2
    have : 0 < a.n.choose p.1.1 * a.n.choose p.1.2 := by positivity
    omega

/-- The keys of a dictionary hold the active sectors. -/
theorem activeIn_of_keys {n : ℕ} {es : Espace (ℕ × ℕ)} {ngs : List (ℤ × ℤ)} (hv : ∀ q ∈ ngs, 0 ≤ q.1 ∧ q.1 ≤ n ∧ 0 ≤ q.2 ∧ q.2 ≤ n)
    (hk : ∀ q : ℕ × ℕ, zp q ∈ sqActive n ngs → q ∈ es.map Prod.fst) : ActiveIn es (sqActive n ngs) := by
  intro q hq
  obtain ⟨h1, -, h2, -⟩ := C59_valid n ngs hv q hq
  have hz : q = zp (q.1.toNat, q.2.toNat) := by simp [zp, Int.toNat_of_nonneg h1, Int.toNat_of_nonneg h2]
  obtain ⟨s, hs⟩ := dictGet_of_key (hk _ (hz ▸ hq))
  exact ⟨_, s, hz, hs⟩

/-- C56 end to end: on the full spectrum returned by `build_espace`, for every ground state energy argument and cutoff, the
elements are built and the rates at equal chemical potentials satisfy detailed balance with the grand-canonical weights,
which are stationary. -/
theorem C56_from_build_espace {a : HamArgs} (ha : a.Valid) {w : ℕ} (hw : a.n ≤ w) {es : Espace (ℕ × ℕ)} {e0 : WithTop ℝ}
    (h : BuildEspace w a none (.ok (es, e0))) (junk : ℕ) (egs : ℝ) (cutoff : Option ℝ) (beta m : ℝ) (A : List (List ℝ)) :
    ∃ gd, sqBuild junk a.n egs es cutoff = .ok gd ∧
      (∀ f i (hf : f < (finalIds gd).length) (hi : i < (finalIds gd).length),
        sqRate gd beta [m, m] A f i * gcWeight (idEnergy es) beta m (finalIds gd)[i] =
          sqRate gd beta [m, m] A i f * gcWeight (idEnergy es) beta m (finalIds gd)[f]) ∧
      IsStationary (finalIds gd).length (sqRate gd beta [m, m] A)
        fun i => if h : i < (finalIds gd).length then gcWeight (idEnergy es) beta m (finalIds gd)[i] else 0 := by
  obtain ⟨hc, hk⟩ := buildEspace_complete' ha hw h
  have h' : ∃ neig, BuildEspace w a (some neig) (.ok (es, e0)) := by
    obtain ⟨l, hl, -⟩ := C25_default_neig a.n
    refine ⟨l, ?_⟩
    simp only [BuildEspace, hl] at h
    simpa only [BuildEspace, neigOrDefault] using h
  obtain ⟨neig, h'⟩ := h'
  obtain ⟨hs, hne⟩ := buildEspace_sectorsOk ha hw h'
  obtain ⟨ngs, hg, hsub⟩ := groundSectors_ok hne egs
  have hv : ∀ q ∈ ngs, 0 ≤ q.1 ∧ q.1 ≤ a.n ∧ 0 ≤ q.2 ∧ q.2 ≤ a.n := by
    intro q hq
    obtain ⟨q', hq', rfl⟩ := hsub q hq
    rw [hk, mem_ndindex2] at hq'
    simp only [zp]
    omega
  have hact : ActiveIn es (sqActive a.n ngs) := activeIn_of_keys hv fun q hq => by
    have := C59_valid a.n ngs hv _ hq
    simp only [zp] at this
    rw [hk, mem_ndindex2]
    omega
  obtain ⟨gd, g1, g2⟩ := sqBuild_conjugate ha.le junk hs hg hact cutoff
  exact ⟨gd, g1, fun f i hf hi => C56_detailed_balance g2 beta m A hf hi, C56_stationary g2 beta m A⟩

/-! ### C59 for `get_active_neig` and `build_espace` -/

/-- C59: for valid ground state sectors `get_active_neig` returns one number per sector: `val` on the active ones, `0` on
the others. -/
theorem C59_active_neig (n : ℕ) (ngs : List (ℤ × ℤ)) (val : ℕ) (h : ∀ q ∈ ngs, 0 ≤ q.1 ∧ q.1 ≤ n ∧ 0 ≤ q.2 ∧ q.2 ≤ n) :
    ∃ neig, sqActiveNeig n ngs val = .ok neig ∧ neig.length = (n + 1) * (n + 1) ∧
      ∀ p q : ℕ, p ≤ n → q ≤ n → neig[p * (n + 1) + q]? = some (if zp (p, q) ∈ sqActive n ngs then val else 0) := by
  have hact := C59_valid n ngs h
  have hidx : ∀ q ∈ sqActive n ngs, getSectorIndex n q.1 q.2 = .ok (((q.1.toNat * (n + 1) + q.2.toNat : ℕ)) : ℤ) := by
    intro q hq
    obtain ⟨h1, h2, h3, h4⟩ := hact q hq
    unfold getSectorIndex
    rw [if_neg (by omega)]
    push_cast
    rw [Int.toNat_of_nonneg h1, Int.toNat_of_nonneg h3]
  have hlt : ∀ q ∈ sqActive n ngs, q.1.toNat * (n + 1) + q.2.toNat < (n + 1) * (n + 1) := by
    intro q hq
    obtain ⟨h1, h2, h3, h4⟩ := hact q hq
    calc q.1.toNat * (n + 1) + q.2.toNat < (q.1.toNat + 1) * (n + 1) := by rw [Nat.succ_mul]; omega
      _ ≤ _ := Nat.mul_le_mul_right _ (by omega)
  unfold sqActiveNeig
  rw [forM'_ok _ (fun acc q => acc ++ [((q.1.toNat * (n + 1) + q.2.toNat : ℕ) : ℤ)]) _ _ (fun st q hq => by rw [hidx q hq]; rfl)]
  have hfold : ∀ (l : List (ℤ × ℤ)) (acc : List ℤ), l.foldl (fun acc q => acc ++ [((q.1.toNat * (n + 1) + q.2.toNat : ℕ) : ℤ)]) acc
      = acc ++ l.map fun q => ((q.1.toNat * (n + 1) + q.2.toNat : ℕ) : ℤ) := by
    intro l
    induction l with
    | nil => simp
    | cons q l ih => intro acc; rw [List.foldl_cons, ih]; simp
  rw [hfold, List.nil_append]
  change ∃ neig, forM' _ _ _ = .ok neig ∧ _
  have key : ∀ (l : List (ℤ × ℤ)) (neig : List ℕ), (∀ q ∈ l, q ∈ sqActive n ngs) → neig.length = (n + 1) * (n + 1) →
      ∃ neig', forM' (fun neig i => setItem neig i val) (l.map fun q => ((q.1.toNat * (n + 1) + q.2.toNat : ℕ) : ℤ)) neig = .ok neig' ∧
        neig'.length = (n + 1) * (n + 1) ∧ ∀ p q : ℕ, p ≤ n → q ≤ n →
          neig'[p * (n + 1) + q]? = if zp (p, q) ∈ l then some val else neig[p * (n + 1) + q]? := by
    intro l
    induction l with
    | nil => intro neig _ hl; exact ⟨neig, rfl, hl, by simp⟩
    | cons x l ih =>
      intro neig hs hl
      have hx := hs x (by simp)
      obtain ⟨neig', e1, e2, e3⟩ := ih (neig.set (x.1.toNat * (n + 1) + x.2.toNat) val) (fun q hq => hs q (by simp [hq])) (by simpa using hl)
      refine ⟨neig', ?_, e2, ?_⟩
      · rw [List.map_cons, forM', setItem_natCast _ _ _ (by rw [hl]; exact hlt x hx)]
        exact e1
      · intro p q hp hq
        rw [e3 p q hp hq]
        by_cases hm : zp (p, q) ∈ l
        · simp [hm]
        · rw [if_neg hm]
          obtain ⟨h1, h2, h3, h4⟩ := hact x hx
          by_cases hpx : zp (p, q) = x
          · rw [if_pos (by simp [hpx]), List.getElem?_set]
            have : x.1.toNat * (n + 1) + x.2.toNat = p * (n + 1) + q := by rw [← hpx]; simp [zp]
            rw [if_pos this, this, if_pos (by rw [hl, ← this]; exact hlt x hx)]
          · rw [if_neg (by simp [hpx, hm]), List.getElem?_set, if_neg]
            intro he
            apply hpx
            have d1 := divmod_split (n := n + 1) (b := p) (i := q) (by omega)
            have d2 := divmod_split (n := n + 1) (b := x.1.toNat) (i := x.2.toNat) (by omega)
            rw [he] at d2
            have e1 : p = x.1.toNat := by rw [← d1.1, d2.1]
            have e2 : q = x.2.toNat := by rw [← d1.2, d2.2]
            simp [zp, e1, e2, Int.toNat_of_nonneg h1, Int.toNat_of_nonneg h3]
  obtain ⟨neig', e1, e2, e3⟩ := key _ _ (fun _ h => h) (List.length_replicate ..)
  refine ⟨neig', e1, e2, fun p q hp hq => ?_⟩
  rw [e3 p q hp hq]
  have : p * (n + 1) + q < (n + 1) * (n + 1) := by
    calc p * (n + 1) + q < (p + 1) * (n + 1) := by rw [Nat.succ_mul]; omega
      _ ≤ _ := Nat.mul_le_mul_right _ (by omega)
  split
  · rfl
  · rw [List.getElem?_replicate, if_pos this]

/-- C59 end to end: a dictionary solved only in the sectors selected by `get_active_neig` for the sectors `ngs` suffices to
build the transition elements (no missing sector), provided no sector outside `ngs` turns out to be a ground state sector. -/
theorem C59_from_build_espace {a : HamArgs} (ha : a.Valid) {w : ℕ} (hw : a.n ≤ w) {ngs : List (ℤ × ℤ)}
    (hv : ∀ q ∈ ngs, 0 ≤ q.1 ∧ q.1 ≤ a.n ∧ 0 ≤ q.2 ∧ q.2 ≤ a.n) {val : ℕ} (hval : 1 ≤ val) {neig : List ℕ}
    (hneig : sqActiveNeig a.n ngs val = .ok neig) {es : Espace (ℕ × ℕ)} {e0 : WithTop ℝ}
    (h : BuildEspace w a (some neig) (.ok (es, e0))) (junk : ℕ) (egs : ℝ) (cutoff : Option ℝ) :
    es.map Prod.fst = (ndindex2 (a.n + 1) (a.n + 1)).filter (fun q => decide (zp q ∈ sqActive a.n ngs)) ∧
    ∃ found, groundSectors es egs = .ok found ∧ ((∀ q ∈ found, q ∈ ngs) → ∃ gd, sqBuild junk a.n egs es cutoff = .ok gd) := by
  obtain ⟨neig', e1, e2, e3⟩ := C59_active_neig a.n ngs val hv
  rw [hneig, Except.ok.injEq] at e1
  subst e1
  obtain ⟨c1, -, -⟩ := C28_build_espace ha hw neig es e0 h
  have hkeys : es.map Prod.fst = (ndindex2 (a.n + 1) (a.n + 1)).filter (fun q => decide (zp q ∈ sqActive a.n ngs)) := by
    rw [c1]
    refine List.filter_congr fun q hq => ?_
    obtain ⟨b1, b2⟩ := mem_ndindex2.mp hq
    rw [e3 q.1 q.2 (by omega) (by omega)]
    by_cases hm : zp q ∈ sqActive a.n ngs
    · have : zp (q.1, q.2) ∈ sqActive a.n ngs := hm
      simp only [this, if_true, Option.getD_some, hm]
      simp; omega
    · have : zp (q.1, q.2) ∉ sqActive a.n ngs := hm
      simp [this, hm]
  obtain ⟨hs, hne⟩ := buildEspace_sectorsOk ha hw h
  obtain ⟨found, hg, hsub⟩ := groundSectors_ok hne egs
  refine ⟨hkeys, found, hg, fun hf => ?_⟩
  have hv' : ∀ q ∈ found, 0 ≤ q.1 ∧ q.1 ≤ a.n ∧ 0 ≤ q.2 ∧ q.2 ≤ a.n := fun q hq => hv q (hf q hq)
  have hact : ActiveIn es (sqActive a.n found) := activeIn_of_keys hv' fun q hq => by
    have h1 := C59_valid a.n found hv' _ hq
    rw [hkeys, List.mem_filter, mem_ndindex2, decide_eq_true_eq]
    simp only [zp] at h1
    refine ⟨by omega, ?_⟩
    rcases (C59_mem a.n found _).mp hq with h2 | ⟨h2, h3⟩
    · exact (C59_mem a.n ngs _).mpr (.inl (hf _ h2))
    · exact (C59_mem a.n ngs _).mpr (.inr ⟨h2, h3.imp (hf _) fun h => h.imp (hf _) fun h => h.imp (hf _) (hf _)⟩)
  obtain ⟨gd, g1, -⟩ := sqBuild_conjugate ha.le junk hs hg hact cutoff
  exact ⟨gd, g1⟩

/-- Non-vacuity: the full spectrum of the two-site example has transition elements and detailed balance. -/
example : ∃ es gd, sqBuild 0 2 0 es none = .ok gd ∧ Conjugate gd (idEnergy es) ∧ es.length = 9 := by
  obtain ⟨l, hl, hlb⟩ := C25_default_neig exampleArgs.n
  obtain ⟨⟨⟨es, e0⟩, h⟩, -⟩ := C25_build_espace_partial exampleArgs_valid (w := 64) (by simp [exampleArgs]) l hlb
  obtain ⟨hs, hne⟩ := buildEspace_sectorsOk exampleArgs_valid (by simp [exampleArgs]) h
  have h' : BuildEspace 64 exampleArgs none (.ok (es, e0)) := by
    simp only [BuildEspace, hl]
    simpa only [BuildEspace, neigOrDefault] using h
  obtain ⟨hc, hk⟩ := buildEspace_complete' exampleArgs_valid (by simp [exampleArgs]) h'
  obtain ⟨ngs, hg, hsub⟩ := groundSectors_ok hne 0
  have hv : ∀ q ∈ ngs, 0 ≤ q.1 ∧ q.1 ≤ (2 : ℕ) ∧ 0 ≤ q.2 ∧ q.2 ≤ (2 : ℕ) := by
    intro q hq
    obtain ⟨q', hq', rfl⟩ := hsub q hq
    rw [hk, mem_ndindex2] at hq'
    simp only [zp, exampleArgs] at hq' ⊢
    omega
  have hact : ActiveIn es (sqActive 2 ngs) := activeIn_of_keys hv fun q hq => by
    have := C59_valid 2 ngs hv _ hq
    simp only [zp] at this
    rw [hk, mem_ndindex2]
    simp only [exampleArgs]
    omega
  obtain ⟨gd, g1, g2⟩ := sqBuild_conjugate (n := 2) (by norm_num) 0 hs hg hact none
  exact ⟨es, gd, g1, g2, by rw [← List.length_map (f := Prod.fst), hk, length_ndindex2]; rfl⟩

/-- Non-vacuity of C59: half filling of two sites has four neighbours. -/
example : sqActiveNeig 2 [(1, 1)] 4 = .ok [0, 4, 0, 4, 4, 4, 0, 4, 0] := by decide

end Edpyt
