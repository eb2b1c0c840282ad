import Verif.Spec.MatrixOrder
import Verif.Props.SqChoice
import Verif.Props.Cotunneling
import Verif.Props.NShape
import Verif.Proof.GfExact
/-!
C187: which state a row or a column of the transport matrices stands for.
-/
namespace Edpyt
open Spec

/-! ## Lists of states -/

theorem inOrder_unique {α : Type} [DecidableEq α] {before : α → α → Prop} {le : α → α → Bool} (ht : ∀ a b c, le a b = true → le b c = true → le a c = true)
    (htot : ∀ a b, (le a b || le b a) = true) (ha : ∀ a b, le a b = true → le b a = true → a = b)
    (hb : ∀ a b, before a b → le a b = true ∧ a ≠ b) {l ids : List α} (h : InOrder before (· ∈ l) ids) : uniqueSorted le l = ids := by
  have hn : ids.Nodup := h.sorted.imp fun hab => (hb _ _ hab).2
  have hn' : (uniqueSorted le l).Nodup := by
    unfold uniqueSorted
    exact (List.mergeSort_perm _ _).nodup_iff.mpr (List.nodup_dedup _)
  have hp : (uniqueSorted le l).Perm ids := (List.perm_ext_iff_of_nodup hn' hn).mpr fun x => by rw [mem_uniqueSorted, h.mem]
  refine hp.eq_of_pairwise (le := fun a b => le a b = true) (fun a b _ _ => ha a b) ?_ (h.sorted.imp fun hab => (hb _ _ hab).1)
  unfold uniqueSorted
  exact List.pairwise_mergeSort ht htot _

theorem spinBefore_le (a b : TId) (h : SpinBefore a b) : leId a b = true ∧ a ≠ b := by
  unfold SpinBefore at h
  unfold leId
  constructor
  · rw [decide_eq_true_eq]; omega
  · rintro rfl; omega

theorem numBefore_le (a b : NId) (h : NumBefore a b) : leN a b = true ∧ a ≠ b := by
  unfold NumBefore at h
  unfold leN
  constructor
  · rw [decide_eq_true_eq]; omega
  · rintro rfl; omega

/-- The final states of a dictionary of transitions. -/
def finals {κ β : Type} (D : List ((κ × κ) × β)) (F : κ) : Prop := ∃ p ∈ D, p.1.1 = F

/-- The states of a dictionary of transitions, initial or final. -/
def ends {κ β : Type} (D : List ((κ × κ) × β)) (x : κ) : Prop := ∃ p ∈ D, p.1.1 = x ∨ p.1.2 = x

theorem ends_cons {κ β : Type} (p : (κ × κ) × β) (D : List ((κ × κ) × β)) (x : κ) : ends (p :: D) x ↔ (p.1.1 = x ∨ p.1.2 = x) ∨ ends D x := by
  simp [ends]

theorem finalIds_of {gd : GfDict} {ids : List TId} (h : InOrder SpinBefore (finals gd) ids) : finalIds gd = ids :=
  inOrder_unique leId_trans leId_total leId_antisymm spinBefore_le ⟨fun x => by rw [h.mem]; simp [finals], h.sorted⟩

theorem coFinalIds_of {sd : SigmaDict} {ids : List TId} (h : InOrder SpinBefore (finals sd) ids) : coFinalIds sd = ids :=
  inOrder_unique leId_trans leId_total leId_antisymm spinBefore_le ⟨fun x => by rw [h.mem]; simp [finals], h.sorted⟩

theorem matrixIds_of {D : List ((NId × NId) × ℝ)} {ids : List NId} (h : InOrder NumBefore (ends D) ids) : matrixIds D = ids :=
  inOrder_unique leN_trans leN_total (fun _ _ => leN_antisymm) numBefore_le ⟨fun x => by
    rw [h.mem]
    simp only [ends, List.mem_append, List.mem_map]
    constructor
    · rintro ⟨p, hp, h | h⟩
      · exact .inl ⟨p, hp, h⟩
      · exact .inr ⟨p, hp, h⟩
    · rintro (⟨p, hp, h⟩ | ⟨p, hp, h⟩)
      · exact ⟨p, hp, .inl h⟩
      · exact ⟨p, hp, .inr h⟩, h.sorted⟩

/-! ## Sequential tunnelling -/

/-- **C187** for `sqtunneling`: the matrices have one row and one column for every final state of the dictionary, in increasing order. Off
the diagonal the element in the row of `F` and the column of `I` is the sum over the two leads of the rate of the element stored under
`(F, I)`, and zero if nothing is stored there; in the transition matrix it is the rate of the given lead, with a minus sign for a hole. -/
theorem C187_sequential {gd : GfDict} {ids : List TId} (h : InOrder SpinBefore (finals gd) ids) {f i : ℕ} {F I : TId} (hF : ids[f]? = some F)
    (hI : ids[i]? = some I) (hfi : f ≠ i) (beta : ℝ) :
    (∀ g a0 a1 m0 m1 γ0 γ1, dictGet gd (F, I) = .ok g → g.call a0 beta m0 = .ok γ0 → g.call a1 beta m1 = .ok γ1 →
      sqRate gd beta [m0, m1] [a0, a1] f i = γ0 + γ1 ∧ sqTransition gd beta m0 a0 f i = if g.el then γ0 else -γ0) ∧
    ((∀ g, dictGet gd (F, I) ≠ .ok g) → ∀ mu A m a, sqRate gd beta mu A f i = 0 ∧ sqTransition gd beta m a f i = 0) ∧
    ∀ mu A, IsRateMatrix ids.length (sqRate gd beta mu A) := by
  have e := finalIds_of h
  have hf : f < (finalIds gd).length := by rw [e]; exact (List.getElem?_eq_some_iff.mp hF).1
  have hi : i < (finalIds gd).length := by rw [e]; exact (List.getElem?_eq_some_iff.mp hI).1
  refine ⟨fun g a0 a1 m0 m1 γ0 γ1 hg h0 h1 => ⟨?_, ?_⟩, fun hg mu A m a => ⟨?_, ?_⟩, fun mu A => by rw [← e]; exact C55_sequential gd beta mu A⟩
  · rw [sqRate_off gd beta _ _ hf hi hfi]
    simp [sqFlow, e, hF, hI, sqGamma, hg, bind, Except.bind, getItem, pyIndex, h0, h1, Except.toOption]
  · simp [sqTransition, e, hF, hI, hfi.symm, hg, h0]
  · have hn : ∀ lead, sqGamma gd beta mu A lead F I = none := by
      intro lead
      unfold sqGamma
      cases hd : dictGet gd (F, I) with
      | ok g => exact absurd hd (hg g)
      | error x => simp [bind, Except.bind, Except.toOption]
    rw [sqRate_off gd beta _ _ hf hi hfi]
    simp [sqFlow, e, hF, hI, hn]
  · cases hd : dictGet gd (F, I) with
    | ok g => exact absurd hd (hg g)
    | error x => simp [sqTransition, e, hF, hI, hd]

/-! ## Cotunnelling -/

theorem coGamma_sum {sd : SigmaDict} {integ : CoSigma → Except PyErr ℝ} {F I : TId} {l : List CoSigma} (hl : dictGet sd (F, I) = .ok l)
    {r : CoSigma → ℝ} (hr : ∀ s ∈ l, integ s = .ok (r s)) : coGamma sd integ F I = some (l.map r).sum := by
  unfold coGamma
  have key : ∀ (l : List CoSigma) (a : ℝ), (∀ s ∈ l, integ s = .ok (r s)) →
      forM' (fun γ s => do let x ← integ s; pure (γ + x)) l a = .ok (a + (l.map r).sum) := by
    intro l
    induction l with
    | nil => intro a _; simp [forM']
    | cons s l ih =>
      intro a hs
      rw [forM', hs s (by simp)]
      simp only [bind, Except.bind, pure, Except.pure] at ih ⊢
      rw [ih _ fun t ht => hs t (by simp [ht])]
      simp [add_assoc]
  rw [hl]
  have k := key l 0 hr
  simp only [bind, Except.bind] at k ⊢
  rw [k]
  simp [Except.toOption]

/-- **C187** for `cotunneling`: as for sequential tunnelling; the rate of `(F, I)` is the sum over the four pairs of leads and over the
elements of the list stored under `(F, I)`, and the transition matrix is the sum of the differences of extracting and injecting. -/
theorem C187_cotunneling {sd : SigmaDict} {ids : List TId} (h : InOrder SpinBefore (finals sd) ids) {f i : ℕ} {F I : TId} (hF : ids[f]? = some F)
    (hI : ids[i]? = some I) {integ : ℕ → ℕ → CoSigma → Except PyErr ℝ} {l : List CoSigma} (hl : dictGet sd (F, I) = .ok l)
    {r : ℕ → ℕ → CoSigma → ℝ} (hr : ∀ e j, ∀ s ∈ l, e < 2 → j < 2 → integ e j s = .ok (r e j s)) :
    (f ≠ i → coRate sd integ f i = (l.map fun s => r 0 0 s + r 0 1 s + r 1 0 s + r 1 1 s).sum) ∧
      ∀ e j, e < 2 → j < 2 → coTransition sd integ e j f i = (l.map fun s => r e j s - r j e s).sum := by
  have e := coFinalIds_of h
  have hf : f < (coFinalIds sd).length := by rw [e]; exact (List.getElem?_eq_some_iff.mp hF).1
  have hi : i < (coFinalIds sd).length := by rw [e]; exact (List.getElem?_eq_some_iff.mp hI).1
  refine ⟨fun hfi => ?_, fun x y hx hy => ?_⟩
  · rw [coRate_off sd integ hf hi hfi]
    have hg : ∀ x y, x < 2 → y < 2 → coFlow sd (integ x y) (i, f) = (l.map (r x y)).sum := by
      intro x y hx hy
      simp [coFlow, e, hF, hI, coGamma_sum hl fun s hs => hr x y s hs hx hy]
    have hnd : ndindex2 2 2 = [(0, 0), (0, 1), (1, 0), (1, 1)] := by decide
    simp only [hnd, List.map_cons, List.map_nil, List.sum_cons, List.sum_nil, hg 0 0 (by omega) (by omega), hg 0 1 (by omega) (by omega),
      hg 1 0 (by omega) (by omega), hg 1 1 (by omega) (by omega), List.sum_map_add]
    ring
  · unfold coTransition
    rw [e, hF, hI]
    simp only
    rw [coGamma_sum hl (r := fun s => r x y s - r y x s) fun s hs => by
      simp [hr x y s hs hx hy, hr y x s hs hy hx, bind, Except.bind, pure, Except.pure]]
    rfl

/-- Nothing stored: no rate and no current between these states. -/
theorem C187_cotunneling_none {sd : SigmaDict} {ids : List TId} (h : InOrder SpinBefore (finals sd) ids) {f i : ℕ} {F I : TId} (hF : ids[f]? = some F)
    (hI : ids[i]? = some I) (hl : ∀ l, dictGet sd (F, I) ≠ .ok l) (integ : ℕ → ℕ → CoSigma → Except PyErr ℝ) :
    (f ≠ i → coRate sd integ f i = 0) ∧ ∀ e j, coTransition sd integ e j f i = 0 := by
  have e := coFinalIds_of h
  have hf : f < (coFinalIds sd).length := by rw [e]; exact (List.getElem?_eq_some_iff.mp hF).1
  have hi : i < (coFinalIds sd).length := by rw [e]; exact (List.getElem?_eq_some_iff.mp hI).1
  have hn : ∀ g, coGamma sd g F I = none := by
    intro g
    unfold coGamma
    cases hd : dictGet sd (F, I) with
    | ok l => exact absurd hd (hl l)
    | error x => simp [bind, Except.bind, Except.toOption]
  refine ⟨fun hfi => ?_, fun x y => ?_⟩
  · rw [coRate_off sd integ hf hi hfi]
    refine List.sum_eq_zero fun z hz => ?_
    obtain ⟨q, -, rfl⟩ := List.mem_map.mp hz
    simp [coFlow, e, hF, hI, hn]
  · simp [coTransition, e, hF, hI, hn]

/-! ## Conserved number of electrons -/

/-- The value stored under a key, zero if there is none. -/
def dictVal {κ : Type} [DecidableEq κ] (D : List (κ × ℝ)) (k : κ) : ℝ := match dictGet D k with | .ok x => x | .error _ => 0

theorem dictVal_add {κ : Type} [DecidableEq κ] (D : List (κ × ℝ)) (k q : κ) (v : ℝ) : dictVal (dictAdd D k v) q = dictVal D q + if q = k then v else 0 := by
  unfold dictAdd
  simp only [dictVal, dictGet_dictSet]
  by_cases hq : q = k
  · subst hq
    cases dictGet D q <;> simp
  · have hq' : ¬k = q := fun h => hq h.symm
    cases hd : dictGet D q <;> simp [hq, hq']

theorem dictVal_rate (W : List ((NId × NId) × ℝ)) (k : NId × NId) (γ : ℝ) {q : NId × NId} (hq : q.1 ≠ q.2) :
    dictVal (addRate W k γ) q = dictVal W q + if q = k then γ else 0 := by
  unfold addRate
  split
  · rw [dictVal_add, dictVal_add]
    have : q ≠ (k.2, k.2) := fun h => hq (by rw [h])
    simp [this]
  · rename_i hk
    have : q ≠ k := fun h => hk (h ▸ hq)
    simp [this]

/-- A loop that adds at the key of each element leaves at a key what its only element adds. -/
theorem forM'_val {κ β σ : Type} [DecidableEq κ] {body : σ → κ × β → Except PyErr σ} (D : σ → κ → ℝ) (R : κ × β → ℝ → Prop) {q : κ}
    (hb : ∀ s p s', body s p = .ok s' → ∃ v, (p.1 = q → R p v) ∧ D s' q = D s q + if q = p.1 then v else 0) :
    ∀ {L : List (κ × β)} {s s' : σ}, (L.map Prod.fst).Nodup → forM' body L s = .ok s' →
      ((∀ p ∈ L, p.1 ≠ q) → D s' q = D s q) ∧ ∀ p ∈ L, p.1 = q → ∃ v, R p v ∧ D s' q = D s q + v := by
  intro L
  induction L with
  | nil =>
    intro s s' _ h
    simp only [forM', Except.ok.injEq] at h
    subst h
    exact ⟨fun _ => rfl, by simp⟩
  | cons p L ih =>
    intro s s' hn h
    rw [List.map_cons, List.nodup_cons] at hn
    rw [forM'] at h
    cases h1 : body s p with
    | error e => simp [h1, bind, Except.bind] at h
    | ok s1 =>
      rw [h1] at h
      obtain ⟨v, hv, hD⟩ := hb s p s1 h1
      obtain ⟨i1, i2⟩ := ih hn.2 h
      refine ⟨fun hq => ?_, fun p' hp' hq => ?_⟩
      · rw [i1 fun x hx => hq x (by simp [hx]), hD, if_neg fun hx => hq p (by simp) hx.symm, add_zero]
      · rcases List.mem_cons.mp hp' with rfl | hp'
        · refine ⟨v, hv hq, ?_⟩
          rw [i1 fun x hx hxq => hn.1 (List.mem_map.mpr ⟨x, hx, by rw [hxq, hq]⟩), hD, if_pos hq.symm]
        · obtain ⟨w, hw, e⟩ := i2 p' hp' hq
          refine ⟨w, hw, ?_⟩
          rw [e, hD, if_neg, add_zero]
          rintro rfl
          exact hn.1 (List.mem_map.mpr ⟨p', hp', hq⟩)

/-- **C187** for `dict_to_matrix`: a row and a column for every state that occurs in a key, in increasing order, and the element of row `F` and
column `I` is the value stored under `(F, I)`, zero if there is none. -/
theorem C187_matrix {D : List ((NId × NId) × ℝ)} (hD : (D.map Prod.fst).Nodup) {ids : List NId} (h : InOrder NumBefore (ends D) ids) {f i : ℕ} {F I : NId}
    (hF : ids[f]? = some F) (hI : ids[i]? = some I) :
    (∀ x, ((F, I), x) ∈ D → dictToMatrix D f i = x) ∧ ((∀ x, ((F, I), x) ∉ D) → dictToMatrix D f i = 0) := by
  have e := matrixIds_of h
  obtain ⟨hf, hF⟩ := List.getElem?_eq_some_iff.mp hF
  obtain ⟨hi, hI⟩ := List.getElem?_eq_some_iff.mp hI
  have k : dictToMatrix D f i = match dictGet D (F, I) with | .ok x => x | .error _ => 0 := by
    rw [dictToMatrix_get hD (a := f) (b := i) (by rw [e]; exact hf) (by rw [e]; exact hi)]
    simp only [e, hF, hI]
    cases dictGet D (F, I) <;> rfl
  refine ⟨fun x hx => ?_, fun hx => ?_⟩
  · rw [k, dictGet_mem hD hx]
  · rw [k]
    cases hd : dictGet D (F, I) with
    | error _ => rfl
    | ok x => exact absurd (dictGet_mem_of_ok hd) (hx x)

theorem dictVal_mem {κ : Type} [DecidableEq κ] {D : List (κ × ℝ)} {k : κ} {v : ℝ} (hk : k ∈ D.map Prod.fst) (h : dictVal D k = v) : (k, v) ∈ D := by
  obtain ⟨x, hx⟩ := dictGet_of_key hk
  unfold dictVal at h
  rw [hx] at h
  simp only at h
  rw [← h]
  exact dictGet_mem_of_ok hx

/-- The off-diagonal entries of the matrix of a dictionary. -/
theorem dictToMatrix_val {D : List ((NId × NId) × ℝ)} (hD : (D.map Prod.fst).Nodup) {f i : ℕ} {F I : NId} (hF : (matrixIds D)[f]? = some F)
    (hI : (matrixIds D)[i]? = some I) : dictToMatrix D f i = dictVal D (F, I) := by
  obtain ⟨hf, hF⟩ := List.getElem?_eq_some_iff.mp hF
  obtain ⟨hi, hI⟩ := List.getElem?_eq_some_iff.mp hI
  rw [dictToMatrix_get hD hf hi, hF, hI]
  rfl

theorem sqtnlStep_parts {beta : ℝ} {mu : List ℝ} {A : List (List ℝ)} {inject : ℤ} {s s' : NState} {p : (NId × NId) × List NGf}
    (h : sqtnlStep beta mu A inject s p = .ok s') : ∃ g0 g1 gi el, sqtnlGamma p.2 beta mu A 0 = .ok g0 ∧ sqtnlGamma p.2 beta mu A 1 = .ok g1 ∧
      getItem [g0, g1] inject = .ok gi ∧ (∀ g, p.2.getLast? = some g → el = g.el) ∧ s'.W = addRate s.W p.1 (g0 + g1) ∧
        s'.T = dictAdd s.T p.1 (if el then -gi else gi) := by
  unfold sqtnlStep at h
  cases h1 : sqtnlGamma p.2 beta mu A 0 with
  | error e => simp [h1, bind, Except.bind] at h
  | ok g0 =>
    cases h2 : sqtnlGamma p.2 beta mu A 1 with
    | error e => simp [h1, h2, bind, Except.bind] at h
    | ok g1 =>
      cases h3 : getItem [g0, g1] inject with
      | error e => simp [h1, h2, h3, bind, Except.bind] at h
      | ok gi =>
        simp only [h1, h2, h3, bind, Except.bind, pure, Except.pure] at h
        split at h
        · simp at h
        · rename_i el hel
          simp only [Except.ok.injEq] at h
          refine ⟨g0, g1, gi, el, rfl, rfl, h3, fun g hg => ?_, by rw [← h], by rw [← h]⟩
          rw [hg] at hel
          simpa using hel.symm

theorem checkElements_ends {α : Type} {sd : List ((NId × NId) × α)} {u : Unit} (h : checkElements sd = .ok u) (x : NId) :
    finals sd x ↔ ends sd x := by
  unfold checkElements at h
  split at h
  · rename_i hc
    rw [List.all_eq_true] at hc
    constructor
    · rintro ⟨p, hp, h⟩; exact ⟨p, hp, .inl h⟩
    · rintro ⟨p, hp, h | h⟩
      · exact ⟨p, hp, h⟩
      · have := hc p.1.2 (List.mem_map.mpr ⟨p, hp, rfl⟩)
        rw [decide_eq_true_eq] at this
        obtain ⟨q, hq, e⟩ := List.mem_map.mp this
        exact ⟨q, hq, by rw [e, h]⟩
  · simp at h

/-- **C187** for `sqtnl`: the elements of the dictionary never join a state with itself. Then the two matrices have one row and one column for
every final state, in increasing order. The element of row `F` and column `I` of the rate matrix is the sum over the two leads of the rates of
the list stored under `(F, I)`; of the transition matrix, the rate of the injecting lead, with a minus sign for electrons. Both are zero
where nothing is stored. -/
theorem C187_sqtnl {gd : List ((NId × NId) × List NGf)} (hn : (gd.map Prod.fst).Nodup) (hgd : ∀ p ∈ gd, p.1.1 ≠ p.1.2) {beta : ℝ} {mu : List ℝ}
    {A : List (List ℝ)} {inject : ℤ} {st : NState} (hst : sqtnlDicts gd beta mu A inject = .ok st) {ids : List NId}
    (h : InOrder NumBefore (finals gd) ids) {f i : ℕ} {F I : NId} (hF : ids[f]? = some F) (hI : ids[i]? = some I) (hfi : f ≠ i) :
    (∀ l, ((F, I), l) ∈ gd → ∃ g0 g1, sqtnlGamma l beta mu A 0 = .ok g0 ∧ sqtnlGamma l beta mu A 1 = .ok g1 ∧ dictToMatrix st.W f i = g0 + g1 ∧
      ∀ g gi, l.getLast? = some g → getItem [g0, g1] inject = .ok gi → dictToMatrix st.T f i = if g.el then -gi else gi) ∧
    ((∀ l, ((F, I), l) ∉ gd) → dictToMatrix st.W f i = 0 ∧ dictToMatrix st.T f i = 0) ∧ IsRateMatrix ids.length (dictToMatrix st.W) := by
  have hrate := sqtnlDicts_rate hst
  have hids := C79_sqtnl hgd hst
  unfold sqtnlDicts at hst
  cases hc : checkElements gd with
  | error e => simp [hc, bind, Except.bind] at hst
  | ok u =>
    rw [hc] at hst
    replace hst : forM' (sqtnlStep beta mu A inject) gd ⟨[], [], none⟩ = .ok st := hst
    have hnT : (st.T.map Prod.fst).Nodup := forM'_inv (fun s => (s.T.map Prod.fst).Nodup) (fun s p s' _ hb hP => by
      obtain ⟨g0, g1, gi, el, -, -, -, -, -, eT⟩ := sqtnlStep_parts hb
      rw [eT]; exact nodup_dictAdd hP _ _) hst (by simp)
    have hmem : ∀ x, x ∈ matrixIds st.T ↔ ends gd x := by
      have key : ∀ (L : List ((NId × NId) × List NGf)) (s s' : NState), forM' (sqtnlStep beta mu A inject) L s = .ok s' →
          ∀ x, x ∈ matrixIds s'.T ↔ x ∈ matrixIds s.T ∨ ends L x := by
        intro L
        induction L with
        | nil => intro s s' hs x; simp only [forM', Except.ok.injEq] at hs; subst hs; simp [ends]
        | cons p L ih =>
          intro s s' hs x
          rw [forM'] at hs
          cases hb : sqtnlStep beta mu A inject s p with
          | error e => simp [hb, bind, Except.bind] at hs
          | ok s1 =>
            rw [hb] at hs
            obtain ⟨g0, g1, gi, el, -, -, -, -, -, eT⟩ := sqtnlStep_parts hb
            rw [ih s1 s' hs x, eT, mem_matrixIds_dictAdd]
            rw [ends_cons]
            tauto
      intro x
      rw [key gd _ _ hst x]
      simp [matrixIds, mem_uniqueSorted]
    have eT : matrixIds st.T = ids := by
      refine matrixIds_of ⟨fun x => ?_, h.sorted⟩
      rw [h.mem, checkElements_ends hc, ← hmem, mem_matrixIds_keys]
      simp only [ends, List.mem_map]
      constructor
      · rintro ⟨k, ⟨p, hp, rfl⟩, hx⟩; exact ⟨p, hp, hx⟩
      · rintro ⟨p, hp, hx⟩; exact ⟨p.1, ⟨p, hp, rfl⟩, hx⟩
    have eW : matrixIds st.W = ids := hids.trans eT
    have hFI : F ≠ I := by
      rintro rfl
      have hd : ids.Nodup := h.sorted.imp fun hab => (numBefore_le _ _ hab).2
      obtain ⟨h1, e1⟩ := List.getElem?_eq_some_iff.mp hF
      obtain ⟨h2, e2⟩ := List.getElem?_eq_some_iff.mp hI
      exact hfi ((hd.getElem_inj_iff).mp (e1.trans e2.symm))
    have vW := forM'_val (fun s : NState => dictVal s.W) (fun p v => ∃ g0 g1, sqtnlGamma p.2 beta mu A 0 = .ok g0 ∧ sqtnlGamma p.2 beta mu A 1 = .ok g1 ∧ v = g0 + g1)
      (q := (F, I)) (fun s p s' hb => by
        obtain ⟨g0, g1, gi, el, k0, k1, -, -, eW, -⟩ := sqtnlStep_parts hb
        exact ⟨g0 + g1, fun _ => ⟨g0, g1, k0, k1, rfl⟩, by rw [eW, dictVal_rate _ _ _ hFI]⟩) hn hst
    have vT := forM'_val (fun s : NState => dictVal s.T) (fun p v => ∀ g0 g1 g gi, sqtnlGamma p.2 beta mu A 0 = .ok g0 → sqtnlGamma p.2 beta mu A 1 = .ok g1 →
        p.2.getLast? = some g → getItem [g0, g1] inject = .ok gi → v = if g.el then -gi else gi)
      (q := (F, I)) (fun s p s' hb => by
        obtain ⟨g0, g1, gi, el, k0, k1, k2, k3, -, eT⟩ := sqtnlStep_parts hb
        refine ⟨if el then -gi else gi, fun _ g0' g1' g gi' k0' k1' kg k2' => ?_, by rw [eT, dictVal_add]⟩
        rw [k0] at k0'; rw [k1] at k1'
        simp only [Except.ok.injEq] at k0' k1'
        subst k0' k1'
        rw [k2] at k2'
        simp only [Except.ok.injEq] at k2'
        subst k2'
        rw [k3 g kg]) hn hst
    have hW := dictToMatrix_val hrate.nodup (f := f) (i := i) (by rw [eW]; exact hF) (by rw [eW]; exact hI)
    have hT := dictToMatrix_val hnT (f := f) (i := i) (by rw [eT]; exact hF) (by rw [eT]; exact hI)
    refine ⟨fun l hl => ?_, fun hl => ?_, by rw [← eW]; exact rateDict_matrix hrate⟩
    · obtain ⟨v, ⟨g0, g1, k0, k1, rfl⟩, ev⟩ := vW.2 _ hl rfl
      obtain ⟨w, hw, ew⟩ := vT.2 _ hl rfl
      refine ⟨g0, g1, k0, k1, ?_, fun g gi hg hgi => ?_⟩
      · rw [hW, ev]; simp [dictVal, dictGet_nil]
      · rw [hT, ew, hw g0 g1 g gi k0 k1 hg hgi]; simp [dictVal, dictGet_nil]
    · have hne : ∀ p ∈ gd, p.1 ≠ (F, I) := by
        rintro ⟨k, l⟩ hp rfl
        exact hl l hp
      rw [hW, hT, vW.1 hne, vT.1 hne]
      simp [dictVal, dictGet_nil]

theorem cotnlStep_parts {integ : ℕ → ℕ → NSigma → Except PyErr ℝ} {extract inject : ℤ} {s s' : List ((NId × NId) × ℝ) × List ((NId × NId) × ℝ)}
    {p : (NId × NId) × List NSigma} (h : cotnlStep integ extract inject s p = .ok s') : ∃ g00 g01 g10 g11 x y, cotnlGamma p.2 integ 0 0 = .ok g00 ∧
      cotnlGamma p.2 integ 0 1 = .ok g01 ∧ cotnlGamma p.2 integ 1 0 = .ok g10 ∧ cotnlGamma p.2 integ 1 1 = .ok g11 ∧
        gamma22 g00 g01 g10 g11 extract inject = .ok x ∧ gamma22 g00 g01 g10 g11 inject extract = .ok y ∧
          s' = (addRate s.1 p.1 (g00 + g01 + g10 + g11), dictAdd s.2 p.1 (x - y)) := by
  unfold cotnlStep at h
  cases h1 : cotnlGamma p.2 integ 0 0 with
  | error e => simp [h1, bind, Except.bind] at h
  | ok g00 =>
    cases h2 : cotnlGamma p.2 integ 0 1 with
    | error e => simp [h1, h2, bind, Except.bind] at h
    | ok g01 =>
      cases h3 : cotnlGamma p.2 integ 1 0 with
      | error e => simp [h1, h2, h3, bind, Except.bind] at h
      | ok g10 =>
        cases h4 : cotnlGamma p.2 integ 1 1 with
        | error e => simp [h1, h2, h3, h4, bind, Except.bind] at h
        | ok g11 =>
          cases h5 : gamma22 g00 g01 g10 g11 extract inject with
          | error e => simp [h1, h2, h3, h4, h5, bind, Except.bind] at h
          | ok x =>
            cases h6 : gamma22 g00 g01 g10 g11 inject extract with
            | error e => simp [h1, h2, h3, h4, h5, h6, bind, Except.bind] at h
            | ok y =>
              simp only [h1, h2, h3, h4, h5, h6, bind, Except.bind, pure, Except.pure, Except.ok.injEq] at h
              exact ⟨g00, g01, g10, g11, x, y, rfl, rfl, rfl, rfl, h5, h6, h.symm⟩

/-- **C187** for `cotnl`: the rate matrix has one row and one column for every state that takes part in a transition between two different
states, the transition matrix one for every state of the dictionary (they differ only by isolated states). The element of row `F` and column
`I` of the rate matrix is the sum of the rates of the four pairs of leads of the list stored under `(F, I)`; of the transition
matrix, the rate of extracting at the one lead and injecting at the other minus the reverse. -/
theorem C187_cotnl {sd : List ((NId × NId) × List NSigma)} (hn : (sd.map Prod.fst).Nodup) {integ : ℕ → ℕ → NSigma → Except PyErr ℝ} {extract inject : ℤ}
    {W T : List ((NId × NId) × ℝ)} (hst : cotnlDicts sd integ extract inject = .ok (W, T)) {ids idsT : List NId}
    (h : InOrder NumBefore (ends (sd.filter fun p => p.1.1 ≠ p.1.2)) ids) (hT : InOrder NumBefore (finals sd) idsT) :
    (∀ f i F I l, ids[f]? = some F → ids[i]? = some I → f ≠ i → ((F, I), l) ∈ sd → ∃ g00 g01 g10 g11, cotnlGamma l integ 0 0 = .ok g00 ∧
      cotnlGamma l integ 0 1 = .ok g01 ∧ cotnlGamma l integ 1 0 = .ok g10 ∧ cotnlGamma l integ 1 1 = .ok g11 ∧
        dictToMatrix W f i = g00 + g01 + g10 + g11) ∧
    (∀ f i F I, ids[f]? = some F → ids[i]? = some I → f ≠ i → (∀ l, ((F, I), l) ∉ sd) → dictToMatrix W f i = 0) ∧
    (∀ f i F I l, idsT[f]? = some F → idsT[i]? = some I → ((F, I), l) ∈ sd → ∃ g00 g01 g10 g11 x y, cotnlGamma l integ 0 0 = .ok g00 ∧
      cotnlGamma l integ 0 1 = .ok g01 ∧ cotnlGamma l integ 1 0 = .ok g10 ∧ cotnlGamma l integ 1 1 = .ok g11 ∧
        gamma22 g00 g01 g10 g11 extract inject = .ok x ∧ gamma22 g00 g01 g10 g11 inject extract = .ok y ∧ dictToMatrix T f i = x - y) ∧
    ∀ f i F I, idsT[f]? = some F → idsT[i]? = some I → (∀ l, ((F, I), l) ∉ sd) → dictToMatrix T f i = 0 := by
  unfold cotnlDicts at hst
  cases hc : checkElements sd with
  | error e => simp [hc, bind, Except.bind] at hst
  | ok u =>
    rw [hc] at hst
    replace hst : forM' (cotnlStep integ extract inject) sd ([], []) = .ok (W, T) := hst
    have hnd : (W.map Prod.fst).Nodup ∧ (T.map Prod.fst).Nodup :=
      forM'_inv (fun s : List ((NId × NId) × ℝ) × List ((NId × NId) × ℝ) => (s.1.map Prod.fst).Nodup ∧ (s.2.map Prod.fst).Nodup) (fun s p s' _ hb hP => by
        obtain ⟨g00, g01, g10, g11, x, y, -, -, -, -, -, -, e⟩ := cotnlStep_parts hb
        rw [e]
        refine ⟨?_, nodup_dictAdd hP.2 _ _⟩
        unfold addRate
        split
        · exact nodup_dictAdd (nodup_dictAdd hP.1 _ _) _ _
        · exact hP.1) hst ⟨by simp, by simp⟩
    have key : ∀ (L : List ((NId × NId) × List NSigma)) (s s' : List ((NId × NId) × ℝ) × List ((NId × NId) × ℝ)),
        forM' (cotnlStep integ extract inject) L s = .ok s' →
        ∀ x, (x ∈ matrixIds s'.2 ↔ x ∈ matrixIds s.2 ∨ ends L x) ∧ (x ∈ matrixIds s'.1 ↔ x ∈ matrixIds s.1 ∨ ends (L.filter fun p => p.1.1 ≠ p.1.2) x) := by
      intro L
      induction L with
      | nil => intro s s' hs x; simp only [forM', Except.ok.injEq] at hs; subst hs; simp [ends]
      | cons p L ih =>
        intro s s' hs x
        rw [forM'] at hs
        cases hb : cotnlStep integ extract inject s p with
        | error e => simp [hb, bind, Except.bind] at hs
        | ok s1 =>
          rw [hb] at hs
          obtain ⟨g00, g01, g10, g11, y, z, -, -, -, -, -, -, e⟩ := cotnlStep_parts hb
          obtain ⟨i1, i2⟩ := ih s1 s' hs x
          rw [i1, i2, e]
          refine ⟨?_, ?_⟩
          · rw [mem_matrixIds_dictAdd]
            rw [ends_cons]
            tauto
          · by_cases hp : p.1.1 = p.1.2
            · unfold addRate
              simp [hp]
            · rw [mem_matrixIds_addRate hp, List.filter_cons_of_pos (by simpa using hp)]
              rw [ends_cons]
              tauto
    have fromIds : ∀ {D : List ((NId × NId) × ℝ)} {P : NId → Prop} {l : List NId}, (∀ x, x ∈ matrixIds D ↔ P x) → InOrder NumBefore P l → matrixIds D = l := by
      intro D P l hm hl
      refine matrixIds_of ⟨fun x => ?_, hl.sorted⟩
      rw [hl.mem, ← hm, mem_matrixIds_keys]
      simp only [ends, List.mem_map]
      constructor
      · rintro ⟨k, ⟨p, hp, rfl⟩, hx⟩; exact ⟨p, hp, hx⟩
      · rintro ⟨p, hp, hx⟩; exact ⟨p.1, ⟨p, hp, rfl⟩, hx⟩
    have eT : matrixIds T = idsT := fromIds (fun x => by
      rw [(key sd _ _ hst x).1, checkElements_ends hc]; simp [matrixIds, mem_uniqueSorted]) hT
    have eW : matrixIds W = ids := fromIds (fun x => by
      rw [(key sd _ _ hst x).2]; simp [matrixIds, mem_uniqueSorted]) h
    have hd : ids.Nodup := h.sorted.imp fun hab => (numBefore_le _ _ hab).2
    have hFI : ∀ {f i : ℕ} {F I : NId}, ids[f]? = some F → ids[i]? = some I → f ≠ i → F ≠ I := by
      rintro f i F I hF hI hfi rfl
      obtain ⟨h1, e1⟩ := List.getElem?_eq_some_iff.mp hF
      obtain ⟨h2, e2⟩ := List.getElem?_eq_some_iff.mp hI
      exact hfi ((hd.getElem_inj_iff).mp (e1.trans e2.symm))
    have vW := fun (F I : NId) (hne : F ≠ I) => forM'_val (fun s : List ((NId × NId) × ℝ) × List ((NId × NId) × ℝ) => dictVal s.1)
      (fun p v => ∃ g00 g01 g10 g11, cotnlGamma p.2 integ 0 0 = .ok g00 ∧ cotnlGamma p.2 integ 0 1 = .ok g01 ∧ cotnlGamma p.2 integ 1 0 = .ok g10 ∧
        cotnlGamma p.2 integ 1 1 = .ok g11 ∧ v = g00 + g01 + g10 + g11)
      (q := (F, I)) (fun s p s' hb => by
        obtain ⟨g00, g01, g10, g11, y, z, k0, k1, k2, k3, -, -, e⟩ := cotnlStep_parts hb
        exact ⟨_, fun _ => ⟨g00, g01, g10, g11, k0, k1, k2, k3, rfl⟩, by rw [e, dictVal_rate _ _ _ hne]⟩) hn hst
    have vT := fun (F I : NId) => forM'_val (fun s : List ((NId × NId) × ℝ) × List ((NId × NId) × ℝ) => dictVal s.2)
      (fun p v => ∃ g00 g01 g10 g11 x y, cotnlGamma p.2 integ 0 0 = .ok g00 ∧ cotnlGamma p.2 integ 0 1 = .ok g01 ∧ cotnlGamma p.2 integ 1 0 = .ok g10 ∧
        cotnlGamma p.2 integ 1 1 = .ok g11 ∧ gamma22 g00 g01 g10 g11 extract inject = .ok x ∧ gamma22 g00 g01 g10 g11 inject extract = .ok y ∧ v = x - y)
      (q := (F, I)) (fun s p s' hb => by
        obtain ⟨g00, g01, g10, g11, y, z, k0, k1, k2, k3, k4, k5, e⟩ := cotnlStep_parts hb
        exact ⟨_, fun _ => ⟨g00, g01, g10, g11, y, z, k0, k1, k2, k3, k4, k5, rfl⟩, by rw [e, dictVal_add]⟩) hn hst
    have hno : ∀ {F I : NId}, (∀ l, ((F, I), l) ∉ sd) → ∀ p ∈ sd, p.1 ≠ (F, I) := by
      rintro F I hl ⟨k, l⟩ hp rfl
      exact hl l hp
    refine ⟨fun f i F I l hF hI hfi hl => ?_, fun f i F I hF hI hfi hl => ?_, fun f i F I l hF hI hl => ?_, fun f i F I hF hI hl => ?_⟩
    · obtain ⟨v, ⟨g00, g01, g10, g11, k0, k1, k2, k3, rfl⟩, ev⟩ := (vW F I (hFI hF hI hfi)).2 _ hl rfl
      refine ⟨g00, g01, g10, g11, k0, k1, k2, k3, ?_⟩
      rw [dictToMatrix_val hnd.1 (by rw [eW]; exact hF) (by rw [eW]; exact hI), ev]
      simp [dictVal, dictGet_nil]
    · rw [dictToMatrix_val hnd.1 (by rw [eW]; exact hF) (by rw [eW]; exact hI), (vW F I (hFI hF hI hfi)).1 (hno hl)]
      simp [dictVal, dictGet_nil]
    · obtain ⟨v, ⟨g00, g01, g10, g11, x, y, k0, k1, k2, k3, k4, k5, rfl⟩, ev⟩ := (vT F I).2 _ hl rfl
      refine ⟨g00, g01, g10, g11, x, y, k0, k1, k2, k3, k4, k5, ?_⟩
      rw [dictToMatrix_val hnd.2 (by rw [eT]; exact hF) (by rw [eT]; exact hI), ev]
      simp [dictVal, dictGet_nil]
    · rw [dictToMatrix_val hnd.2 (by rw [eT]; exact hF) (by rw [eT]; exact hI), (vT F I).1 (hno hl)]
      simp [dictVal, dictGet_nil]

/-! ## Examples -/

/-- Final states `(0, 1, 0)` and `(1, 0, 0)` of a dictionary whose initial states are others: the matrices have the final states as rows. -/
example : InOrder SpinBefore (finals ([((((1, 0, 0) : TId), ((0, 0, 0) : TId)), ([] : List CoSigma)), (((0, 1, 0), (1, 0, 0)), []), (((1, 0, 0), (0, 1, 0)), [])] : SigmaDict))
    [(0, 1, 0), (1, 0, 0)] := by
  refine ⟨fun x => ?_, by simp [SpinBefore]⟩
  simp only [finals, List.mem_cons, List.not_mem_nil, or_false, exists_eq_or_imp, exists_eq_left]
  constructor
  · rintro (rfl | rfl) <;> simp
  · rintro (rfl | rfl | rfl) <;> simp

/-- Two states with one and two electrons, in a dictionary that mentions the larger one first. -/
example : InOrder NumBefore (finals [((((2, 0) : NId), ((1, 3) : NId)), ([] : List NGf)), (((1, 3), (2, 0)), [])]) [(1, 3), (2, 0)] := by
  refine ⟨fun x => ?_, by simp [NumBefore]⟩
  simp only [finals, List.mem_cons, List.not_mem_nil, or_false, exists_eq_or_imp, exists_eq_left]
  constructor
  · rintro (rfl | rfl) <;> simp
  · rintro (rfl | rfl) <;> simp

/-- The hypotheses of the theorems on sequential tunnelling hold for an element with its conjugate. -/
example : ∃ (gd : GfDict) (ids : List TId) (g : GfT) (γ0 γ1 : ℝ), InOrder SpinBefore (finals gd) ids ∧ ids[1]? = some (1, 0, 0) ∧ ids[0]? = some (0, 0, 0) ∧
    dictGet gd ((1, 0, 0), (0, 0, 0)) = .ok g ∧ g.call [1] 1 0 = .ok γ0 ∧ g.call [2] 1 1 = .ok γ1 := by
  refine ⟨[(((1, 0, 0), (0, 0, 0)), ⟨true, (1, 0, 0), (0, 0, 0), [1], 2⟩), (((0, 0, 0), (1, 0, 0)), ⟨false, (0, 0, 0), (1, 0, 0), [1], 2⟩)], [(0, 0, 0), (1, 0, 0)], ⟨true, (1, 0, 0), (0, 0, 0), [1], 2⟩, _, _,
    ⟨fun x => ?_, by simp [SpinBefore]⟩, rfl, rfl, rfl, rfl, rfl⟩
  simp only [finals, List.mem_cons, List.not_mem_nil, or_false, exists_eq_or_imp, exists_eq_left]
  constructor
  · rintro (rfl | rfl) <;> simp
  · rintro (rfl | rfl) <;> simp

end Edpyt
