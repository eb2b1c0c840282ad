import Verif.Proof.Espace
/-!
Lemmas on `screen_espace` and `adjust_neigsector`.
-/
namespace Edpyt

theorem fancyIndex_eq {β : Type} (junk : β) (l : List β) (is : List ℕ) (h : ∀ i ∈ is, i < l.length) :
    fancyIndex l is = .ok (is.map fun i => l[i]?.getD junk) := by
  induction is with
  | nil => rfl
  | cons i is ih =>
    have hi := h i (by simp)
    rw [fancyIndex, getItem_natCast l i hi, ih (fun j hj => h j (by simp [hj]))]
    simp [bind, Except.bind, pure, Except.pure, hi]

theorem eq_range_map {β : Type} (junk : β) (l : List β) : l = (List.range l.length).map fun i => l[i]?.getD junk := by
  apply List.ext_getElem
  · simp
  · intro i h1 h2; simp [h1]

theorem zip_range_map {β γ : Type} (j1 : β) (j2 : γ) (l : List β) (m : List γ) (h : l.length = m.length) :
    l.zip m = (List.range l.length).map fun i => (l[i]?.getD j1, m[i]?.getD j2) := by
  apply List.ext_getElem
  · simp [h]
  · intro i h1 h2
    simp only [List.length_zip, lt_inf_iff] at h1
    simp [h1.1, h1.2]

/-- The survival criterion. -/
noncomputable def keepE (egs beta cutoff E : ℝ) : Bool := decide (Real.exp (-beta * (E - egs)) > cutoff)

/-- The surviving pairs of a sector. -/
noncomputable def survivors (egs beta cutoff : ℝ) (s : Sct) : List (ℝ × (ℕ → ℝ)) :=
  (s.eigvals.zip s.eigvecs).filter fun p => keepE egs beta cutoff p.1

/-- The sector with only its survivors. -/
noncomputable def screenedSct (egs beta cutoff : ℝ) (s : Sct) : Sct :=
  ⟨s.states, s.d, (survivors egs beta cutoff s).map Prod.fst, (survivors egs beta cutoff s).map Prod.snd⟩

theorem whereIdx_screen (egs beta cutoff : ℝ) (w : List ℝ) :
    whereIdx (screenDiff w egs beta cutoff) = (List.range w.length).filter fun i => keepE egs beta cutoff (w[i]?.getD 0) := by
  unfold whereIdx screenDiff
  rw [List.length_map]
  apply List.filter_congr
  intro i hi
  have := List.mem_range.mp hi
  simp [this, keepE]

theorem survivors_eq (egs beta cutoff : ℝ) {s : Sct} (h : s.eigvals.length = s.eigvecs.length) :
    survivors egs beta cutoff s = (whereIdx (screenDiff s.eigvals egs beta cutoff)).map
      fun i => (s.eigvals[i]?.getD 0, s.eigvecs[i]?.getD 0) := by
  unfold survivors
  rw [zip_range_map 0 0 _ _ h, List.filter_map, whereIdx_screen]
  rfl

theorem any_screen (egs beta cutoff : ℝ) {s : Sct} (h : s.eigvals.length = s.eigvecs.length) :
    (screenDiff s.eigvals egs beta cutoff).any id = true ↔ survivors egs beta cutoff s ≠ [] := by
  rw [survivors_eq egs beta cutoff h, whereIdx_screen]
  simp only [screenDiff, List.any_map, List.any_eq_true, Function.comp, id, ne_eq, List.map_eq_nil_iff, List.filter_eq_nil_iff,
    List.mem_range, not_forall, not_not, keepE]
  constructor
  · rintro ⟨x, hx, hk⟩
    obtain ⟨i, hi, rfl⟩ := List.getElem_of_mem hx
    exact ⟨i, hi, by simpa [hi] using hk⟩
  · rintro ⟨i, hi, hk⟩
    exact ⟨s.eigvals[i], List.getElem_mem hi, by simpa [hi] using hk⟩

theorem screenStep_eq {α : Type} (egs beta cutoff : ℝ) (st : Espace α × List α) (p : α × Sct)
    (h : p.2.eigvals.length = p.2.eigvecs.length) :
    screenStep egs beta cutoff st p = .ok (if survivors egs beta cutoff p.2 ≠ [] then
      (st.1 ++ [(p.1, screenedSct egs beta cutoff p.2)], st.2) else (st.1 ++ [p], st.2 ++ [p.1])) := by
  unfold screenStep
  by_cases hs : survivors egs beta cutoff p.2 ≠ []
  · rw [if_pos hs]
    simp only [(any_screen egs beta cutoff h).mpr hs, if_true]
    have hb : ∀ i ∈ whereIdx (screenDiff p.2.eigvals egs beta cutoff), i < p.2.eigvals.length := by
      intro i hi
      rw [whereIdx_screen] at hi
      exact List.mem_range.mp (List.mem_of_mem_filter hi)
    rw [fancyIndex_eq 0 _ _ hb, fancyIndex_eq 0 _ _ (fun i hi => h ▸ hb i hi)]
    simp [bind, Except.bind, pure, Except.pure, screenedSct, survivors_eq egs beta cutoff h, Function.comp_def]
  · rw [if_neg hs]
    have : ((screenDiff p.2.eigvals egs beta cutoff).any id) = false := by
      rw [← Bool.not_eq_true, any_screen egs beta cutoff h]; exact hs
    simp [this, pure, Except.pure]

theorem screenLoop_eq {α : Type} (egs beta cutoff : ℝ) (es : Espace α)
    (h : ∀ p ∈ es, p.2.eigvals.length = p.2.eigvecs.length) (st : Espace α × List α) :
    forM' (screenStep egs beta cutoff) es st = .ok
      (st.1 ++ es.map (fun p => if survivors egs beta cutoff p.2 ≠ [] then (p.1, screenedSct egs beta cutoff p.2) else p),
       st.2 ++ (es.filter fun p => decide (survivors egs beta cutoff p.2 = [])).map Prod.fst) := by
  induction es generalizing st with
  | nil => simp [forM']
  | cons p es ih =>
    rw [forM', screenStep_eq egs beta cutoff st p (h p (by simp))]
    simp only
    rw [ih (fun q hq => h q (by simp [hq]))]
    by_cases hs : survivors egs beta cutoff p.2 = []
    · simp [hs]
    · simp [hs]

theorem popLoop_eq {α β : Type} [DecidableEq α] (ds : List α) (hd : ds.Nodup) (L : List (α × β))
    (h : ∀ q ∈ ds, q ∈ L.map Prod.fst) : forM' dictPop ds L = .ok (L.filter fun p => decide (p.1 ∉ ds)) := by
  induction ds generalizing L with
  | nil => simp [forM']
  | cons q ds ih =>
    rw [List.nodup_cons] at hd
    rw [forM', dictPop, if_pos (h q (by simp))]
    simp only
    rw [ih hd.2]
    · rw [List.filter_filter]
      congr 1
      apply List.filter_congr
      intro p _
      by_cases h1 : p.1 = q <;> simp [h1]
    · intro x hx
      obtain ⟨p, hp, rfl⟩ := List.mem_map.mp (h x (by simp [hx]))
      refine List.mem_map.mpr ⟨p, List.mem_filter.mpr ⟨hp, ?_⟩, rfl⟩
      simp only [decide_eq_true_eq]
      rintro rfl
      exact hd.1 hx

/-- Closed form of `screen_espace`. -/
theorem screenEspace_eq {α : Type} [DecidableEq α] (egs beta cutoff : ℝ) (es : Espace α)
    (h : ∀ p ∈ es, p.2.eigvals.length = p.2.eigvecs.length) (hnd : (es.map Prod.fst).Nodup) :
    screenEspace es egs beta cutoff = .ok ((es.filter fun p => decide (survivors egs beta cutoff p.2 ≠ [])).map
      fun p => (p.1, screenedSct egs beta cutoff p.2)) := by
  unfold screenEspace
  rw [screenLoop_eq egs beta cutoff es h]
  simp only [bind, Except.bind, List.nil_append]
  rw [popLoop_eq]
  · rw [List.filter_map]
    have hc : ∀ p ∈ es, ((fun p : α × Sct => decide (p.1 ∉ (es.filter fun p => decide (survivors egs beta cutoff p.2 = [])).map Prod.fst)) ∘
        (fun p => if survivors egs beta cutoff p.2 ≠ [] then (p.1, screenedSct egs beta cutoff p.2) else p)) p =
        decide (survivors egs beta cutoff p.2 ≠ []) := by
      intro p hp
      have hk : (if survivors egs beta cutoff p.2 ≠ [] then (p.1, screenedSct egs beta cutoff p.2) else p).1 = p.1 := by
        split_ifs <;> rfl
      simp only [Function.comp, hk, decide_eq_decide, List.mem_map, List.mem_filter, decide_eq_true_eq, not_exists, not_and]
      constructor
      · intro hn hs; exact hn p ⟨hp, hs⟩ rfl
      · rintro hs q ⟨hq, hqs⟩ he
        have : q = p := List.inj_on_of_nodup_map hnd hq hp he
        rw [this] at hqs; exact hs hqs
    rw [List.filter_congr hc]
    congr 1
    apply List.map_congr_left
    intro p hp
    have := (List.mem_filter.mp hp).2
    rw [if_pos (by simpa using this)]
  · exact (hnd.sublist (List.filter_sublist.map Prod.fst))
  · intro q hq
    obtain ⟨p, hp, rfl⟩ := List.mem_map.mp hq
    refine List.mem_map.mpr ⟨_, List.mem_map_of_mem (List.mem_of_mem_filter hp), ?_⟩
    split_ifs <;> rfl

/-! ### adjust_neigsector -/

/-- Position of a sector in the array. -/
def sidx (n : ℕ) (q : ℕ × ℕ) : ℕ := q.1 * (n + 1) + q.2

theorem getSectorIndex_ok {n : ℕ} {q : ℕ × ℕ} (h : q ∈ ndindex2 (n + 1) (n + 1)) :
    getSectorIndex n q.1 q.2 = .ok ((sidx n q : ℕ) : ℤ) := by
  obtain ⟨h1, h2⟩ := mem_ndindex2.mp h
  rw [getSectorIndex, if_neg (by omega)]
  simp [sidx]

theorem sidx_lt {n : ℕ} {q : ℕ × ℕ} (h : q ∈ ndindex2 (n + 1) (n + 1)) : sidx n q < (n + 1) * (n + 1) := by
  obtain ⟨b1, b2⟩ := mem_ndindex2.mp h
  calc q.1 * (n + 1) + q.2 < (q.1 + 1) * (n + 1) := by rw [Nat.succ_mul]; omega
    _ ≤ _ := Nat.mul_le_mul_right _ (by omega)

theorem sidx_inj {n : ℕ} {q q' : ℕ × ℕ} (h : q ∈ ndindex2 (n + 1) (n + 1)) (h' : q' ∈ ndindex2 (n + 1) (n + 1)) :
    sidx n q = sidx n q' ↔ q = q' := by
  obtain ⟨b1, b2⟩ := mem_ndindex2.mp h
  obtain ⟨c1, c2⟩ := mem_ndindex2.mp h'
  unfold sidx
  rw [split_index_eq b2 c2]
  exact (Prod.ext_iff).symm

theorem neigIncrease_eq {n : ℕ} {q : ℕ × ℕ} (h : q ∈ ndindex2 (n + 1) (n + 1)) {neig : List ℕ}
    (hl : neig.length = (n + 1) * (n + 1)) :
    neigIncrease n neig q = .ok (neig.set (sidx n q) (min (getSectorDim n q.1 q.2) (neig[sidx n q]?.getD 0 + 1))) := by
  have hlt : sidx n q < neig.length := hl ▸ sidx_lt h
  unfold neigIncrease
  rw [getSectorIndex_ok h]
  simp only [bind, Except.bind]
  rw [getItem_natCast neig _ hlt]
  simp only
  rw [setItem_natCast _ _ _ hlt]
  simp [hlt]

theorem neigDecrease_eq {n : ℕ} {q : ℕ × ℕ} (h : q ∈ ndindex2 (n + 1) (n + 1)) {neig : List ℕ}
    (hl : neig.length = (n + 1) * (n + 1)) :
    neigDecrease n neig q = .ok (neig.set (sidx n q) (max 1 (neig[sidx n q]?.getD 0 - 1))) := by
  have hlt : sidx n q < neig.length := hl ▸ sidx_lt h
  unfold neigDecrease
  rw [getSectorIndex_ok h]
  simp only [bind, Except.bind]
  rw [getItem_natCast neig _ hlt]
  simp only
  rw [setItem_natCast _ _ _ hlt]
  simp [hlt]

/-- New value of an absent sector. -/
def decVal (x : ℕ) : ℕ := max 1 (x - 1)

/-- New value of a present sector holding `size` eigenvalues. -/
def presentVal (dim size x : ℕ) : ℕ :=
  if size = x then min dim (x + 1) else if size < x then max 1 (x - 1) else x

/-- Effect of decreasing a list of keys. -/
theorem decLoop {n : ℕ} (ks : List (ℕ × ℕ)) (hk : ∀ q ∈ ks, q ∈ ndindex2 (n + 1) (n + 1)) (hnd : ks.Nodup) (neig : List ℕ)
    (hl : neig.length = (n + 1) * (n + 1)) :
    ∃ neig', forM' (neigDecrease n) ks neig = .ok neig' ∧ neig'.length = (n + 1) * (n + 1) ∧
      ∀ q ∈ ndindex2 (n + 1) (n + 1), neig'[sidx n q]?.getD 0 =
        if q ∈ ks then decVal (neig[sidx n q]?.getD 0) else neig[sidx n q]?.getD 0 := by
  induction ks generalizing neig with
  | nil => exact ⟨neig, rfl, hl, by simp⟩
  | cons k ks ih =>
    rw [List.nodup_cons] at hnd
    have hkm := hk k (by simp)
    have hlt : sidx n k < neig.length := hl ▸ sidx_lt hkm
    obtain ⟨neig', h1, h2, h3⟩ := ih (fun q hq => hk q (by simp [hq])) hnd.2 (neig.set (sidx n k) (decVal (neig[sidx n k]?.getD 0)))
      (by simp [hl])
    refine ⟨neig', ?_, h2, ?_⟩
    · rw [forM', neigDecrease_eq hkm hl]; exact h1
    · intro q hq
      rw [h3 q hq, List.getElem?_set]
      by_cases he : q = k
      · subst he
        simp [hnd.1, hlt]
      · have : sidx n k ≠ sidx n q := by rw [Ne, sidx_inj hkm hq]; exact fun h => he h.symm
        simp [this, he]

/-- The inner loop on an iterator that contains `q` after the prefix `pre`. -/
theorem adjustSkip_eq {n : ℕ} {q : ℕ × ℕ} (pre post : List (ℕ × ℕ)) (hq : q ∉ pre) (neig : List ℕ) :
    adjustSkip n q (pre ++ q :: post) neig = (forM' (neigDecrease n) pre neig).map fun x => (post, x) := by
  induction pre generalizing neig with
  | nil => simp [adjustSkip, forM', Except.map]
  | cons k pre ih =>
    rw [List.cons_append, adjustSkip, if_pos (by rintro rfl; simp at hq), forM']
    cases neigDecrease n neig k with
    | error e => rfl
    | ok x =>
      simp only [bind, Except.bind]
      exact ih (by simp at hq; exact hq.2) x

theorem adjustSkip_stop {n : ℕ} {q : ℕ × ℕ} (ks : List (ℕ × ℕ)) (hk : ∀ q ∈ ks, q ∈ ndindex2 (n + 1) (n + 1)) (hq : q ∉ ks)
    (neig : List ℕ) (hl : neig.length = (n + 1) * (n + 1)) : adjustSkip n q ks neig = .error .stopIteration := by
  induction ks generalizing neig with
  | nil => rfl
  | cons k ks ih =>
    rw [adjustSkip, if_pos (by rintro rfl; simp at hq), neigDecrease_eq (hk k (by simp)) hl]
    simp only [bind, Except.bind]
    exact ih (fun x hx => hk x (by simp [hx])) (by simp at hq; exact hq.2) _ (by simp [hl])

/-- Size of a sector in the dictionary. -/
def sizeOf? (es : Espace (ℕ × ℕ)) (q : ℕ × ℕ) : Option ℕ := (es.lookup q).map fun s => s.eigvals.length

/-- New value of a sector. -/
def newVal (n : ℕ) (es : Espace (ℕ × ℕ)) (q : ℕ × ℕ) (x : ℕ) : ℕ :=
  match es.lookup q with
  | none => decVal x
  | some s => presentVal (getSectorDim n q.1 q.2) s.eigvals.length x

theorem sublist_after {β : Type} {x : β} {pre post l : List β} (hx : x ∉ pre) (h : (x :: l).Sublist (pre ++ x :: post)) :
    l.Sublist post := by
  induction pre with
  | nil => exact List.cons_sublist_cons.mp h
  | cons k pre ih =>
    rw [List.cons_append] at h
    cases h with
    | cons _ h => exact ih (fun h' => hx (by simp [h'])) h
    | cons_cons _ h => simp at hx

theorem adjustLoop {n : ℕ} (es : Espace (ℕ × ℕ)) (ks : List (ℕ × ℕ)) (hk : ∀ q ∈ ks, q ∈ ndindex2 (n + 1) (n + 1)) (hnd : ks.Nodup)
    (hsub : (es.map Prod.fst).Sublist ks) (neig : List ℕ) (hl : neig.length = (n + 1) * (n + 1)) :
    ∃ neig', (do let (ks, neig) ← forM' (adjustStep n) es (ks, neig); forM' (neigDecrease n) ks neig) = .ok neig' ∧
      neig'.length = (n + 1) * (n + 1) ∧ ∀ q ∈ ndindex2 (n + 1) (n + 1), neig'[sidx n q]?.getD 0 =
        if q ∈ ks then newVal n es q (neig[sidx n q]?.getD 0) else neig[sidx n q]?.getD 0 := by
  induction es generalizing ks neig with
  | nil =>
    obtain ⟨neig', h1, h2, h3⟩ := decLoop ks hk hnd neig hl
    exact ⟨neig', by simpa [forM', bind, Except.bind] using h1, h2, by simpa [newVal] using h3⟩
  | cons p es ih =>
    rw [List.map_cons] at hsub
    have hpm : p.1 ∈ ks := hsub.subset (by simp)
    obtain ⟨pre, post, rfl⟩ := List.append_of_mem hpm
    have hnd' := hnd
    rw [List.nodup_append] at hnd'
    obtain ⟨n1, n2, n3⟩ := hnd'
    rw [List.nodup_cons] at n2
    have hpre : p.1 ∉ pre := fun h => n3 _ h _ (by simp) rfl
    have hsub' : (es.map Prod.fst).Sublist post := sublist_after hpre hsub
    have hpn := hk _ hpm
    obtain ⟨neig1, d1, d2, d3⟩ := decLoop pre (fun q hq => hk q (by simp [hq])) n1 neig hl
    have hlt1 : sidx n p.1 < neig1.length := d2 ▸ sidx_lt hpn
    let x := neig1[sidx n p.1]?.getD 0
    let neig2 := neig1.set (sidx n p.1) (presentVal (getSectorDim n p.1.1 p.1.2) p.2.eigvals.length x)
    have hstep : adjustStep n (pre ++ p.1 :: post, neig) p = .ok (post, neig2) := by
      unfold adjustStep
      simp only
      rw [adjustSkip_eq pre post hpre, d1, getSectorIndex_ok hpn]
      simp only [Except.map, bind, Except.bind]
      rw [getItem_natCast neig1 _ hlt1]
      have hx : neig1[sidx n p.1] = x := by simp [x, hlt1]
      simp only [hx]
      by_cases h1 : p.2.eigvals.length = x
      · simp only [h1, if_true]
        rw [neigIncrease_eq hpn d2]
        simp [neig2, presentVal, h1, pure, Except.pure, x]
      · by_cases h2 : p.2.eigvals.length < x
        · simp only [h1, if_false, h2, if_true]
          rw [neigDecrease_eq hpn d2]
          simp only [pure, Except.pure, neig2, presentVal, h1, h2, if_false, if_true]
          rfl
        · simp only [h1, h2, if_false, pure, Except.pure, neig2, presentVal]
          congr 2
          rw [← hx, List.set_getElem_self]
    obtain ⟨neig', e1, e2, e3⟩ := ih post (fun q hq => hk q (by simp [hq])) n2.2 hsub' neig2 (by simp [neig2, d2])
    refine ⟨neig', ?_, e2, ?_⟩
    · rw [forM', hstep]; exact e1
    · intro q hq
      rw [e3 q hq]
      simp only [neig2]
      rw [List.getElem?_set]
      by_cases he : q = p.1
      · subst he
        simp only [if_true, hlt1, n2.1, if_false, Option.getD_some, List.mem_append, List.mem_cons, true_or, or_true]
        have hlook : (p :: es).lookup p.1 = some p.2 := by cases p; simp
        simp only [newVal, hlook, x]
        rw [d3 _ hq, if_neg hpre]
      · have hne : sidx n p.1 ≠ sidx n q := by rw [Ne, sidx_inj hpn hq]; exact fun h => he h.symm
        rw [if_neg hne, d3 q hq]
        have hlook : (p :: es).lookup q = es.lookup q := by
          rw [List.lookup_cons, beq_false_of_ne he]
        simp only [newVal, hlook]
        by_cases hpq : q ∈ post
        · have : q ∉ pre := fun h => n3 _ h _ (by simp [hpq]) rfl
          simp [hpq, this]
        · by_cases hp' : q ∈ pre
          · have hno : es.lookup q = none := by
              rw [List.lookup_eq_none_iff]
              intro y hy
              simp only [beq_iff_eq, ne_eq, bne_iff_ne]
              intro hye
              exact hpq (hye ▸ hsub'.subset (List.mem_map_of_mem hy))
            simp [hpq, hp', hno]
          · simp [hpq, hp', he]

/-- Keys out of order: the iterator runs out. -/
theorem adjustLoop_stop {n : ℕ} (es : Espace (ℕ × ℕ)) (ks : List (ℕ × ℕ)) (hk : ∀ q ∈ ks, q ∈ ndindex2 (n + 1) (n + 1)) (hnd : ks.Nodup)
    (hsub : ¬ (es.map Prod.fst).Sublist ks) (neig : List ℕ) (hl : neig.length = (n + 1) * (n + 1)) :
    forM' (adjustStep n) es (ks, neig) = .error .stopIteration := by
  induction es generalizing ks neig with
  | nil => simp at hsub
  | cons p es ih =>
    by_cases hpm : p.1 ∈ ks
    · obtain ⟨pre, post, rfl⟩ := List.append_of_mem hpm
      have hnd' := hnd
      rw [List.nodup_append] at hnd'
      obtain ⟨n1, n2, n3⟩ := hnd'
      rw [List.nodup_cons] at n2
      have hpre : p.1 ∉ pre := fun h => n3 _ h _ (by simp) rfl
      have hpn := hk _ hpm
      obtain ⟨neig1, d1, d2, d3⟩ := decLoop pre (fun q hq => hk q (by simp [hq])) n1 neig hl
      have hlt1 : sidx n p.1 < neig1.length := d2 ▸ sidx_lt hpn
      have hstep : ∃ neig2, adjustStep n (pre ++ p.1 :: post, neig) p = .ok (post, neig2) ∧ neig2.length = (n + 1) * (n + 1) := by
        unfold adjustStep
        simp only
        rw [adjustSkip_eq pre post hpre, d1, getSectorIndex_ok hpn]
        simp only [Except.map, bind, Except.bind]
        rw [getItem_natCast neig1 _ hlt1]
        simp only
        split_ifs
        · rw [neigIncrease_eq hpn d2]; exact ⟨_, rfl, by simp [d2]⟩
        · rw [neigDecrease_eq hpn d2]; exact ⟨_, rfl, by simp [d2]⟩
        · exact ⟨_, rfl, d2⟩
      obtain ⟨neig2, s1, s2⟩ := hstep
      rw [forM', s1]
      apply ih post (fun q hq => hk q (by simp [hq])) n2.2 _ _ s2
      intro hs
      apply hsub
      rw [List.map_cons]
      exact (hs.cons_cons p.1).trans (List.sublist_append_right _ _)
    · rw [forM', adjustStep]
      simp only
      rw [adjustSkip_stop ks hk hpm neig hl]
      rfl

end Edpyt
