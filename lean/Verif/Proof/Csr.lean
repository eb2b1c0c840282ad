import Verif.Model.Csr
import Verif.Proof.Py
/-!
Lemmas about counter-driven filling of CSR buffers.
-/
namespace Edpyt

variable {K : Type}

/-- Row pointers of a list of rows. -/
def ptrs {α : Type} (rows : List (List α)) : List ℤ :=
  (List.range (rows.length + 1)).map fun k => ((rows.take k).flatten.length : ℤ)

/-- The CSR arrays hold exactly the given rows. -/
def IsCsr (m : Csr K) (rows : List (List (K × ℤ))) : Prop :=
  m.data = rows.flatten.map Prod.fst ∧ m.indices = rows.flatten.map Prod.snd ∧ m.indptr = ptrs rows ∧
    m.rows = rows.length

/-- Buffer state during filling: `e` written, capacity `cap`, row pointers `P`. -/
def Wrote (cap : ℕ) (P : List ℤ) (r c : ℕ) (e : List (K × ℤ)) (st : ℕ × Csr K) : Prop :=
  st.1 = e.length ∧ (∃ jd : List K, st.2.data = e.map Prod.fst ++ jd) ∧
  (∃ ji : List ℤ, st.2.indices = e.map Prod.snd ++ ji) ∧
  st.2.data.length = cap ∧ st.2.indices.length = cap ∧ st.2.indptr = P ∧ st.2.rows = r ∧ st.2.cols = c

/-- `f` appends the entries `E` (if there is room). -/
def Emits (cap : ℕ) (P : List ℤ) (r c : ℕ) (f : ℕ × Csr K → Except PyErr (ℕ × Csr K))
    (E : List (K × ℤ)) : Prop :=
  ∀ e st, Wrote cap P r c e st → e.length + E.length ≤ cap → ∃ st', f st = .ok st' ∧ Wrote cap P r c (e ++ E) st'

theorem emits_pure (cap : ℕ) (P : List ℤ) (r c : ℕ) :
    Emits (K := K) cap P r c (fun st => pure st) [] := by
  intro e st h _
  exact ⟨st, rfl, by simpa using h⟩

theorem emits_put (cap : ℕ) (P : List ℤ) (r c : ℕ) (x : K) (j : ℤ) :
    Emits cap P r c (fun st => do let m ← st.2.put st.1 x j; pure (st.1 + 1, m)) [(x, j)] := by
  rintro e ⟨cnt, m⟩ ⟨h1, ⟨jd, h2⟩, ⟨ji, h3⟩, h4, h5, h6, h7, h8⟩ hcap
  simp only at h1 h2 h3 h4 h5 h6 h7 h8
  subst h1
  simp only [List.length_cons, List.length_nil] at hcap
  have hjd : 0 < jd.length := by have := congrArg List.length h2; simp at this; omega
  have hji : 0 < ji.length := by have := congrArg List.length h3; simp at this; omega
  obtain ⟨d0, jd', rfl⟩ := List.exists_cons_of_length_pos hjd
  obtain ⟨i0, ji', rfl⟩ := List.exists_cons_of_length_pos hji
  simp only [Csr.put, setItem_natCast m.data e.length x (by omega),
    setItem_natCast m.indices e.length j (by omega), bind, Except.bind, pure, Except.pure]
  refine ⟨_, rfl, by simp, ⟨jd', ?_⟩, ⟨ji', ?_⟩, by simp [h4], by simp [h5], h6, h7, h8⟩
  · simp only [h2]
    rw [List.set_append_right _ _ (by simp)]; simp
  · simp only [h3]
    rw [List.set_append_right _ _ (by simp)]; simp

theorem emits_forM' {α : Type} {cap : ℕ} {P : List ℤ} {r c : ℕ}
    (body : ℕ × Csr K → α → Except PyErr (ℕ × Csr K)) (g : α → List (K × ℤ)) (xs : List α)
    (h : ∀ x ∈ xs, Emits cap P r c (fun st => body st x) (g x)) :
    Emits cap P r c (forM' body xs) (xs.flatMap g) := by
  induction xs with
  | nil => intro e st hst _; exact ⟨st, rfl, by simpa using hst⟩
  | cons x xs ih =>
    intro e st hst hcap
    simp only [List.flatMap_cons, List.length_append] at hcap
    obtain ⟨st1, h1, h2⟩ := h x (by simp) e st hst (by omega)
    obtain ⟨st2, h3, h4⟩ := ih (fun y hy => h y (by simp [hy])) _ st1 h2
      (by rw [List.length_append]; omega)
    refine ⟨st2, ?_, by simpa using h4⟩
    simp only [forM', h1]; exact h3

/-- State after completing some rows. -/
def RowsDone (cap R c : ℕ) (rows : List (List (K × ℤ))) (st : ℕ × Csr K) : Prop :=
  ∃ P, Wrote cap P R c rows.flatten st ∧ P.length = R + 1 ∧ P.take (rows.length + 1) = ptrs rows

theorem ptrs_length {α : Type} (rows : List (List α)) : (ptrs rows).length = rows.length + 1 := by
  simp [ptrs]

theorem ptrs_getElem {α : Type} (rows : List (List α)) (k : ℕ) (h : k < (ptrs rows).length) :
    (ptrs rows)[k] = ((rows.take k).flatten.length : ℤ) := by
  simp [ptrs]

theorem ptrs_concat {α : Type} (rows : List (List α)) (E : List α) :
    ptrs (rows ++ [E]) = ptrs rows ++ [((rows.flatten.length + E.length : ℕ) : ℤ)] := by
  apply List.ext_getElem
  · simp [ptrs_length]
  · intro k h1 h2
    rw [ptrs_getElem]
    simp only [ptrs_length, List.length_append, List.length_cons, List.length_nil] at h1
    by_cases hk : k < rows.length + 1
    · rw [List.getElem_append_left (by rw [ptrs_length]; exact hk), ptrs_getElem,
        List.take_append_of_le_length (by omega)]
    · have : k = rows.length + 1 := by omega
      subst this
      rw [List.getElem_append_right (by rw [ptrs_length])]
      rw [List.take_of_length_le (by simp)]
      simp [ptrs_length]

theorem rowsDone_empty (jk : Junk K) (nnz R c : ℕ) :
    RowsDone nnz R c [] ((0, emptyCsrmat jk nnz R c) : ℕ × Csr K) := by
  refine ⟨_, ⟨rfl, ⟨_, rfl⟩, ⟨_, rfl⟩, by simp [emptyCsrmat], by simp [emptyCsrmat], rfl, rfl, rfl⟩,
    by simp [emptyCsrmat], ?_⟩
  simp [emptyCsrmat, ptrs, List.range_succ_eq_map]

/-- Emitting one row and closing it. -/
theorem rowsDone_step {cap R c : ℕ} {rows : List (List (K × ℤ))} {st : ℕ × Csr K}
    {f : ℕ × Csr K → Except PyErr (ℕ × Csr K)} {E : List (K × ℤ)}
    (hst : RowsDone cap R c rows st) (hf : ∀ P, Emits cap P R c f E) (hR : rows.length < R)
    (hcap : rows.flatten.length + E.length ≤ cap) :
    ∃ st', (do
      let st' ← f st
      let m ← st'.2.closeRow (rows.length : ℤ) ((st'.1 : ℤ) - st.1)
      pure (st'.1, m)) = Except.ok st' ∧ RowsDone cap R c (rows ++ [E]) st' := by
  obtain ⟨P, hW, hPl, hPt⟩ := hst
  obtain ⟨st1, h1, h2⟩ := hf P _ _ hW hcap
  have hPk : P[rows.length]? = some ((rows.flatten.length : ℕ) : ℤ) := by
    have h := congrArg (fun l => l[rows.length]?) hPt
    simp only [List.getElem?_take, show rows.length < rows.length + 1 by omega, if_true] at h
    rw [h, List.getElem?_eq_getElem (by rw [ptrs_length]; omega), ptrs_getElem, List.take_length]
  obtain ⟨g1, g2, g3, g4, g5, g6, g7, g8⟩ := h2
  obtain ⟨w1, -⟩ := hW
  simp only [h1, bind, Except.bind, Csr.closeRow, pure, Except.pure, g6]
  rw [getItem_natCast _ _ (by omega)]
  simp only
  have hcast : ((rows.length : ℤ) + 1) = ((rows.length + 1 : ℕ) : ℤ) := by push_cast; rfl
  rw [hcast, setItem_natCast _ _ _ (by omega)]
  have hval : P[rows.length]'(by omega) = ((rows.flatten.length : ℕ) : ℤ) := by
    rw [List.getElem?_eq_getElem (by omega)] at hPk; exact Option.some.inj hPk
  refine ⟨_, rfl, _, ⟨?_, ?_, ?_, g4, g5, rfl, g7, g8⟩, ?_, ?_⟩
  · simp [g1]
  · simpa using g2
  · simpa using g3
  · simp [hPl]
  · rw [hval, g1, w1, ptrs_concat, ← hPt]
    apply List.ext_getElem
    · simp; omega
    · intro k hk1 hk2
      simp only [List.length_append, List.length_cons, List.length_nil, List.length_take] at hk2
      rw [List.getElem_take, List.getElem_set]
      by_cases hk : k = rows.length + 1
      · subst hk
        rw [if_pos rfl, List.getElem_append_right (by simp)]
        simp
      · rw [if_neg (fun h => hk h.symm), List.getElem_append_left (by simp; omega), List.getElem_take]

/-- A loop that produces one row per iteration. -/
theorem rowsDone_loop {α : Type} {cap R c : ℕ} (body : ℕ × Csr K → α → Except PyErr (ℕ × Csr K))
    (g : α → List (K × ℤ)) (xs : List α) (rows : List (List (K × ℤ))) (st : ℕ × Csr K)
    (hst : RowsDone cap R c rows st)
    (hbody : ∀ k (hk : k < xs.length), ∀ rows' st', rows'.length = rows.length + k →
      RowsDone cap R c rows' st' → rows'.flatten.length + (g xs[k]).length ≤ cap →
      ∃ st'', body st' xs[k] = .ok st'' ∧ RowsDone cap R c (rows' ++ [g xs[k]]) st'')
    (hcap : rows.flatten.length + (xs.flatMap g).length ≤ cap) :
    ∃ st', forM' body xs st = .ok st' ∧ RowsDone cap R c (rows ++ xs.map g) st' := by
  induction xs generalizing rows st with
  | nil => exact ⟨st, rfl, by simpa using hst⟩
  | cons x xs ih =>
    simp only [List.flatMap_cons, List.length_append] at hcap
    obtain ⟨st1, h1, h2⟩ := hbody 0 (by simp) rows st rfl hst
      (by rw [List.getElem_cons_zero]; omega)
    simp only [List.getElem_cons_zero] at h1 h2
    obtain ⟨st2, h3, h4⟩ := ih (rows ++ [g x]) st1 h2 (by
      intro k hk rows' st' hl
      exact hbody (k + 1) (by simp; omega) rows' st' (by simp at hl; omega))
      (by rw [List.flatten_append, List.length_append, List.flatten_cons, List.flatten_nil, List.append_nil]; omega)
    refine ⟨st2, ?_, by simpa using h4⟩
    simp only [forM', h1]; exact h3

/-- If the buffers are exactly full, the result is a well-formed CSR matrix. -/
theorem isCsr_of_rowsDone {cap R c : ℕ} {rows : List (List (K × ℤ))} {st : ℕ × Csr K}
    (h : RowsDone cap R c rows st) (hR : rows.length = R) (hcap : rows.flatten.length = cap) :
    IsCsr st.2 rows ∧ st.1 = cap ∧ st.2.cols = c ∧ st.2.data.length = cap ∧ st.2.indices.length = cap := by
  obtain ⟨P, ⟨h1, ⟨jd, h2⟩, ⟨ji, h3⟩, h4, h5, h6, h7, h8⟩, h9, h10⟩ := h
  have e1 : jd = [] := by
    have := congrArg List.length h2; rw [List.length_append, List.length_map] at this
    exact List.length_eq_zero_iff.mp (by omega)
  have e2 : ji = [] := by
    have := congrArg List.length h3; rw [List.length_append, List.length_map] at this
    exact List.length_eq_zero_iff.mp (by omega)
  subst e1 e2
  refine ⟨⟨by simpa using h2, by simpa using h3, ?_, by rw [h7, hR]⟩, by rw [h1, hcap], h8, h4, h5⟩
  rw [h6, ← h10, List.take_of_length_le (by omega)]

/-! ### Reading a well-formed CSR matrix -/

theorem take_flatten_succ {α : Type} (rows : List (List α)) (i : ℕ) (h : i < rows.length) :
    (rows.take (i + 1)).flatten = (rows.take i).flatten ++ rows[i] := by
  rw [List.take_succ_eq_append_getElem h, List.flatten_append]; simp

theorem flatten_getElem? {α : Type} (rows : List (List α)) (i k : ℕ) (h : i < rows.length)
    (hk : k < rows[i].length) : rows.flatten[(rows.take i).flatten.length + k]? = some rows[i][k] := by
  have e : rows.flatten = (rows.take i).flatten ++ (rows[i] ++ (rows.drop (i + 1)).flatten) := by
    conv_lhs => rw [← List.take_append_drop (i + 1) rows, List.flatten_append, take_flatten_succ _ _ h]
    simp
  rw [e, List.getElem?_append_right (by omega)]
  simp only [Nat.add_sub_cancel_left]
  rw [List.getElem?_append_left hk, List.getElem?_eq_getElem hk]

theorem isCsr_indptr {m : Csr K} {rows : List (List (K × ℤ))} (h : IsCsr m rows) (i : ℕ) (hi : i ≤ rows.length) :
    getItem m.indptr (i : ℤ) = .ok ((rows.take i).flatten.length : ℤ) ∧
    m.indptr[i]? = some ((rows.take i).flatten.length : ℤ) := by
  obtain ⟨h1, h2, h3, h4⟩ := h
  have hl : i < m.indptr.length := by rw [h3, ptrs_length]; omega
  have hv : m.indptr[i] = ((rows.take i).flatten.length : ℤ) := by simp only [h3, ptrs_getElem]
  exact ⟨by rw [getItem_natCast _ _ hl, hv], by rw [List.getElem?_eq_getElem hl, hv]⟩

theorem getItem_of_getElem? {α : Type} {l : List α} {k : ℕ} {x : α} (h : l[k]? = some x) :
    getItem l (k : ℤ) = .ok x := by
  obtain ⟨hk, hx⟩ := List.getElem?_eq_some_iff.mp h
  rw [getItem_natCast _ _ hk, hx]

theorem isCsr_read {m : Csr K} {rows : List (List (K × ℤ))} (h : IsCsr m rows) (i k : ℕ)
    (hi : i < rows.length) (hk : k < rows[i].length) :
    m.data[(rows.take i).flatten.length + k]? = some rows[i][k].1 ∧
    m.indices[(rows.take i).flatten.length + k]? = some rows[i][k].2 := by
  obtain ⟨h1, h2, h3, h4⟩ := h
  rw [h1, h2]
  simp only [List.getElem?_map, flatten_getElem? rows i k hi hk, Option.map_some, and_self]

theorem pyRange_rows {rows : List (List (K × ℤ))} (i : ℕ) (hi : i < rows.length) :
    pyRange ((rows.take i).flatten.length : ℤ) ((rows.take (i + 1)).flatten.length : ℤ) =
      (List.range rows[i].length).map fun k : ℕ => (((rows.take i).flatten.length + k : ℕ) : ℤ) := by
  unfold pyRange
  rw [take_flatten_succ _ _ hi]
  have : ((((rows.take i).flatten ++ rows[i]).length : ℤ) - ((rows.take i).flatten.length : ℤ)).toNat
      = rows[i].length := by simp [-List.length_flatten]
  rw [this]
  simp

theorem flatMap_range_getElem {α β : Type} (l : List α) (f : ℕ → List β) (g : α → List β)
    (h : ∀ k (hk : k < l.length), f k = g l[k]) : (List.range l.length).flatMap f = l.flatMap g := by
  have e : l = (List.range l.length).pmap (fun k hk => l[k]'hk) (by simp) := by
    apply List.ext_getElem <;> simp
  conv_rhs => rw [e]
  rw [List.flatMap_def, List.flatMap_def]
  congr 1
  apply List.ext_getElem
  · simp
  · intro k h1 h2
    simp at h1
    simp [h k h1]

/-- Iterating over the stored elements of row `i`. -/
theorem emits_rowLoop {T : Csr K} {rows : List (List (K × ℤ))} (hT : IsCsr T rows) {cap : ℕ} {P : List ℤ}
    {r c : ℕ} (i : ℕ) (hi : i < rows.length)
    (body : ℕ × Csr K → ℤ → Except PyErr (ℕ × Csr K)) (g : K × ℤ → List (K × ℤ))
    (h : ∀ (p : ℕ) (x : K × ℤ), x ∈ rows[i] → T.data[p]? = some x.1 → T.indices[p]? = some x.2 →
      Emits cap P r c (fun st => body st (p : ℤ)) (g x)) :
    Emits cap P r c (fun st => do
      let lo ← getItem T.indptr (i : ℤ)
      let hi ← getItem T.indptr ((i : ℤ) + 1)
      forM' body (pyRange lo hi) st) (rows[i].flatMap g) := by
  have e1 := (isCsr_indptr hT i (by omega)).1
  have e2 := (isCsr_indptr hT (i + 1) (by omega)).1
  have hc : ((i : ℤ) + 1) = ((i + 1 : ℕ) : ℤ) := by push_cast; rfl
  rw [hc]
  simp only [e1, e2, bind, Except.bind]
  rw [pyRange_rows i hi]
  have := emits_forM' (cap := cap) (P := P) (r := r) (c := c) body
    (fun p : ℤ => match T.data[p.toNat]?, T.indices[p.toNat]? with
      | some x, some j => g (x, j)
      | _, _ => [])
    ((List.range rows[i].length).map fun k : ℕ => (((rows.take i).flatten.length + k : ℕ) : ℤ)) (by
      intro p hp
      obtain ⟨k, hk, rfl⟩ := List.mem_map.mp hp
      rw [List.mem_range] at hk
      obtain ⟨r1, r2⟩ := isCsr_read hT i k hi hk
      simp only [Int.toNat_natCast, r1, r2]
      exact h _ rows[i][k] (List.getElem_mem _) r1 r2)
  rw [List.flatMap_map, flatMap_range_getElem rows[i] _ g] at this
  · exact this
  · intro k hk
    obtain ⟨r1, r2⟩ := isCsr_read hT i k hi hk
    simp only [Int.toNat_natCast, r1, r2]

theorem map_range_getElem {α β : Type} (l : List α) (f : ℕ → β) (g : α → β)
    (h : ∀ k (hk : k < l.length), f k = g l[k]) : (List.range l.length).map f = l.map g := by
  apply List.ext_getElem
  · simp
  · intro k h1 h2
    simp at h1
    simp [h k h1]

theorem dense_eq [AddCommMonoid K] {m : Csr K} {rows : List (List (K × ℤ))} (h : IsCsr m rows) (i j : ℕ)
    (hi : i < rows.length) :
    m.dense i j = (rows[i].map fun x => if x.2 = (j : ℤ) then x.1 else 0).sum := by
  unfold Csr.dense
  rw [(isCsr_indptr h i (by omega)).2, (isCsr_indptr h (i + 1) (by omega)).2]
  simp only [Option.getD_some]
  rw [pyRange_rows i hi, List.map_map]
  congr 1
  apply map_range_getElem
  intro k hk
  obtain ⟨r1, r2⟩ := isCsr_read h i k hi hk
  simp only [Function.comp, Int.toNat_natCast, r1, r2, Option.getD_some]

/-! ### `nnz_offdiag_csrmat` -/

section
variable [Field K] [LinearOrder K]

/-- Kept elements of row `i`. -/
def keptRow (n : ℕ) (A : ℕ → ℕ → K) (i : ℕ) : List (K × ℤ) :=
  ((List.range n).filter (keepElem A i)).map fun j => (A i j, (j : ℤ))

theorem keptRow_flatMap (n : ℕ) (A : ℕ → ℕ → K) (i : ℕ) :
    keptRow n A i = (List.range n).flatMap fun j => if keepElem A i j then [(A i j, (j : ℤ))] else [] := by
  unfold keptRow
  induction List.range n with
  | nil => rfl
  | cons x xs ih =>
    rw [List.filter_cons, List.flatMap_cons]
    split_ifs <;> simp [ih]

theorem countNnzOffdiag_eq (n : ℕ) (A : ℕ → ℕ → K) :
    countNnzOffdiag n A = ((List.range n).map (keptRow n A)).flatten.length := by
  have h1 : ∀ i c (l : List ℕ), l.foldl (fun count j => if keepElem A i j then count + 1 else count) c
      = c + (l.filter (keepElem A i)).length := by
    intro i c l
    induction l generalizing c with
    | nil => simp
    | cons x xs ih =>
      rw [List.foldl_cons, ih, List.filter_cons]
      split_ifs <;> simp <;> omega
  have h2 : ∀ c (l : List ℕ), l.foldl (fun count i =>
      (List.range n).foldl (fun count j => if keepElem A i j then count + 1 else count) count) c
      = c + ((l.map (keptRow n A)).flatten).length := by
    intro c l
    induction l generalizing c with
    | nil => simp
    | cons x xs ih =>
      rw [List.foldl_cons, ih, h1]
      simp only [List.map_cons, List.flatten_cons, List.length_append]
      have : (keptRow n A x).length = ((List.range n).filter (keepElem A x)).length := by simp [keptRow]
      omega
  unfold countNnzOffdiag
  rw [h2]; simp only [Nat.zero_add]

theorem nnzOffdiagCsrmat_core (jk : Junk K) (n : ℕ) (A : ℕ → ℕ → K) :
    ∃ m, nnzOffdiagCsrmat jk n A (countNnzOffdiag n A) = .ok m ∧
      IsCsr m ((List.range n).map (keptRow n A)) ∧ m.cols = n ∧
      m.data.length = countNnzOffdiag n A ∧ m.indices.length = countNnzOffdiag n A := by
  obtain ⟨st, h1, h2⟩ := rowsDone_loop (compressRow n A) (keptRow n A) (List.range n) [] _
    (rowsDone_empty jk (countNnzOffdiag n A) n n) (by
      intro k hk rows' st' hl hst hcap
      simp only [List.length_range] at hk
      simp only [List.getElem_range, List.length_nil, Nat.zero_add] at hl hcap ⊢
      have := rowsDone_step (f := forM' (compressElem A k) (List.range n)) (E := keptRow n A k) hst
        (by
          intro P
          rw [keptRow_flatMap]
          apply emits_forM'
          intro j _
          unfold compressElem
          split_ifs with hkeep
          · exact emits_put _ _ _ _ _ _
          · exact emits_pure _ _ _ _) (by omega) hcap
      rw [hl] at this
      exact this) (by
      rw [List.flatMap_def]; simp only [List.flatten_nil, List.length_nil, Nat.zero_add]
      rw [countNnzOffdiag_eq])
  simp only [List.nil_append] at h2
  obtain ⟨h3, -, h4, h5, h6⟩ := isCsr_of_rowsDone h2 (by simp) (countNnzOffdiag_eq n A).symm
  refine ⟨st.2, ?_, h3, h4, h5, h6⟩
  unfold nnzOffdiagCsrmat
  rw [h1]; rfl

end

end Edpyt
