import Verif.Proof.NProject
import Verif.Props.Project
import Verif.Props.Cotnl
/-!
C61, C76, C77: the transition elements of `edpyt/sqtnl.py` and `edpyt/cotnl.py`.
-/
namespace Edpyt
open Spec

/-! ### C76: matrix elements -/

/-- **C76**: `cotnl.project` returns the matrix elements `⟨j| op |k⟩` between the eigenstates of the two sectors, for every site,
spin, ladder operator and pair of adjacent sectors. Site `pos` with spin `s` is the mode `pos + s n`. -/
theorem C76_project {n N N' spin pos junk : ℕ} (hn : 2 * n ≤ 32) (hm : pos + spin * n < 2 * n) (op : Ladder) (hsh : op.Shift N N')
    {I J : Sct} {sI sJ : List ℕ} (hI : NSctOk n N I sI) (hJ : NSctOk n N' J sJ) :
    ∃ M, nProject junk spin pos op n I J = .ok M ∧ ∀ j k, M j k = ketN (2 * n) sJ (J.eigvecs[j]?.getD 0) ⬝ᵥ
      ((op.mat (⟨pos + spin * n, hm⟩ : Fin (2 * n))).mulVec (ketN (2 * n) sI (I.eigvecs[k]?.getD 0))) := by
  have h := nProject_loop (junk := junk) hn hm hsh hI.list hJ.list I J hJ.d
  refine ⟨_, ?_, fun j k => (ketN_dot _ _ _ _ _ _).symm⟩
  unfold nProject
  rw [hI.states, hJ.states]
  simp only [totalStates, bind, Except.bind]
  exact h

/-- **C76**, adjointness: the elements of `cdg` from `I` to `J` are those of `c` from `J` to `I`. -/
theorem C76_adjoint {n N spin pos junk : ℕ} (hn : 2 * n ≤ 32) (hm : pos + spin * n < 2 * n) {I J : Sct} {sI sJ : List ℕ}
    (hI : NSctOk n N I sI) (hJ : NSctOk n (N + 1) J sJ) :
    ∃ A B, nProject junk spin pos .cdg n I J = .ok A ∧ nProject junk spin pos .c n J I = .ok B ∧ ∀ j k, A j k = B k j := by
  obtain ⟨A, hA, hA'⟩ := C76_project (junk := junk) hn hm .cdg (N := N) (N' := N + 1) rfl hI hJ
  obtain ⟨B, hB, hB'⟩ := C76_project (junk := junk) hn hm .c (N := N + 1) (N' := N) rfl hJ hI
  refine ⟨A, B, hA, hB, fun j k => ?_⟩
  rw [hA' j k, hB' k j, Matrix.dotProduct_mulVec, ← Matrix.mulVec_transpose, mat_transpose, dotProduct_comm]

/-! ### The dictionary of sequential elements -/

/-- The amplitude `⟨j| c†_{x,s} |i⟩` between the state `i` of the sector `I` and the state `j` of the sector `J`. -/
noncomputable def Spec.amplitude (n : ℕ) (sI sJ : List ℕ) (I J : Sct) (j i s x : ℕ) : ℝ :=
  if h : x + s * n < 2 * n then ketN (2 * n) sJ (J.eigvecs[j]?.getD 0) ⬝ᵥ
    ((cre ℝ (⟨x + s * n, h⟩ : Fin (2 * n))).mulVec (ketN (2 * n) sI (I.eigvecs[i]?.getD 0))) else 0

/-- The element for adding (`el`) or removing an electron of spin `s` between the state `i` of the lower sector `I` and the state `j`
of the upper sector `J`. -/
noncomputable def Spec.element (n : ℕ) (sI sJ : List ℕ) (I J : Sct) (j i : ℕ) (el : Bool) (s : ℕ) : NGf :=
  ⟨el, s, (List.range n).map fun x => amplitude n sI sJ I J j i s x, J.eigvals[j]?.getD 0 - I.eigvals[i]?.getD 0⟩

theorem pos_lt {n spin x : ℕ} (hs : spin < 2) (hx : x < n) : x + spin * n < 2 * n := by
  interval_cases spin <;> omega

theorem nExcite_electron {junk n N spin : ℕ} (hn : 2 * n ≤ 32) (hs : spin < 2) {es : Espace ℕ} {I J : Sct} {sI sJ : List ℕ}
    (gI : nGet es N = .ok I) (gJ : nGet es (N + 1) = .ok J) (hI : NSctOk n N I sI) (hJ : NSctOk n (N + 1) J sJ) :
    nExcite junk true spin n N es = .ok ((ndindex2 J.eigvals.length I.eigvals.length).map fun ji =>
      ((((N : ℤ) + 1, ji.1), ((N : ℤ), ji.2)), element n sI sJ I J ji.1 ji.2 true spin)) := by
  have hp : ∀ x, x < n → nProject junk spin x .cdg n I J = .ok fun j i => amplitude n sI sJ I J j i spin x := by
    intro x hx
    obtain ⟨M, hM, hM'⟩ := C76_project (junk := junk) hn (pos_lt hs hx) .cdg (N := N) (N' := N + 1) rfl hI hJ
    rw [hM]
    congr 1
    funext j i
    rw [hM', amplitude, dif_pos (pos_lt hs hx)]
    rfl
  unfold nExcite
  simp only [if_true, gI, gJ, bind, Except.bind, nProjectAll_ok (fun x j i => amplitude n sI sJ I J j i spin x) hp, pure, Except.pure]
  simp only [List.map_map, element]
  rfl

theorem nExcite_hole {junk n N spin : ℕ} (hn : 2 * n ≤ 32) (hs : spin < 2) {es : Espace ℕ} {I J : Sct} {sI sJ : List ℕ}
    (gI : nGet es N = .ok I) (gJ : nGet es (N + 1) = .ok J) (hI : NSctOk n N I sI) (hJ : NSctOk n (N + 1) J sJ) :
    nExcite junk false spin n (N + 1) es = .ok ((ndindex2 I.eigvals.length J.eigvals.length).map fun ij =>
      ((((N : ℤ), ij.1), ((N : ℤ) + 1, ij.2)), element n sI sJ I J ij.2 ij.1 false spin)) := by
  have hp : ∀ x, x < n → nProject junk spin x .c n J I = .ok fun i j => amplitude n sI sJ I J j i spin x := by
    intro x hx
    obtain ⟨M, hM, hM'⟩ := C76_project (junk := junk) hn (pos_lt hs hx) .c (N := N + 1) (N' := N) rfl hJ hI
    rw [hM]
    congr 1
    funext i j
    rw [hM', amplitude, dif_pos (pos_lt hs hx), Matrix.dotProduct_mulVec, ← Matrix.mulVec_transpose, dotProduct_comm, ← mat_transpose,
      Matrix.transpose_transpose]
    rfl
  unfold nExcite
  have h1 : (N : ℤ) + 1 - 1 = N := by ring
  simp only [Bool.false_eq_true, if_false, h1, gI, gJ, bind, Except.bind, nProjectAll_ok (fun x i j => amplitude n sI sJ I J j i spin x) hp, pure,
    Except.pure]
  simp only [List.map_map, element]
  congr 1
  refine List.map_congr_left fun ij _ => ?_
  simp only [Prod.mk.injEq, NGf.mk.injEq, true_and]
  exact ⟨rfl, by ring⟩

/-- The list stored at a key, empty if there is none. -/
def listAt {α : Type} (sd : List ((NId × NId) × List α)) (q : NId × NId) : List α := match dictGet sd q with | .ok l => l | .error _ => []

theorem listAt_appendN {α : Type} (sd : List ((NId × NId) × List α)) (p : (NId × NId) × α) (q : NId × NId) :
    listAt (appendN sd p) q = listAt sd q ++ if p.1 = q then [p.2] else [] := by
  unfold listAt appendN
  rw [dictGet_dictSet]
  by_cases h : p.1 = q
  · simp only [h, if_true]
    rfl
  · simp [h]

theorem listAt_foldl {α : Type} (l : List ((NId × NId) × α)) : ∀ (sd : List ((NId × NId) × List α)) (q : NId × NId),
    listAt (l.foldl appendN sd) q = listAt sd q ++ (l.filter fun p => decide (p.1 = q)).map Prod.snd := by
  induction l with
  | nil => simp
  | cons p l ih =>
    intro sd q
    rw [List.foldl_cons, ih, listAt_appendN, List.filter_cons]
    by_cases h : p.1 = q <;> simp [h]

/-- Looking up one key in a list of entries made from pairs of indices. -/
theorem filter_ndindex2 {β : Type} (a b : ℕ) (K : ℕ × ℕ → NId × NId) (hK : Function.Injective K) (F : ℕ × ℕ → β) {ji : ℕ × ℕ} (h : ji ∈ ndindex2 a b) :
    (((ndindex2 a b).map fun x => (K x, F x)).filter fun p => decide (p.1 = K ji)).map Prod.snd = [F ji] := by
  rw [List.filter_map, List.map_map]
  have : (ndindex2 a b).filter ((fun p : (NId × NId) × β => decide (p.1 = K ji)) ∘ fun x => (K x, F x)) = (ndindex2 a b).filter fun x => decide (x = ji) := by
    refine List.filter_congr fun x _ => ?_
    simp only [Function.comp]
    exact decide_eq_decide.mpr hK.eq_iff
  rw [this]
  have h3 : (ndindex2 a b).filter (fun x => decide (x = ji)) = [ji] := by
    have h2 := List.filter_beq (l := ndindex2 a b) ji
    rw [List.count_eq_one_of_mem (nodup_ndindex2 a b) h] at h2
    rw [List.replicate_one] at h2
    rw [← h2]
    exact List.filter_congr fun x _ => (beq_eq_decide x ji).symm
  rw [h3]
  rfl

theorem filter_none {β : Type} (l : List (ℕ × ℕ)) (K : ℕ × ℕ → NId × NId) (F : ℕ × ℕ → β) (q : NId × NId) (h : ∀ x, K x ≠ q) :
    ((l.map fun x => (K x, F x)).filter fun p => decide (p.1 = q)).map Prod.snd = [] := by
  rw [List.map_eq_nil_iff, List.filter_eq_nil_iff]
  intro p hp
  obtain ⟨x, -, rfl⟩ := List.mem_map.mp hp
  simpa using h x

/-- Both directions of the transitions between the sectors `N` and `N + 1`, in the order of the code (`el` first or `hole` first). -/
noncomputable def Spec.pairList (n : ℕ) (sI sJ : List ℕ) (I J : Sct) (N : ℤ) (s : ℕ) : List ((NId × NId) × NGf) :=
  ((ndindex2 J.eigvals.length I.eigvals.length).map fun ji => (((N + 1, ji.1), (N, ji.2)), element n sI sJ I J ji.1 ji.2 true s)) ++
  ((ndindex2 I.eigvals.length J.eigvals.length).map fun ij => (((N, ij.1), (N + 1, ij.2)), element n sI sJ I J ij.2 ij.1 false s))

/-- `pairList` with the other order. -/
noncomputable def Spec.pairList' (n : ℕ) (sI sJ : List ℕ) (I J : Sct) (N : ℤ) (s : ℕ) : List ((NId × NId) × NGf) :=
  ((ndindex2 I.eigvals.length J.eigvals.length).map fun ij => (((N, ij.1), (N + 1, ij.2)), element n sI sJ I J ij.2 ij.1 false s)) ++
  ((ndindex2 J.eigvals.length I.eigvals.length).map fun ji => (((N + 1, ji.1), (N, ji.2)), element n sI sJ I J ji.1 ji.2 true s))

section
variable (n : ℕ) (sI sJ : List ℕ) (I J : Sct) (N : ℤ) (s : ℕ)

theorem pairList_up {j i : ℕ} (hj : j < J.eigvals.length) (hi : i < I.eigvals.length) :
    ((pairList n sI sJ I J N s).filter fun p => decide (p.1 = ((N + 1, j), (N, i)))).map Prod.snd = [element n sI sJ I J j i true s] := by
  unfold pairList
  rw [List.filter_append, List.map_append,
    filter_ndindex2 _ _ (fun ji => ((N + 1, ji.1), (N, ji.2))) (fun x y h => by simpa [Prod.ext_iff] using h) _ (ji := (j, i)) (mem_ndindex2.mpr ⟨hj, hi⟩),
    filter_none _ (fun ij => ((N, ij.1), (N + 1, ij.2))) _ _ (fun x h => by simp at h)]
  rfl

theorem pairList_down {j i : ℕ} (hj : j < J.eigvals.length) (hi : i < I.eigvals.length) :
    ((pairList n sI sJ I J N s).filter fun p => decide (p.1 = ((N, i), (N + 1, j)))).map Prod.snd = [element n sI sJ I J j i false s] := by
  unfold pairList
  rw [List.filter_append, List.map_append,
    filter_ndindex2 _ _ (fun ij => ((N, ij.1), (N + 1, ij.2))) (fun x y h => by simpa [Prod.ext_iff] using h) _ (ji := (i, j)) (mem_ndindex2.mpr ⟨hi, hj⟩),
    filter_none _ (fun ji => ((N + 1, ji.1), (N, ji.2))) _ _ (fun x h => by simp at h)]
  rfl

theorem pairList_other {q : NId × NId} (h1 : ¬ (q.1.1 = N + 1 ∧ q.2.1 = N)) (h2 : ¬ (q.1.1 = N ∧ q.2.1 = N + 1)) :
    ((pairList n sI sJ I J N s).filter fun p => decide (p.1 = q)).map Prod.snd = [] := by
  unfold pairList
  rw [List.filter_append, List.map_append, filter_none _ (fun ji => ((N + 1, ji.1), (N, ji.2))) _ _ (fun x h => h1 (by simp [← h])),
    filter_none _ (fun ij => ((N, ij.1), (N + 1, ij.2))) _ _ (fun x h => h2 (by simp [← h]))]
  rfl

theorem pairList'_filter (q : NId × NId) (h : ¬ (N + 1 = N)) :
    ((pairList' n sI sJ I J N s).filter fun p => decide (p.1 = q)).map Prod.snd = ((pairList n sI sJ I J N s).filter fun p => decide (p.1 = q)).map Prod.snd := by
  unfold pairList' pairList
  rw [List.filter_append, List.map_append, List.filter_append, List.map_append]
  by_cases hq : q.1.1 = N
  · rw [filter_none _ (fun ji => ((N + 1, ji.1), (N, ji.2))) _ q (fun x h' => h (by have := congrArg (fun z => z.1.1) h'; simp only at this; omega)), List.append_nil, List.nil_append]
  · rw [filter_none _ (fun ij => ((N, ij.1), (N + 1, ij.2))) _ q (fun x h' => hq (by rw [← h'])), List.append_nil, List.nil_append]
end

theorem dictGet_perm {α β : Type} [DecidableEq α] {l l' : List (α × β)} (hp : l.Perm l') (hn : (l.map Prod.fst).Nodup) (q : α) : dictGet l q = dictGet l' q := by
  have hn' : (l'.map Prod.fst).Nodup := (hp.map _).nodup_iff.mp hn
  by_cases hq : q ∈ l.map Prod.fst
  · obtain ⟨x, hx⟩ := dictGet_of_key hq
    obtain ⟨y, hy⟩ := dictGet_of_key ((hp.map Prod.fst).mem_iff.mp hq)
    have h1 := hp.mem_iff.mp (dictGet_mem_of_ok hx)
    have h2 := dictGet_mem_of_ok hy
    rw [hx, hy]
    have := List.inj_on_of_nodup_map hn' h1 h2 rfl
    exact congrArg Except.ok (Prod.ext_iff.mp this).2
  · have hq' : q ∉ l'.map Prod.fst := fun h => hq ((hp.map Prod.fst).mem_iff.mpr h)
    have key : ∀ m : List (α × β), q ∉ m.map Prod.fst → dictGet m q = .error .keyError := by
      intro m hm
      unfold dictGet
      have : m.find? (fun p => decide (p.1 = q)) = none := by
        rw [List.find?_eq_none]
        intro p hp
        simp only [decide_eq_true_eq]
        rintro rfl
        exact hm (List.mem_map.mpr ⟨p, hp, rfl⟩)
      rw [this]
    rw [key l hq, key l' hq']

theorem nodup_appendN {α : Type} (sd : List ((NId × NId) × List α)) (h : (sd.map Prod.fst).Nodup) (p : (NId × NId) × α) : ((appendN sd p).map Prod.fst).Nodup :=
  nodup_dictSet h _ _

theorem nodup_foldl_appendN {α : Type} (l : List ((NId × NId) × α)) : ∀ (sd : List ((NId × NId) × List α)), (sd.map Prod.fst).Nodup →
    ((l.foldl appendN sd).map Prod.fst).Nodup := by
  induction l with
  | nil => intro sd h; exact h
  | cons p l ih => intro sd h; rw [List.foldl_cons]; exact ih _ (nodup_appendN sd h p)

/-- The sorted dictionary of a list of elements. -/
theorem sorted_get {α : Type} (l : List ((NId × NId) × α)) {q : NId × NId} {v : List α} (hv : v ≠ [])
    (h : (l.filter fun p => decide (p.1 = q)).map Prod.snd = v) :
    dictGet ((l.foldl appendN []).mergeSort fun a b => leNN a.1 b.1) q = .ok v := by
  have hn : ((l.foldl appendN []).map Prod.fst).Nodup := nodup_foldl_appendN l [] (by simp)
  rw [dictGet_perm (List.mergeSort_perm _ _) ((((List.mergeSort_perm _ _).map Prod.fst).nodup_iff).mpr hn)]
  have hl := listAt_foldl l [] q
  rw [h] at hl
  have h0 : listAt ([] : List ((NId × NId) × List α)) q = [] := by unfold listAt; rw [dictGet_nil]
  rw [h0, List.nil_append] at hl
  unfold listAt at hl
  split at hl
  · rename_i x hx; rw [hx, hl]
  · exact absurd hl.symm hv

theorem mem_sorted_keys {α : Type} (l : List ((NId × NId) × α)) (q : NId × NId) :
    q ∈ ((l.foldl appendN []).mergeSort fun a b => leNN a.1 b.1).map Prod.fst ↔ q ∈ l.map Prod.fst := by
  rw [((List.mergeSort_perm (l.foldl appendN []) fun a b => leNN a.1 b.1).map Prod.fst).mem_iff, keys_foldl_appendN]
  simp

/-- A spectrum with all sectors of the Fock space of `n` sites. -/
def NEspaceOk (n : ℕ) (es : Espace ℕ) : Prop := ∀ N, N ≤ 2 * n → ∃ s st, dictGet es N = .ok s ∧ NSctOk n N s st

/-- All elements in the order in which the code visits them. -/
noncomputable def Spec.allPairs (n : ℕ) (sK sI sJ : List ℕ) (K I J : Sct) (N : ℕ) : List ((NId × NId) × NGf) :=
  (List.range 2).flatMap fun s => (if (N : ℤ) + 1 < 2 * n then pairList n sI sJ I J N s else []) ++
    if (N : ℤ) - 1 > 0 then pairList' n sK sI K I (N - 1 : ℤ) s else []

theorem nGet_nat {es : Espace ℕ} {N : ℕ} {s : Sct} (h : dictGet es N = .ok s) : nGet es (N : ℤ) = .ok s := by
  unfold nGet; rw [if_pos (by omega)]; simpa using h

theorem sqtnlBuild_eq {junk n N : ℕ} (hn : 2 * n ≤ 32) {es : Espace ℕ} {K I J : Sct} {sK sI sJ : List ℕ}
    (hI : dictGet es N = .ok I ∧ NSctOk n N I sI) (hJ : (N : ℤ) + 1 < 2 * n → dictGet es (N + 1) = .ok J ∧ NSctOk n (N + 1) J sJ)
    (hK : (N : ℤ) - 1 > 0 → dictGet es (N - 1) = .ok K ∧ NSctOk n (N - 1) K sK) (egs : Option ℝ) :
    sqtnlBuild junk n es (some (N : ℤ)) egs = .ok (((allPairs n sK sI sJ K I J N).foldl appendN []).mergeSort fun a b => leNN a.1 b.1) := by
  have step : ∀ sd s, s ∈ List.range 2 → sqtnlSpin junk n es N sd s = .ok (((if (N : ℤ) + 1 < 2 * n then pairList n sI sJ I J N s else []) ++
    if (N : ℤ) - 1 > 0 then pairList' n sK sI K I (N - 1 : ℤ) s else []).foldl appendN sd) := by
    intro sd s hs
    rw [List.mem_range] at hs
    unfold sqtnlSpin
    have hdn : (N : ℤ) - 1 > 0 → nExcite junk false s n N es = .ok ((ndindex2 K.eigvals.length I.eigvals.length).map fun ij =>
          ((((N - 1 : ℤ), ij.1), ((N : ℤ) - 1 + 1, ij.2)), element n sK sI K I ij.2 ij.1 false s)) ∧
        nExcite junk true s n (N - 1 : ℤ) es = .ok ((ndindex2 I.eigvals.length K.eigvals.length).map fun ji =>
          ((((N : ℤ) - 1 + 1, ji.1), ((N - 1 : ℤ), ji.2)), element n sK sI K I ji.1 ji.2 true s)) := by
      intro h
      obtain ⟨gK, oK⟩ := hK h
      obtain ⟨M, rfl⟩ : ∃ M, N = M + 1 := ⟨N - 1, by omega⟩
      simp only [Nat.add_sub_cancel] at gK oK
      have e1 : ((M + 1 : ℕ) : ℤ) - 1 = (M : ℤ) := by push_cast; ring
      have gI : nGet es ((M : ℤ) + 1) = .ok I := by have := nGet_nat hI.1; push_cast at this; exact this
      have h1 := nExcite_hole (junk := junk) hn hs (nGet_nat gK) gI oK hI.2
      have h2 := nExcite_electron (junk := junk) hn hs (nGet_nat gK) gI oK hI.2
      rw [e1]
      have e2 : ((M + 1 : ℕ) : ℤ) = (M : ℤ) + 1 := by push_cast; ring
      rw [e2]
      exact ⟨h1, h2⟩
    have hup : (N : ℤ) + 1 < 2 * n → nExcite junk true s n N es = .ok ((ndindex2 J.eigvals.length I.eigvals.length).map fun ji =>
          ((((N : ℤ) + 1, ji.1), ((N : ℤ), ji.2)), element n sI sJ I J ji.1 ji.2 true s)) ∧
        nExcite junk false s n (N + 1) es = .ok ((ndindex2 I.eigvals.length J.eigvals.length).map fun ij =>
          ((((N : ℤ), ij.1), ((N : ℤ) + 1, ij.2)), element n sI sJ I J ij.2 ij.1 false s)) := by
      intro h
      obtain ⟨gJ, oJ⟩ := hJ h
      have gJ' : nGet es ((N : ℤ) + 1) = .ok J := by have := nGet_nat gJ; push_cast at this; exact this
      exact ⟨nExcite_electron hn hs (nGet_nat hI.1) gJ' hI.2 oJ, nExcite_hole hn hs (nGet_nat hI.1) gJ' hI.2 oJ⟩
    by_cases c1 : (N : ℤ) + 1 < 2 * n
    · obtain ⟨h1, h2⟩ := hup c1
      by_cases c2 : (N : ℤ) - 1 > 0
      · obtain ⟨h3, h4⟩ := hdn c2
        simp only [c1, c2, if_true, h1, h2, h3, h4, bind, Except.bind, pure, Except.pure, List.foldl_append, pairList, pairList']
      · simp only [c1, c2, if_true, if_false, h1, h2, bind, Except.bind, pure, Except.pure, List.append_nil, pairList]
    · by_cases c2 : (N : ℤ) - 1 > 0
      · obtain ⟨h3, h4⟩ := hdn c2
        simp only [c1, c2, if_true, if_false, h3, h4, bind, Except.bind, pure, Except.pure, List.nil_append, pairList']
      · simp only [c1, c2, if_false, bind, Except.bind, pure, Except.pure, List.append_nil, List.foldl_nil]
  unfold sqtnlBuild
  simp only [bind, Except.bind, pure, Except.pure]
  rw [forM'_ok _ _ _ _ step]
  simp only
  congr 2
  unfold allPairs
  rw [List.flatMap_def, List.foldl_flatten, List.foldl_map]

theorem allPairs_filter (n : ℕ) (sK sI sJ : List ℕ) (K I J : Sct) (N : ℕ) (q : NId × NId) :
    ((allPairs n sK sI sJ K I J N).filter fun p => decide (p.1 = q)).map Prod.snd = (List.range 2).flatMap fun s =>
      (((if (N : ℤ) + 1 < 2 * n then pairList n sI sJ I J N s else []).filter fun p => decide (p.1 = q)).map Prod.snd) ++
      (((if (N : ℤ) - 1 > 0 then pairList' n sK sI K I (N - 1 : ℤ) s else []).filter fun p => decide (p.1 = q)).map Prod.snd) := by
  unfold allPairs
  rw [List.filter_flatMap, List.map_flatMap]
  simp only [List.filter_append, List.map_append]

/-- **C77**: the two lists that `sqtnl.build_transition_elements` stores for a pair of states of the sectors `N` and `N + 1` hold, for
each spin, the exact amplitudes `⟨j|c†|i⟩` of all sites and the energy difference, the same for adding and for removing the electron. -/
theorem C77_elements_up {junk n N : ℕ} (hn : 2 * n ≤ 32) {es : Espace ℕ} (hes : NEspaceOk n es) (hN : N + 1 < 2 * n) (egs : Option ℝ)
    {I J : Sct} {sI sJ : List ℕ} (gI : dictGet es N = .ok I) (gJ : dictGet es (N + 1) = .ok J) (hI : NSctOk n N I sI) (hJ : NSctOk n (N + 1) J sJ) :
    ∃ sd, sqtnlBuild junk n es (some (N : ℤ)) egs = .ok sd ∧ ∀ j i, j < J.eigvals.length → i < I.eigvals.length →
      dictGet sd (((N : ℤ) + 1, j), ((N : ℤ), i)) = .ok [element n sI sJ I J j i true 0, element n sI sJ I J j i true 1] ∧
      dictGet sd (((N : ℤ), i), ((N : ℤ) + 1, j)) = .ok [element n sI sJ I J j i false 0, element n sI sJ I J j i false 1] := by
  obtain ⟨K, sK, gK, hK⟩ := hes (N - 1) (by omega)
  have hc : (N : ℤ) + 1 < 2 * n := by omega
  refine ⟨_, sqtnlBuild_eq hn ⟨gI, hI⟩ (fun _ => ⟨gJ, hJ⟩) (fun _ => ⟨gK, hK⟩) egs, fun j i hj hi => ⟨?_, ?_⟩⟩
  · refine sorted_get _ (by simp) ?_
    rw [allPairs_filter]
    simp only [hc, if_true, pairList_up n sI sJ I J N _ hj hi]
    have : ∀ s, (((if (N : ℤ) - 1 > 0 then pairList' n sK sI K I (N - 1 : ℤ) s else []).filter
        fun p => decide (p.1 = (((N : ℤ) + 1, j), ((N : ℤ), i)))).map Prod.snd) = [] := by
      intro s
      split
      · rw [pairList'_filter _ _ _ _ _ _ _ _ (by omega), pairList_other _ _ _ _ _ _ _ (fun h => by simp only at h; omega) (fun h => by simp only at h; omega)]
      · rfl
    simp only [this]
    rfl
  · refine sorted_get _ (by simp) ?_
    rw [allPairs_filter]
    simp only [hc, if_true, pairList_down n sI sJ I J N _ hj hi]
    have : ∀ s, (((if (N : ℤ) - 1 > 0 then pairList' n sK sI K I (N - 1 : ℤ) s else []).filter
        fun p => decide (p.1 = (((N : ℤ), i), ((N : ℤ) + 1, j)))).map Prod.snd) = [] := by
      intro s
      split
      · rw [pairList'_filter _ _ _ _ _ _ _ _ (by omega), pairList_other _ _ _ _ _ _ _ (fun h => by simp only at h; omega) (fun h => by simp only at h; omega)]
      · rfl
    simp only [this]
    rfl

/-- **C77** for the sectors `M` and `M + 1` when the elements are built for the upper one. -/
theorem C77_elements_down {junk n M : ℕ} (hn : 2 * n ≤ 32) {es : Espace ℕ} (hes : NEspaceOk n es) (hM : 0 < M) (hM' : M + 1 ≤ 2 * n) (egs : Option ℝ)
    {K I : Sct} {sK sI : List ℕ} (gK : dictGet es M = .ok K) (gI : dictGet es (M + 1) = .ok I) (hK : NSctOk n M K sK) (hI : NSctOk n (M + 1) I sI) :
    ∃ sd, sqtnlBuild junk n es (some ((M : ℤ) + 1)) egs = .ok sd ∧ ∀ j i, j < I.eigvals.length → i < K.eigvals.length →
      dictGet sd (((M : ℤ) + 1, j), ((M : ℤ), i)) = .ok [element n sK sI K I j i true 0, element n sK sI K I j i true 1] ∧
      dictGet sd (((M : ℤ), i), ((M : ℤ) + 1, j)) = .ok [element n sK sI K I j i false 0, element n sK sI K I j i false 1] := by
  have hJ : ∃ J sJ, (((M + 1 : ℕ) : ℤ) + 1 < 2 * n → dictGet es (M + 1 + 1) = .ok J ∧ NSctOk n (M + 1 + 1) J sJ) := by
    by_cases h : ((M + 1 : ℕ) : ℤ) + 1 < 2 * n
    · obtain ⟨J, sJ, gJ, hJ⟩ := hes (M + 1 + 1) (by omega)
      exact ⟨J, sJ, fun _ => ⟨gJ, hJ⟩⟩
    · exact ⟨K, [], fun h' => absurd h' h⟩
  obtain ⟨J, sJ, hJ⟩ := hJ
  have e2 : ((M + 1 : ℕ) : ℤ) = (M : ℤ) + 1 := by push_cast; ring
  have hc : (M : ℤ) > 0 := by omega
  have e1 : ((M + 1 : ℕ) : ℤ) - 1 = (M : ℤ) := by push_cast; ring
  have hb := sqtnlBuild_eq (junk := junk) hn ⟨gI, hI⟩ hJ (fun _ => (⟨gK, hK⟩ : dictGet es (M + 1 - 1) = .ok K ∧ NSctOk n (M + 1 - 1) K sK)) egs
  have hb' := hb
  rw [e2] at hb'
  refine ⟨_, hb', fun j i hj hi => ⟨?_, ?_⟩⟩
  · refine sorted_get _ (by simp) ?_
    rw [allPairs_filter]
    simp only [e1, hc, if_true, pairList'_filter _ _ _ _ _ _ _ _ (show ¬ ((M : ℤ) + 1 = M) by omega), pairList_up n sK sI K I M _ hj hi]
    have : ∀ s, (((if ((M + 1 : ℕ) : ℤ) + 1 < 2 * n then pairList n sI sJ I J ((M + 1 : ℕ) : ℤ) s else []).filter
        fun p => decide (p.1 = (((M : ℤ) + 1, j), ((M : ℤ), i)))).map Prod.snd) = [] := by
      intro s
      split
      · exact pairList_other _ _ _ _ _ _ _ (fun h => by simp only at h; omega) (fun h => by simp only at h; omega)
      · rfl
    simp only [this]
    rfl
  · refine sorted_get _ (by simp) ?_
    rw [allPairs_filter]
    simp only [e1, hc, if_true, pairList'_filter _ _ _ _ _ _ _ _ (show ¬ ((M : ℤ) + 1 = M) by omega), pairList_down n sK sI K I M _ hj hi]
    have : ∀ s, (((if ((M + 1 : ℕ) : ℤ) + 1 < 2 * n then pairList n sI sJ I J ((M + 1 : ℕ) : ℤ) s else []).filter
        fun p => decide (p.1 = (((M : ℤ), i), ((M : ℤ) + 1, j)))).map Prod.snd) = [] := by
      intro s
      split
      · exact pairList_other _ _ _ _ _ _ _ (fun h => by simp only at h; omega) (fun h => by simp only at h; omega)
      · rfl
    simp only [this]
    rfl

/-! ### C61 -/

/-- The dictionary holds transitions between the sectors `N` and `N'` in both directions. -/
def Spec.Connects {α : Type} (sd : List ((NId × NId) × α)) (N N' : ℤ) : Prop :=
  ∃ i j, ((N', j), (N, i)) ∈ sd.map Prod.fst ∧ ((N, i), (N', j)) ∈ sd.map Prod.fst

/-- C61, part that holds: between the sectors `2` and `2n - 2` the elements built for `N` connect it with `N + 1` and `N - 1`. Missing:
the sectors next to the empty and the full one (`C61_refuted_top`, `C61_refuted_bottom`). -/
theorem C61_partial {junk n N : ℕ} (hn : 2 * n ≤ 32) {es : Espace ℕ} (hes : NEspaceOk n es) (hne : ∀ M s, dictGet es M = .ok s → s.eigvals ≠ [])
    (h1 : 1 < N) (h2 : N + 1 < 2 * n) (egs : Option ℝ) :
    ∃ sd, sqtnlBuild junk n es (some (N : ℤ)) egs = .ok sd ∧ Connects sd N (N + 1) ∧ Connects sd N (N - 1) := by
  obtain ⟨I, sI, gI, hI⟩ := hes N (by omega)
  obtain ⟨J, sJ, gJ, hJ⟩ := hes (N + 1) (by omega)
  obtain ⟨M, rfl⟩ : ∃ M, N = M + 1 := ⟨N - 1, by omega⟩
  obtain ⟨K, sK, gK, hK⟩ := hes M (by omega)
  obtain ⟨sd, hsd, h3⟩ := C77_elements_up (junk := junk) hn hes h2 egs gI gJ hI hJ
  obtain ⟨sd', hsd', h4⟩ := C77_elements_down (junk := junk) hn hes (by omega : 0 < M) (by omega) egs gK gI hK hI
  have e2 : ((M + 1 : ℕ) : ℤ) = (M : ℤ) + 1 := by push_cast; ring
  rw [← e2, hsd, Except.ok.injEq] at hsd'
  subst hsd'
  have mk : ∀ {q : NId × NId} {l : List NGf}, dictGet sd q = .ok l → q ∈ sd.map Prod.fst := fun h => List.mem_map.mpr ⟨_, dictGet_mem_of_ok h, rfl⟩
  have pI := List.length_pos_iff.mpr (hne _ _ gI)
  have pJ := List.length_pos_iff.mpr (hne _ _ gJ)
  have pK := List.length_pos_iff.mpr (hne _ _ gK)
  refine ⟨sd, hsd, ⟨0, 0, mk (h3 0 0 pJ pI).1, mk (h3 0 0 pJ pI).2⟩, ⟨0, 0, ?_, ?_⟩⟩
  · have := mk (h4 0 0 pI pK).2
    rw [← e2] at this
    rw [show ((M + 1 : ℕ) : ℤ) - 1 = (M : ℤ) by push_cast; ring]
    exact this
  · have := mk (h4 0 0 pI pK).1
    rw [← e2] at this
    rw [show ((M + 1 : ℕ) : ℤ) - 1 = (M : ℤ) by push_cast; ring]
    exact this

theorem pairs_sector {n N : ℕ} {sK sI sJ : List ℕ} {K I J : Sct} {q : NId × NId} (h : q ∈ (allPairs n sK sI sJ K I J N).map Prod.fst) :
    ((N : ℤ) + 1 < 2 * n ∧ ((q.1.1 = N + 1 ∧ q.2.1 = N) ∨ (q.1.1 = N ∧ q.2.1 = N + 1))) ∨
    ((N : ℤ) - 1 > 0 ∧ ((q.1.1 = N ∧ q.2.1 = N - 1) ∨ (q.1.1 = N - 1 ∧ q.2.1 = N))) := by
  obtain ⟨p, hp, rfl⟩ := List.mem_map.mp h
  unfold allPairs at hp
  obtain ⟨s, -, hp⟩ := List.mem_flatMap.mp hp
  rcases List.mem_append.mp hp with hp | hp
  · split at hp
    · rename_i hc
      left
      refine ⟨hc, ?_⟩
      rcases List.mem_append.mp hp with hp | hp <;> obtain ⟨x, -, rfl⟩ := List.mem_map.mp hp
      · left; exact ⟨rfl, rfl⟩
      · right; exact ⟨rfl, rfl⟩
    · simp at hp
  · split at hp
    · rename_i hc
      right
      refine ⟨hc, ?_⟩
      rcases List.mem_append.mp hp with hp | hp <;> obtain ⟨x, -, rfl⟩ := List.mem_map.mp hp
      · right; exact ⟨rfl, by simp⟩
      · left; exact ⟨by simp, rfl⟩
    · simp at hp

/-- C61 is false of the code: the elements built for `2n - 1` electrons never contain the full sector, for every number of sites. -/
theorem C61_refuted_top {junk n : ℕ} (h0 : 0 < n) (hn : 2 * n ≤ 32) {es : Espace ℕ} (hes : NEspaceOk n es) (egs : Option ℝ) :
    ∃ sd, sqtnlBuild junk n es (some ((2 * n - 1 : ℕ) : ℤ)) egs = .ok sd ∧ ¬ Connects sd ((2 * n - 1 : ℕ) : ℤ) (2 * n : ℤ) := by
  obtain ⟨I, sI, gI, hI⟩ := hes (2 * n - 1) (by omega)
  obtain ⟨J, sJ, gJ, hJ⟩ := hes (2 * n - 1 + 1) (by omega)
  obtain ⟨K, sK, gK, hK⟩ := hes (2 * n - 1 - 1) (by omega)
  refine ⟨_, sqtnlBuild_eq hn ⟨gI, hI⟩ (fun _ => ⟨gJ, hJ⟩) (fun _ => ⟨gK, hK⟩) egs, ?_⟩
  rintro ⟨i, j, h, -⟩
  rw [mem_sorted_keys] at h
  have := pairs_sector h
  simp only at this
  omega

/-- C61 is false of the code: the elements built for one electron never contain the empty sector, for every number of sites. -/
theorem C61_refuted_bottom {junk n : ℕ} (h0 : 0 < n) (hn : 2 * n ≤ 32) {es : Espace ℕ} (hes : NEspaceOk n es) (egs : Option ℝ) :
    ∃ sd, sqtnlBuild junk n es (some ((1 : ℕ) : ℤ)) egs = .ok sd ∧ ¬ Connects sd 1 0 := by
  obtain ⟨I, sI, gI, hI⟩ := hes 1 (by omega)
  obtain ⟨J, sJ, gJ, hJ⟩ := hes (1 + 1) (by omega)
  obtain ⟨K, sK, gK, hK⟩ := hes (1 - 1) (by omega)
  refine ⟨_, sqtnlBuild_eq hn ⟨gI, hI⟩ (fun _ => ⟨gJ, hJ⟩) (fun _ => ⟨gK, hK⟩) egs, ?_⟩
  rintro ⟨i, j, h, -⟩
  rw [mem_sorted_keys] at h
  have := pairs_sector h
  simp only at this
  omega

/-- C61 is false of the code: for one site with one electron both modules return no element at all, for every spectrum. -/
theorem C61_refuted_single_site (junk : ℕ) (es : Espace ℕ) (egs : Option ℝ) :
    sqtnlBuild junk 1 es (some 1) egs = .ok [] ∧ cotnlBuild junk 1 es (some 1) egs none = .ok [] := by
  constructor
  · simp [sqtnlBuild, sqtnlSpin, forM', List.range_succ, bind, Except.bind, pure, Except.pure]
  · simp [cotnlBuild, cotnlSpin, forM', ndindex2, List.range_succ, bind, Except.bind, pure, Except.pure]

/-! ### C78: detailed balance -/

theorem sqtnlGamma_two (g0 g1 : NGf) (beta : ℝ) (mu : List ℝ) (A : List (List ℝ)) (lead : ℕ) {γ : ℝ} (h : sqtnlGamma [g0, g1] beta mu A lead = .ok γ) :
    ∃ a m x y, getItem A lead = .ok a ∧ getItem mu lead = .ok m ∧ g0.call a beta m = .ok x ∧ g1.call a beta m = .ok y ∧ γ = x + y := by
  unfold sqtnlGamma at h
  simp only [forM'] at h
  cases h1 : getItem A lead with
  | error e => simp [h1, bind, Except.bind] at h
  | ok a =>
    cases h2 : getItem mu lead with
    | error e => simp [h1, h2, bind, Except.bind] at h
    | ok m =>
      cases h3 : g0.call a beta m with
      | error e => simp [h1, h2, h3, bind, Except.bind] at h
      | ok x =>
        cases h4 : g1.call a beta m with
        | error e => simp [h1, h2, h3, h4, bind, Except.bind, pure, Except.pure] at h
        | ok y =>
          simp only [h1, h2, h3, h4, bind, Except.bind, pure, Except.pure, Except.ok.injEq] at h
          exact ⟨a, m, x, y, rfl, rfl, h3, h4, by rw [← h]; ring⟩

theorem nFcut_balance {x : ℝ} (h : |x| ≤ 100) : nFcut x = nFcut (-x) * Real.exp (-x) := by
  rw [abs_le] at h
  unfold nFcut
  rw [if_neg (by linarith), if_neg (by linarith)]
  have h2 : Real.exp x * Real.exp (-x) = 1 := by rw [← Real.exp_add]; simp
  have := Real.exp_pos x
  have := Real.exp_pos (-x)
  rw [div_mul_eq_mul_div, div_eq_div_iff (by positivity) (by positivity)]
  linear_combination -h2

theorem call_balance {el : NGf} (he : el.el = true) {a : List ℝ} {beta m x y : ℝ} (hx : el.call a beta m = .ok x)
    (hy : ({ el with el := false } : NGf).call a beta m = .ok y) (hb : |beta * (el.E - m)| ≤ 100) : x = y * Real.exp (-(beta * (el.E - m))) := by
  unfold NGf.call at hx hy
  simp only at hy
  cases h : dotArr el.v a with
  | error e => simp [h, bind, Except.bind] at hx
  | ok z =>
    simp only [h, he, if_true, bind, Except.bind, pure, Except.pure, Except.ok.injEq] at hx
    simp only [h, Bool.false_eq_true, if_false, bind, Except.bind, pure, Except.pure, Except.ok.injEq] at hy
    rw [← hx, ← hy, nFcut_balance hb, neg_mul]
    ring

/-- C78, part that holds: for every spectrum, coupling, temperature and chemical potential, the rates at which a lead adds and removes
the electron between two states obey detailed balance as long as the energy lies within a hundred temperatures of the chemical
potential. Missing: beyond that the rate for adding is cut to zero (`C78_refuted`). -/
theorem C78_partial {junk n N : ℕ} (hn : 2 * n ≤ 32) {es : Espace ℕ} (hes : NEspaceOk n es) (hN : N + 1 < 2 * n) {egs : Option ℝ} {I J : Sct}
    (gI : dictGet es N = .ok I) (gJ : dictGet es (N + 1) = .ok J) {sd : List ((NId × NId) × List NGf)}
    (hsd : sqtnlBuild junk n es (some (N : ℤ)) egs = .ok sd) {i j : ℕ} (hi : i < I.eigvals.length) (hj : j < J.eigvals.length)
    {l l' : List NGf} (hl : dictGet sd (((N : ℤ) + 1, j), ((N : ℤ), i)) = .ok l) (hl' : dictGet sd (((N : ℤ), i), ((N : ℤ) + 1, j)) = .ok l')
    {beta : ℝ} {mu : List ℝ} {A : List (List ℝ)} {lead : ℕ} {γ γ' m : ℝ} (hg : sqtnlGamma l beta mu A lead = .ok γ)
    (hg' : sqtnlGamma l' beta mu A lead = .ok γ') (hm : getItem mu lead = .ok m)
    (hb : |beta * (J.eigvals[j] - I.eigvals[i] - m)| ≤ 100) :
    γ = γ' * Real.exp (-(beta * (J.eigvals[j] - I.eigvals[i] - m))) := by
  obtain ⟨I', sI, gI', hI⟩ := hes N (by omega)
  obtain ⟨J', sJ, gJ', hJ⟩ := hes (N + 1) (by omega)
  obtain rfl : I = I' := by rw [gI] at gI'; exact Except.ok.inj gI'
  obtain rfl : J = J' := by rw [gJ] at gJ'; exact Except.ok.inj gJ'
  obtain ⟨sd', hsd', h⟩ := C77_elements_up (junk := junk) hn hes hN egs gI gJ hI hJ
  rw [hsd, Except.ok.injEq] at hsd'
  subst hsd'
  obtain ⟨h1, h2⟩ := h j i hj hi
  rw [h1, Except.ok.injEq] at hl
  rw [h2, Except.ok.injEq] at hl'
  subst hl hl'
  obtain ⟨a, m1, x, y, e1, e2, e3, e4, rfl⟩ := sqtnlGamma_two _ _ _ _ _ _ hg
  obtain ⟨a', m2, x', y', e1', e2', e3', e4', rfl⟩ := sqtnlGamma_two _ _ _ _ _ _ hg'
  rw [e1, Except.ok.injEq] at e1'
  rw [e2, Except.ok.injEq] at e2'
  rw [hm, Except.ok.injEq] at e2
  subst e1' e2' e2
  have hE : ∀ s, (element n sI sJ I J j i true s).E = J.eigvals[j] - I.eigvals[i] := by
    intro s; simp [element, hj, hi]
  have b0 := call_balance (el := element n sI sJ I J j i true 0) rfl e3 e3' (by rw [hE]; exact hb)
  have b1 := call_balance (el := element n sI sJ I J j i true 1) rfl e4 e4' (by rw [hE]; exact hb)
  rw [hE] at b0 b1
  rw [b0, b1]
  ring

/-- C78 is false of the code more than a hundred temperatures above the chemical potential: adding an electron gets the rate zero while
removing it does not, whenever the amplitude does not vanish. -/
theorem C78_refuted {g : NGf} (hg : g.el = true) {a : List ℝ} {y beta m : ℝ} (hy : dotArr g.v a = .ok y) (hy0 : y ≠ 0) (hb : 100 < beta * (g.E - m)) :
    g.call a beta m = .ok 0 ∧ ∃ x, ({ g with el := false } : NGf).call a beta m = .ok x ∧ 0 < x ∧ (0 : ℝ) ≠ x * Real.exp (-(beta * (g.E - m))) := by
  constructor
  · unfold NGf.call
    simp [hy, hg, bind, Except.bind, pure, Except.pure, nFcut, hb]
  · have hx : 0 < y ^ 2 * nFcut (-beta * (g.E - m)) := by
      refine mul_pos (by positivity) ?_
      unfold nFcut
      rw [if_neg (by linarith)]
      positivity
    refine ⟨y ^ 2 * nFcut (-beta * (g.E - m)), ?_, hx, (mul_pos hx (Real.exp_pos _)).ne⟩
    unfold NGf.call
    simp [hy, bind, Except.bind, pure, Except.pure]

/-- Non-vacuity of `C78_refuted`. -/
example : ∃ (g : NGf) (a : List ℝ) (y : ℝ), g.el = true ∧ dotArr g.v a = .ok y ∧ y ≠ 0 ∧ 100 < (40 : ℝ) * (g.E - 0) :=
  ⟨⟨true, 0, [1], 3⟩, [1], 1, rfl, by simp [dotArr], by norm_num, by norm_num⟩

/-- Non-vacuity: a spectrum with one state per sector that meets the hypotheses, for every number of sites up to sixteen. -/
noncomputable def oneState (n : ℕ) : Espace ℕ := (List.range (2 * n + 1)).map fun N => (N, ⟨.total (gs 32 (2 * n) N), (gs 32 (2 * n) N).length, [(N : ℝ)], [fun k => if k = 0 then 1 else 0]⟩)

theorem oneState_get {n N : ℕ} (h : N ≤ 2 * n) : dictGet (oneState n) N
    = .ok ⟨.total (gs 32 (2 * n) N), (gs 32 (2 * n) N).length, [(N : ℝ)], [fun k => if k = 0 then 1 else 0]⟩ := by
  have hk : N ∈ (oneState n).map Prod.fst := by
    unfold oneState
    rw [List.map_map, List.mem_map]
    exact ⟨N, List.mem_range.mpr (by omega), rfl⟩
  obtain ⟨x, hx⟩ := dictGet_of_key hk
  have := dictGet_mem_of_ok hx
  obtain ⟨M, -, hM⟩ := List.mem_map.mp this
  simp only [Prod.mk.injEq] at hM
  obtain ⟨rfl, rfl⟩ := hM
  exact hx

theorem oneState_ok {n : ℕ} (hn : 2 * n ≤ 32) : NEspaceOk n (oneState n) ∧ ∀ M s, dictGet (oneState n) M = .ok s → s.eigvals ≠ [] := by
  constructor
  · intro N hN
    refine ⟨_, _, oneState_get hN, rfl, ?_, rfl⟩
    exact sectorList_of_generate hn hn hN (generateStates_gs hN)
  · intro M s h
    obtain ⟨N, -, hN⟩ := List.mem_map.mp (dictGet_mem_of_ok h)
    simp only [Prod.mk.injEq] at hN
    rw [← hN.2]
    simp

/-- Non-vacuity of `C61_partial`: two sites, two electrons. -/
example : ∃ sd, sqtnlBuild 0 2 (oneState 2) (some (2 : ℕ)) none = .ok sd ∧ Connects sd (2 : ℕ) ((2 : ℕ) + 1) ∧ Connects sd (2 : ℕ) ((2 : ℕ) - 1) :=
  C61_partial (by norm_num) (oneState_ok (by norm_num)).1 (oneState_ok (by norm_num)).2 (by norm_num) (by norm_num) none

/-! ### From the spectrum to the rate matrix -/

theorem forM'_exists {α σ : Type} {body : σ → α → Except PyErr σ} {xs : List α} (h : ∀ st x, x ∈ xs → ∃ st', body st x = .ok st') (st : σ) :
    ∃ st', forM' body xs st = .ok st' := by
  induction xs generalizing st with
  | nil => exact ⟨st, rfl⟩
  | cons x xs ih =>
    obtain ⟨s1, h1⟩ := h st x (by simp)
    rw [forM', h1]
    exact ih (fun st y hy => h st y (by simp [hy])) s1

theorem sqtnlGamma_ok {n : ℕ} {l : List NGf} (hl : ∀ g ∈ l, g.v.length = n) (beta : ℝ) {mu : List ℝ} {A : List (List ℝ)} (hmu : mu.length = 2)
    (hA : A.length = 2) (hA' : ∀ a ∈ A, a.length = n) {lead : ℕ} (hlead : lead < 2) : ∃ γ, sqtnlGamma l beta mu A lead = .ok γ := by
  refine forM'_exists (fun st g hg => ?_) 0
  rw [getItem_natCast _ _ (by omega : lead < A.length), getItem_natCast _ _ (by omega : lead < mu.length)]
  have : g.v.length = A[lead].length := by rw [hl g hg, hA' _ (List.getElem_mem _)]
  simp only [bind, Except.bind, NGf.call, dotArr, this, if_true, pure, Except.pure]
  exact ⟨_, rfl⟩

/-- Every list in a dictionary built by appending is non-empty and made of the given elements. -/
theorem foldl_appendN_lists {α : Type} (P : α → Prop) (l : List ((NId × NId) × α)) (hl : ∀ p ∈ l, P p.2) : ∀ (sd : List ((NId × NId) × List α)),
    (∀ x ∈ sd, x.2 ≠ [] ∧ ∀ g ∈ x.2, P g) → ∀ x ∈ l.foldl appendN sd, x.2 ≠ [] ∧ ∀ g ∈ x.2, P g := by
  induction l with
  | nil => intro sd h; exact h
  | cons p l ih =>
    intro sd h
    rw [List.foldl_cons]
    refine ih (fun q hq => hl q (by simp [hq])) _ fun x hx => ?_
    unfold appendN at hx
    rcases mem_dictSet hx with hx | rfl
    · exact h x hx
    · refine ⟨by simp, fun g hg => ?_⟩
      rcases List.mem_append.mp hg with hg | hg
      · split at hg
        · rename_i v hv; exact (h _ (dictGet_mem_of_ok hv)).2 g hg
        · simp at hg
      · rw [List.mem_singleton] at hg
        rw [hg]
        exact hl p (by simp)

theorem pairList_symm {n : ℕ} {sI sJ : List ℕ} {I J : Sct} {N : ℤ} {s : ℕ} {q : NId × NId} (h : q ∈ (pairList n sI sJ I J N s).map Prod.fst) :
    (q.2, q.1) ∈ (pairList n sI sJ I J N s).map Prod.fst := by
  unfold pairList at h ⊢
  rw [List.map_append, List.mem_append, List.map_map, List.map_map] at h ⊢
  rcases h with h | h <;> obtain ⟨x, hx, rfl⟩ := List.mem_map.mp h
  · right
    exact List.mem_map.mpr ⟨(x.2, x.1), mem_ndindex2.mpr (mem_ndindex2.mp hx).symm, rfl⟩
  · left
    exact List.mem_map.mpr ⟨(x.2, x.1), mem_ndindex2.mpr (mem_ndindex2.mp hx).symm, rfl⟩

theorem pairList'_symm {n : ℕ} {sI sJ : List ℕ} {I J : Sct} {N : ℤ} {s : ℕ} {q : NId × NId} (h : q ∈ (pairList' n sI sJ I J N s).map Prod.fst) :
    (q.2, q.1) ∈ (pairList' n sI sJ I J N s).map Prod.fst := by
  unfold pairList' at h ⊢
  rw [List.map_append, List.mem_append, List.map_map, List.map_map] at h ⊢
  rcases h with h | h <;> obtain ⟨x, hx, rfl⟩ := List.mem_map.mp h
  · right
    exact List.mem_map.mpr ⟨(x.2, x.1), mem_ndindex2.mpr (mem_ndindex2.mp hx).symm, rfl⟩
  · left
    exact List.mem_map.mpr ⟨(x.2, x.1), mem_ndindex2.mpr (mem_ndindex2.mp hx).symm, rfl⟩

theorem allPairs_symm {n N : ℕ} {sK sI sJ : List ℕ} {K I J : Sct} {q : NId × NId} (h : q ∈ (allPairs n sK sI sJ K I J N).map Prod.fst) :
    (q.2, q.1) ∈ (allPairs n sK sI sJ K I J N).map Prod.fst := by
  unfold allPairs at h ⊢
  rw [List.map_flatMap, List.mem_flatMap] at h ⊢
  obtain ⟨s, hs, h⟩ := h
  refine ⟨s, hs, ?_⟩
  rw [List.map_append, List.mem_append] at h ⊢
  rcases h with h | h
  · left
    split at h
    · rename_i hc; rw [if_pos hc]; exact pairList_symm h
    · simp at h
  · right
    split at h
    · rename_i hc; rw [if_pos hc]; exact pairList'_symm h
    · simp at h

theorem allPairs_length {n N : ℕ} {sK sI sJ : List ℕ} {K I J : Sct} {p : (NId × NId) × NGf} (h : p ∈ allPairs n sK sI sJ K I J N) : p.2.v.length = n := by
  unfold allPairs at h
  obtain ⟨s, -, h⟩ := List.mem_flatMap.mp h
  rcases List.mem_append.mp h with h | h
  · split at h
    · rcases List.mem_append.mp h with h | h <;> obtain ⟨x, -, rfl⟩ := List.mem_map.mp h <;> simp [element]
    · simp at h
  · split at h
    · rcases List.mem_append.mp h with h | h <;> obtain ⟨x, -, rfl⟩ := List.mem_map.mp h <;> simp [element]
    · simp at h

/-- **C55** end to end for the sequential part: for every complete spectrum, number of electrons, temperature, chemical potentials and
couplings, building the elements and the matrices succeeds and gives a rate matrix. -/
theorem C55_sqtnl_from_spectrum {junk n N : ℕ} (hn : 2 * n ≤ 32) {es : Espace ℕ} (hes : NEspaceOk n es) (hN : N ≤ 2 * n) (egs : Option ℝ) (beta : ℝ)
    {mu : List ℝ} {A : List (List ℝ)} (hmu : mu.length = 2) (hA : A.length = 2) (hA' : ∀ a ∈ A, a.length = n) {inject : ℕ} (hi : inject < 2) :
    ∃ sd st, sqtnlBuild junk n es (some (N : ℤ)) egs = .ok sd ∧ sqtnlDicts sd beta mu A inject = .ok st ∧
      IsRateMatrix (matrixIds st.W).length (dictToMatrix st.W) := by
  obtain ⟨I, sI, gI, hI⟩ := hes N (by omega)
  have hJ : ∃ J sJ, ((N : ℤ) + 1 < 2 * n → dictGet es (N + 1) = .ok J ∧ NSctOk n (N + 1) J sJ) := by
    by_cases h : (N : ℤ) + 1 < 2 * n
    · obtain ⟨J, sJ, gJ, hJ⟩ := hes (N + 1) (by omega)
      exact ⟨J, sJ, fun _ => ⟨gJ, hJ⟩⟩
    · exact ⟨I, [], fun h' => absurd h' h⟩
  obtain ⟨J, sJ, hJ⟩ := hJ
  obtain ⟨K, sK, gK, hK⟩ := hes (N - 1) (by omega)
  have hb := sqtnlBuild_eq (junk := junk) hn ⟨gI, hI⟩ hJ (fun _ => ⟨gK, hK⟩) egs
  set l := allPairs n sK sI sJ K I J N with hl
  set sd := (l.foldl appendN []).mergeSort fun a b => leNN a.1 b.1 with hsd
  have hlists : ∀ x ∈ sd, x.2 ≠ [] ∧ ∀ g ∈ x.2, g.v.length = n := by
    intro x hx
    exact foldl_appendN_lists (fun g : NGf => g.v.length = n) l (fun p hp => allPairs_length hp) [] (by simp) x ((List.mergeSort_perm _ _).mem_iff.mp hx)
  have hchk : checkElements sd = .ok () := by
    unfold checkElements
    rw [if_pos]
    rw [List.all_eq_true]
    intro i hi
    obtain ⟨p, hp, rfl⟩ := List.mem_map.mp hi
    rw [decide_eq_true_eq]
    have h1 : p.1 ∈ sd.map Prod.fst := List.mem_map.mpr ⟨p, hp, rfl⟩
    have h2 := (mem_sorted_keys l _).mpr (allPairs_symm ((mem_sorted_keys l _).mp h1))
    obtain ⟨p', hp', he⟩ := List.mem_map.mp h2
    exact List.mem_map.mpr ⟨p', hp', by rw [he]⟩
  obtain ⟨st, hst⟩ : ∃ st, sqtnlDicts sd beta mu A inject = .ok st := by
    unfold sqtnlDicts
    rw [hchk]
    refine forM'_exists (fun st p hp => ?_) _
    obtain ⟨hne, hlen⟩ := hlists p hp
    obtain ⟨g0, h0⟩ := sqtnlGamma_ok hlen beta hmu hA hA' (show 0 < 2 by norm_num)
    obtain ⟨g1, h1⟩ := sqtnlGamma_ok hlen beta hmu hA hA' (show 1 < 2 by norm_num)
    unfold sqtnlStep
    rw [h0, h1]
    have hlast : p.2.getLast? = some (p.2.getLast hne) := List.getLast?_eq_some_getLast hne
    simp only [bind, Except.bind, getItem_natCast [g0, g1] inject (by simpa using hi), hlast, pure, Except.pure]
    exact ⟨_, rfl⟩
  exact ⟨sd, st, hb, hst, C55_sqtnl hst⟩

end Edpyt
