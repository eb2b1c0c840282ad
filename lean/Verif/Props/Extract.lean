import Verif.Model.Extract
import Verif.Props.NTransitions
import Verif.Props.NShape
import Mathlib.Algebra.BigOperators.Group.Finset.Basic
import Mathlib.Algebra.BigOperators.Group.Finset.Piecewise
import Mathlib.Algebra.Order.Group.Multiset
/-!
C140: extracting the sequential elements from those of cotunnelling.
-/
namespace Edpyt
open Spec

/-- All pairs of a key and an element of its list. -/
def flatD {κ α : Type} (D : List (κ × List α)) : Multiset (κ × α) := (D.flatMap fun p => p.2.map fun x => (p.1, x) : List (κ × α))

theorem flatD_nil {κ α : Type} : flatD ([] : List (κ × List α)) = 0 := rfl

theorem flatD_append {κ α : Type} (D D' : List (κ × List α)) : flatD (D ++ D') = flatD D + flatD D' := by
  unfold flatD; rw [List.flatMap_append]; rfl

theorem flatD_cons {κ α : Type} (p : κ × List α) (D : List (κ × List α)) : flatD (p :: D) = (↑(p.2.map fun x => (p.1, x)) : Multiset (κ × α)) + flatD D := by
  unfold flatD; rw [List.flatMap_cons]; rfl

theorem flatD_perm {κ α : Type} {D D' : List (κ × List α)} (h : D.Perm D') : flatD D = flatD D' :=
  Multiset.coe_eq_coe.mpr (h.flatMap_right _)

theorem flatD_extend {κ α : Type} [DecidableEq κ] (D : List (κ × List α)) (hD : (D.map Prod.fst).Nodup) (k : κ) (xs : List α) :
    flatD (dictExtend D k xs) = flatD D + ↑(xs.map fun x => (k, x)) := by
  unfold dictExtend dictSet
  split
  · rename_i hk
    induction D with
    | nil => simp at hk
    | cons p D ih =>
      rw [List.map_cons, List.nodup_cons] at hD
      rw [List.map_cons, flatD_cons, flatD_cons]
      by_cases hp : p.1 = k
      · have h1 : ∀ v : List α, D.map (fun p => if p.1 = k then (k, v) else p) = D := by
          intro v
          conv_rhs => rw [← List.map_id D]
          refine List.map_congr_left fun q hq => ?_
          rw [if_neg]
          · rfl
          · rintro rfl
            exact hD.1 (by rw [hp]; exact List.mem_map.mpr ⟨q, hq, rfl⟩)
        have h2 : dictGet (p :: D) k = .ok p.2 := by rw [dictGet_cons, if_pos hp]
        rw [h2, h1, if_pos hp]
        simp only [List.map_append, ← Multiset.coe_add, hp]
        abel
      · have hk' : k ∈ D.map Prod.fst := by
          rcases List.mem_cons.mp hk with h | h
          · exact absurd h.symm hp
          · exact h
        have h2 : dictGet (p :: D) k = dictGet D k := by rw [dictGet_cons, if_neg hp]
        rw [h2, if_neg hp, ih hD.2 hk', add_assoc]
  · rename_i hk
    have h2 : ∀ e, dictGet D k = .ok e → False := fun e he => hk (List.mem_map.mpr ⟨_, dictGet_mem_of_ok he, rfl⟩)
    rw [flatD_append]
    congr 1
    cases h : dictGet D k with
    | ok e => exact (h2 e h).elim
    | error e => simp [flatD]

theorem nodup_extend {κ α : Type} [DecidableEq κ] {D : List (κ × List α)} (hD : (D.map Prod.fst).Nodup) (k : κ) (xs : List α) :
    ((dictExtend D k xs).map Prod.fst).Nodup := nodup_dictSet hD _ _

theorem flatD_foldl_appendN {α : Type} (l : List ((NId × NId) × α)) : ∀ (sd : List ((NId × NId) × List α)), (sd.map Prod.fst).Nodup →
    flatD (l.foldl appendN sd) = flatD sd + ↑l := by
  induction l with
  | nil => intro sd _; simp
  | cons p l ih =>
    intro sd h
    rw [List.foldl_cons, ih _ (nodup_appendN sd h p)]
    have : appendN sd p = dictExtend sd p.1 [p.2] := rfl
    rw [this, flatD_extend sd h, add_assoc]
    congr 1

/-- The elements that the loop over one Green function emits. -/
def emitGf (N : ℤ) (i f : ℕ) (spins : ℕ × ℕ) (g : NGf2) (j : ℕ) : List ((NId × NId) × NGf) :=
  if g.el then [(((N + 1, j), (N, i)), ⟨true, spins.2, g.vI[j]?.getD [], g.E[j]?.getD 0⟩), (((N, f), (N + 1, j)), ⟨false, spins.1, g.vF[j]?.getD [], g.E[j]?.getD 0⟩)]
  else [(((N, f), (N - 1, j)), ⟨true, spins.1, g.vF[j]?.getD [], g.E[j]?.getD 0⟩), (((N - 1, j), (N, i)), ⟨false, spins.2, g.vI[j]?.getD [], g.E[j]?.getD 0⟩)]

/-- The elements that one `Sigma` emits. -/
def emitSigma (q : (NId × NId) × NSigma) : Multiset ((NId × NId) × NGf) :=
  if q.1.2.2 ≠ q.1.1.2 then 0 else
    (q.2.gf2.map fun g => ((List.range g.vI.length).map fun j => (↑(emitGf q.1.1.1 q.1.2.2 q.1.1.2 q.2.spins g j) : Multiset ((NId × NId) × NGf))).sum).sum

/-- The elements of both dictionaries, without the spin in the key. -/
def flatS (st : SpinDict × SpinDict) : Multiset ((NId × NId) × NGf) := (flatD st.1).map (fun p => (p.1.1, p.2)) + (flatD st.2).map fun p => (p.1.1, p.2)

theorem extend_ne {κ α : Type} [DecidableEq κ] {D : List (κ × List α)} (hD : ∀ p ∈ D, p.2 ≠ []) {k : κ} {xs : List α} (hx : xs ≠ []) : ∀ p ∈ dictExtend D k xs, p.2 ≠ [] := by
  intro p hp
  unfold dictExtend dictSet at hp
  split at hp
  · obtain ⟨q, hq, rfl⟩ := List.mem_map.mp hp
    split
    · simp [hx]
    · exact hD q hq
  · rcases List.mem_append.mp hp with hp | hp
    · exact hD p hp
    · rw [List.mem_singleton.mp hp]; simp [hx]

/-- Both dictionaries have distinct keys and no empty lists. -/
def OkS (st : SpinDict × SpinDict) : Prop := ((st.1.map Prod.fst).Nodup ∧ (st.2.map Prod.fst).Nodup) ∧ (∀ p ∈ st.1, p.2 ≠ []) ∧ ∀ p ∈ st.2, p.2 ≠ []

/-- A loop whose passes add elements adds all of them. -/
theorem forM'_emit {σ α β : Type} {body : σ → α → Except PyErr σ} (F : σ → Multiset β) (Q : σ → Prop) (e : α → Multiset β) :
    ∀ (xs : List α), (∀ st x, x ∈ xs → Q st → ∃ st', body st x = .ok st' ∧ Q st' ∧ F st' = F st + e x) → ∀ st, Q st →
      ∃ st', forM' body xs st = .ok st' ∧ Q st' ∧ F st' = F st + (xs.map e).sum := by
  intro xs
  induction xs with
  | nil => intro _ st hst; exact ⟨st, rfl, hst, by simp⟩
  | cons x xs ih =>
    intro h st hst
    obtain ⟨s1, h1, q1, f1⟩ := h st x (by simp) hst
    obtain ⟨s2, h2, q2, f2⟩ := ih (fun st y hy => h st y (by simp [hy])) s1 q1
    refine ⟨s2, ?_, q2, ?_⟩
    · rw [forM', h1]; exact h2
    · rw [f2, f1, List.map_cons, List.sum_cons, add_assoc]

theorem extractElem_emit {N : ℤ} {i f : ℕ} {spins : ℕ × ℕ} {g : NGf2} {j : ℕ} (h1 : j < g.vI.length) (h2 : j < g.vF.length) (h3 : j < g.E.length)
    (st : SpinDict × SpinDict) (hst : OkS st) :
    ∃ st', extractElem N i f spins g st j = .ok st' ∧ OkS st' ∧ flatS st' = flatS st + ↑(emitGf N i f spins g j) := by
  unfold extractElem
  rw [getItem_natCast _ _ h1, getItem_natCast _ _ h2, getItem_natCast _ _ h3]
  simp only [bind, Except.bind, pure, Except.pure]
  refine ⟨_, rfl, ?_, ?_⟩
  · split <;> exact ⟨⟨nodup_extend hst.1.1 _ _, nodup_extend hst.1.2 _ _⟩, extend_ne hst.2.1 (by simp), extend_ne hst.2.2 (by simp)⟩
  · unfold emitGf flatS
    split
    · simp only [flatD_extend _ hst.1.1, flatD_extend _ hst.1.2, Multiset.map_add, List.getElem?_eq_getElem h1, List.getElem?_eq_getElem h2, List.getElem?_eq_getElem h3, Option.getD_some, List.map_cons, List.map_nil, Multiset.map_coe]
      rw [add_add_add_comm]
      rfl
    · simp only [flatD_extend _ hst.1.1, flatD_extend _ hst.1.2, Multiset.map_add, List.getElem?_eq_getElem h1, List.getElem?_eq_getElem h2, List.getElem?_eq_getElem h3, Option.getD_some, List.map_cons, List.map_nil, Multiset.map_coe]
      rw [add_add_add_comm]
      rfl

/-- The rows of the Green function have equal lengths. -/
def Gf2Ok (g : NGf2) : Prop := g.vF.length = g.vI.length ∧ g.E.length = g.vI.length

theorem list_sum_map_sum {α β M : Type} [AddCommMonoid M] (D : List (α × List β)) (f : α × β → M) :
    (D.map fun p => (p.2.map fun x => f (p.1, x)).sum).sum = ((flatD D).map f).sum := by
  unfold flatD
  induction D with
  | nil => rfl
  | cons p D ih =>
    rw [List.map_cons, List.sum_cons, ih, List.flatMap_cons, ← Multiset.coe_add, Multiset.map_add, Multiset.sum_add]
    congr 1
    rw [Multiset.map_coe, Multiset.sum_coe, List.map_map]
    rfl

theorem flatD_foldl_extend (S : SpinDict) (hS : ∀ p ∈ S, p.2 ≠ []) : ∀ gd : List ((NId × NId) × List NGf), (gd.map Prod.fst).Nodup → (∀ p ∈ gd, p.2 ≠ []) →
    (∀ p ∈ S.foldl (fun gd p => dictExtend gd p.1.1 p.2) gd, p.2 ≠ []) ∧
    ((S.foldl (fun gd p => dictExtend gd p.1.1 p.2) gd).map Prod.fst).Nodup ∧
    flatD (S.foldl (fun gd p => dictExtend gd p.1.1 p.2) gd) = flatD gd + (flatD S).map fun p => (p.1.1, p.2) := by
  induction S with
  | nil => intro gd h h'; exact ⟨h', h, by simp [flatD_nil]⟩
  | cons p S ih =>
    intro gd h h'
    rw [List.foldl_cons]
    obtain ⟨h0, h1, h2⟩ := ih (fun q hq => hS q (by simp [hq])) _ (nodup_extend h p.1.1 p.2) (extend_ne h' (hS p (by simp)))
    refine ⟨h0, h1, ?_⟩
    rw [h2, flatD_extend _ h, flatD_cons, Multiset.map_add, add_assoc, Multiset.map_coe, List.map_map]
    rfl

theorem nExtract_flat {sd : List ((NId × NId) × List NSigma)} (h : ∀ p ∈ sd, ∀ s ∈ p.2, ∀ g ∈ s.gf2, Gf2Ok g) :
    ∃ gd, nExtract sd = .ok gd ∧ (∀ p ∈ gd, p.2 ≠ []) ∧ flatD gd = ((flatD sd).map emitSigma).sum := by
  obtain ⟨st, hst, hok, hfl⟩ := forM'_emit flatS OkS (fun p : (NId × NId) × List NSigma => (p.2.map fun s => emitSigma (p.1, s)).sum) sd (body := extractEntry) (by
    intro st p hp hst
    unfold extractEntry
    by_cases hk : p.1.2.2 ≠ p.1.1.2
    · rw [if_pos hk]
      refine ⟨st, rfl, hst, ?_⟩
      have : (p.2.map fun s => emitSigma (p.1, s)).sum = 0 := by
        rw [List.sum_eq_zero]
        intro x hx
        obtain ⟨s, -, rfl⟩ := List.mem_map.mp hx
        unfold emitSigma
        rw [if_pos hk]
      rw [this, add_zero]
    · rw [if_neg hk]
      refine forM'_emit flatS OkS _ p.2 (fun st s hs hst => ?_) st hst
      unfold emitSigma
      simp only [if_neg hk]
      refine forM'_emit flatS OkS _ s.gf2 (fun st g hg hst => ?_) st hst
      obtain ⟨e1, e2⟩ := h p hp s hs g hg
      refine forM'_emit flatS OkS _ (List.range g.vI.length) (fun st j hj hst => ?_) st hst
      rw [List.mem_range] at hj
      exact extractElem_emit hj (by omega) (by omega) st hst) ([], []) ⟨⟨by simp, by simp⟩, by simp, by simp⟩
  unfold nExtract
  rw [hst]
  simp only [bind, Except.bind, pure, Except.pure]
  obtain ⟨e1, n1, f1⟩ := flatD_foldl_extend st.1 hok.2.1 [] (by simp) (by simp)
  obtain ⟨n2, -, f2⟩ := flatD_foldl_extend st.2 hok.2.2 _ n1 e1
  refine ⟨_, rfl, n2, ?_⟩
  rw [f2, f1, flatD_nil, zero_add, ← list_sum_map_sum]
  have : flatS (([], []) : SpinDict × SpinDict) = 0 := by simp [flatS, flatD_nil]
  rw [this, zero_add] at hfl
  exact hfl

/-! ### The elements of cotunnelling -/

theorem amp_cdg {junk n N spin x : ℕ} (hn : 2 * n ≤ 32) (hs : spin < 2) (hx : x < n) {I J : Sct} {sI sJ : List ℕ} (hI : NSctOk n N I sI) (hJ : NSctOk n (N + 1) J sJ) :
    nProject junk spin x .cdg n I J = .ok fun j i => amplitude n sI sJ I J j i spin x := by
  obtain ⟨M, hM, hM'⟩ := C76_project (junk := junk) hn (pos_lt hs hx) .cdg (N := N) (N' := N + 1) rfl hI hJ
  rw [hM]
  congr 1
  funext j i
  rw [hM', amplitude, dif_pos (pos_lt hs hx)]
  rfl

theorem amp_c {junk n N spin x : ℕ} (hn : 2 * n ≤ 32) (hs : spin < 2) (hx : x < n) {I J : Sct} {sI sJ : List ℕ} (hI : NSctOk n N I sI) (hJ : NSctOk n (N + 1) J sJ) :
    nProject junk spin x .c n J I = .ok fun i j => amplitude n sI sJ I J j i spin x := by
  obtain ⟨M, hM, hM'⟩ := C76_project (junk := junk) hn (pos_lt hs hx) .c (N := N + 1) (N' := N) rfl hJ hI
  rw [hM]
  congr 1
  funext i j
  rw [hM', amplitude, dif_pos (pos_lt hs hx), Matrix.dotProduct_mulVec, ← Matrix.mulVec_transpose, dotProduct_comm, ← mat_transpose,
    Matrix.transpose_transpose]
  rfl

/-- The Green function of an added electron, for the states `f` and `i` of the sector `I` and the intermediate sector `J` above. -/
noncomputable def gf2Up (n : ℕ) (sI sJ : List ℕ) (I J : Sct) (spins : ℕ × ℕ) (fi : ℕ × ℕ) : NGf2 :=
  ⟨true, (List.range J.eigvals.length).map fun j => (List.range n).map fun x => amplitude n sI sJ I J j fi.1 spins.1 x,
    (List.range J.eigvals.length).map fun j => (List.range n).map fun x => amplitude n sI sJ I J j fi.2 spins.2 x,
    J.eigvals.map fun e => e - I.eigvals[fi.1]?.getD 0, I.eigvals[fi.1]?.getD 0 - I.eigvals[fi.2]?.getD 0⟩

/-- The Green function of a removed electron, with the intermediate sector `K` below. -/
noncomputable def gf2Down (n : ℕ) (sK sI : List ℕ) (K I : Sct) (spins : ℕ × ℕ) (fi : ℕ × ℕ) : NGf2 :=
  ⟨false, (List.range K.eigvals.length).map fun k => (List.range n).map fun x => amplitude n sK sI K I fi.1 k spins.1 x,
    (List.range K.eigvals.length).map fun k => (List.range n).map fun x => amplitude n sK sI K I fi.2 k spins.2 x,
    K.eigvals.map fun e => I.eigvals[fi.2]?.getD 0 - e, I.eigvals[fi.1]?.getD 0 - I.eigvals[fi.2]?.getD 0⟩

/-- The pairs of states of one sector. -/
def sctKeys (N : ℤ) (I : Sct) : List (NId × NId) := (ndindex2 I.eigvals.length I.eigvals.length).map fun fi => ((N, fi.1), (N, fi.2))

theorem sctKeys_nodup (N : ℤ) (I : Sct) : (sctKeys N I).Nodup :=
  (nodup_ndindex2 _ _).map fun x y h => by simpa [Prod.ext_iff] using h

theorem nExcite2_up {junk n N : ℕ} (hn : 2 * n ≤ 32) {spins : ℕ × ℕ} (hs : spins.1 < 2 ∧ spins.2 < 2) {es : Espace ℕ} {I J : Sct} {sI sJ : List ℕ}
    (gI : nGet es N = .ok I) (gJ : nGet es (N + 1) = .ok J) (hI : NSctOk n N I sI) (hJ : NSctOk n (N + 1) J sJ) :
    nExcite2 junk true spins n N es = .ok ((ndindex2 I.eigvals.length I.eigvals.length).map fun fi =>
      ((((N : ℤ), fi.1), ((N : ℤ), fi.2)), gf2Up n sI sJ I J spins fi)) := by
  unfold nExcite2 nExciteStates
  simp only [if_true, gI, gJ, bind, Except.bind, nProjectAll_ok (fun x j i => amplitude n sI sJ I J j i spins.2 x) (fun x hx => amp_cdg hn hs.2 hx hI hJ),
    nProjectAll_ok (fun x i j => amplitude n sI sJ I J j i spins.1 x) (fun x hx => amp_c hn hs.1 hx hI hJ), pure, Except.pure]
  simp only [List.map_map, gf2Up]
  rfl

theorem nExcite2_down {junk n N : ℕ} (hn : 2 * n ≤ 32) {spins : ℕ × ℕ} (hs : spins.1 < 2 ∧ spins.2 < 2) {es : Espace ℕ} {K I : Sct} {sK sI : List ℕ}
    (gK : nGet es N = .ok K) (gI : nGet es (N + 1) = .ok I) (hK : NSctOk n N K sK) (hI : NSctOk n (N + 1) I sI) :
    nExcite2 junk false spins n (N + 1) es = .ok ((ndindex2 I.eigvals.length I.eigvals.length).map fun fi =>
      ((((N : ℤ) + 1, fi.1), ((N : ℤ) + 1, fi.2)), gf2Down n sK sI K I spins fi)) := by
  unfold nExcite2 nExciteStates
  have h1 : (N : ℤ) + 1 - 1 = N := by ring
  simp only [Bool.false_eq_true, if_false, h1, gI, gK, bind, Except.bind, nProjectAll_ok (fun x i j => amplitude n sK sI K I j i spins.2 x) (fun x hx => amp_c hn hs.2 hx hK hI),
    nProjectAll_ok (fun x j i => amplitude n sK sI K I j i spins.1 x) (fun x hx => amp_cdg hn hs.1 hx hK hI), pure, Except.pure]
  simp only [List.map_map, gf2Down]
  rfl

/-- The `Sigma` object of a pair of states. -/
noncomputable def sigmaOf (n : ℕ) (sK sI sJ : List ℕ) (K I J : Sct) (N : ℕ) (spins fi : ℕ × ℕ) : NSigma :=
  ⟨spins, (if (N : ℤ) + 1 < 2 * n then [gf2Up n sI sJ I J spins fi] else []) ++ (if (N : ℤ) - 1 > 0 then [gf2Down n sK sI K I (spins.2, spins.1) fi] else []),
    I.eigvals[fi.1]?.getD 0 - I.eigvals[fi.2]?.getD 0⟩

theorem dictGet_ndindex2 {β : Type} (N : ℤ) (I : Sct) (F : ℕ × ℕ → β) {fi : ℕ × ℕ} (h : fi ∈ ndindex2 I.eigvals.length I.eigvals.length) :
    dictGet ((ndindex2 I.eigvals.length I.eigvals.length).map fun fi => (((N, fi.1), (N, fi.2)), F fi)) ((N, fi.1), (N, fi.2)) = .ok (F fi) := by
  have hk : ((N, fi.1), (N, fi.2)) ∈ ((ndindex2 I.eigvals.length I.eigvals.length).map fun fi => (((N, fi.1), (N, fi.2)), F fi)).map Prod.fst := by
    rw [List.map_map, List.mem_map]
    exact ⟨fi, h, rfl⟩
  obtain ⟨x, hx⟩ := dictGet_of_key hk
  have := dictGet_mem_of_ok hx
  obtain ⟨y, -, hy⟩ := List.mem_map.mp this
  rw [hx]
  simp only [Prod.mk.injEq, true_and] at hy
  have : y = fi := Prod.ext hy.1.1 hy.1.2
  rw [← hy.2, this]

/-- A dictionary of lists with distinct keys and no empty list. -/
def OkD (sd : List ((NId × NId) × List NSigma)) : Prop := (sd.map Prod.fst).Nodup ∧ ∀ p ∈ sd, p.2 ≠ []

theorem cotnlSpin_flat {junk n N : ℕ} (hn : 2 * n ≤ 32) {es : Espace ℕ} {K I J : Sct} {sK sI sJ : List ℕ}
    (hI : dictGet es N = .ok I ∧ NSctOk n N I sI) (hJ : (N : ℤ) + 1 < 2 * n → dictGet es (N + 1) = .ok J ∧ NSctOk n (N + 1) J sJ)
    (hK : (N : ℤ) - 1 > 0 → dictGet es (N - 1) = .ok K ∧ NSctOk n (N - 1) K sK) {spins : ℕ × ℕ} (hs : spins.1 < 2 ∧ spins.2 < 2)
    {sd : List ((NId × NId) × List NSigma)} (hsd : OkD sd) :
    ∃ sd', cotnlSpin junk n es N sd spins = .ok sd' ∧ OkD sd' ∧ flatD sd' = flatD sd +
      if (N : ℤ) + 1 < 2 * n ∨ (N : ℤ) - 1 > 0 then ↑((ndindex2 I.eigvals.length I.eigvals.length).map fun fi =>
        ((((N : ℤ), fi.1), ((N : ℤ), fi.2)), sigmaOf n sK sI sJ K I J N spins fi)) else 0 := by
  have hup : (N : ℤ) + 1 < 2 * n → nExcite2 junk true spins n N es = .ok ((ndindex2 I.eigvals.length I.eigvals.length).map fun fi =>
      ((((N : ℤ), fi.1), ((N : ℤ), fi.2)), gf2Up n sI sJ I J spins fi)) := by
    intro h
    obtain ⟨gJ, oJ⟩ := hJ h
    have gJ' : nGet es ((N : ℤ) + 1) = .ok J := by have := nGet_nat gJ; push_cast at this; exact this
    exact nExcite2_up hn hs (nGet_nat hI.1) gJ' hI.2 oJ
  have hdn : (N : ℤ) - 1 > 0 → nExcite2 junk false (spins.2, spins.1) n N es = .ok ((ndindex2 I.eigvals.length I.eigvals.length).map fun fi =>
      ((((N : ℤ), fi.1), ((N : ℤ), fi.2)), gf2Down n sK sI K I (spins.2, spins.1) fi)) := by
    intro h
    obtain ⟨gK, oK⟩ := hK h
    obtain ⟨M, rfl⟩ : ∃ M, N = M + 1 := ⟨N - 1, by omega⟩
    simp only [Nat.add_sub_cancel] at gK oK
    have gI : nGet es ((M : ℤ) + 1) = .ok I := by have := nGet_nat hI.1; push_cast at this; exact this
    have := nExcite2_down (junk := junk) hn (spins := (spins.2, spins.1)) ⟨hs.2, hs.1⟩ (nGet_nat gK) gI oK hI.2
    have e2 : ((M + 1 : ℕ) : ℤ) = (M : ℤ) + 1 := by push_cast; ring
    rw [e2]
    exact this
  have hloop : ∀ (ge gh : List ((NId × NId) × NGf2)) (ks : List (NId × NId)), ks.Perm (sctKeys N I) →
      (∀ fi ∈ ndindex2 I.eigvals.length I.eigvals.length, mkNSigma spins (dictGet ge (((N : ℤ), fi.1), ((N : ℤ), fi.2))).toOption
        (dictGet gh (((N : ℤ), fi.1), ((N : ℤ), fi.2))).toOption = .ok (sigmaOf n sK sI sJ K I J N spins fi)) →
      ∃ sd', forM' (fun sd k => do
        let s ← mkNSigma spins (dictGet ge k).toOption (dictGet gh k).toOption
        pure (appendN sd (k, s))) ks sd = .ok sd' ∧ OkD sd' ∧ flatD sd' = flatD sd +
          ↑((ndindex2 I.eigvals.length I.eigvals.length).map fun fi => ((((N : ℤ), fi.1), ((N : ℤ), fi.2)), sigmaOf n sK sI sJ K I J N spins fi)) := by
    intro ge gh ks hks hmk
    obtain ⟨sd', h1, h2, h3⟩ := forM'_emit (F := flatD) (Q := OkD)
      (e := fun k : NId × NId => ({(k, sigmaOf n sK sI sJ K I J N spins (k.1.2, k.2.2))} : Multiset ((NId × NId) × NSigma))) (body := fun sd k => do
        let s ← mkNSigma spins (dictGet ge k).toOption (dictGet gh k).toOption
        pure (appendN sd (k, s))) ks (by
        intro sd k hk hsd
        obtain ⟨fi, hfi, rfl⟩ := List.mem_map.mp (hks.mem_iff.mp hk)
        refine ⟨_, by rw [hmk fi hfi]; rfl, ⟨nodup_appendN sd hsd.1 _, extend_ne hsd.2 (xs := [_]) (by simp)⟩, ?_⟩
        exact flatD_extend sd hsd.1 _ [sigmaOf n sK sI sJ K I J N spins fi]) sd hsd
    refine ⟨sd', h1, h2, ?_⟩
    rw [h3, (hks.map _).sum_eq]
    congr 1
    unfold sctKeys
    rw [List.map_map]
    induction ndindex2 I.eigvals.length I.eigvals.length with
    | nil => rfl
    | cons a l ih => rw [List.map_cons, List.sum_cons, ih]; rfl
  have hded : (sctKeys N I ++ sctKeys N I).dedup.Perm (sctKeys N I) := by
    rw [List.perm_ext_iff_of_nodup (List.nodup_dedup _) (sctKeys_nodup N I)]
    simp
  have hkeys : ∀ F : ℕ × ℕ → NGf2, ((ndindex2 I.eigvals.length I.eigvals.length).map fun fi => ((((N : ℤ), fi.1), ((N : ℤ), fi.2)), F fi)).map Prod.fst = sctKeys N I := by
    intro F; rw [List.map_map]; rfl
  unfold cotnlSpin
  by_cases c1 : (N : ℤ) + 1 < 2 * n
  · by_cases c2 : (N : ℤ) - 1 > 0
    · simp only [c1, c2, if_true, hup c1, hdn c2, bind, Except.bind, true_or]
      refine hloop _ _ _ (by rw [hkeys, hkeys]; exact hded) fun fi hfi => ?_
      rw [dictGet_ndindex2 N I _ hfi, dictGet_ndindex2 N I _ hfi]
      unfold sigmaOf
      rw [if_pos c1, if_pos c2]
      rfl
    · simp only [c1, c2, if_true, if_false, hup c1, bind, Except.bind, pure, Except.pure, true_or]
      refine hloop _ _ _ (by rw [hkeys]; simp [(sctKeys_nodup N I).dedup]) fun fi hfi => ?_
      rw [dictGet_ndindex2 N I _ hfi, dictGet_nil]
      unfold sigmaOf
      rw [if_pos c1, if_neg c2]
      rfl
  · by_cases c2 : (N : ℤ) - 1 > 0
    · simp only [c1, c2, if_true, if_false, hdn c2, bind, Except.bind, pure, Except.pure, or_true]
      refine hloop _ _ _ (by rw [hkeys]; simp [(sctKeys_nodup N I).dedup]) fun fi hfi => ?_
      rw [dictGet_ndindex2 N I _ hfi, dictGet_nil]
      unfold sigmaOf
      rw [if_neg c1, if_pos c2]
      rfl
    · simp only [c1, c2, if_false, bind, Except.bind, pure, Except.pure, or_self]
      exact ⟨sd, by simp [forM'], hsd, by simp⟩

theorem cotnlBuild_full {junk n N : ℕ} (hn : 2 * n ≤ 32) {es : Espace ℕ} {K I J : Sct} {sK sI sJ : List ℕ}
    (hI : dictGet es N = .ok I ∧ NSctOk n N I sI) (hJ : (N : ℤ) + 1 < 2 * n → dictGet es (N + 1) = .ok J ∧ NSctOk n (N + 1) J sJ)
    (hK : (N : ℤ) - 1 > 0 → dictGet es (N - 1) = .ok K ∧ NSctOk n (N - 1) K sK) (egs : Option ℝ) :
    ∃ sd, cotnlBuild junk n es (some (N : ℤ)) egs none = .ok sd ∧ OkD sd ∧ flatD sd =
      ((ndindex2 2 2).map fun spins => if (N : ℤ) + 1 < 2 * n ∨ (N : ℤ) - 1 > 0 then (↑((ndindex2 I.eigvals.length I.eigvals.length).map fun fi =>
        ((((N : ℤ), fi.1), ((N : ℤ), fi.2)), sigmaOf n sK sI sJ K I J N spins fi)) : Multiset ((NId × NId) × NSigma)) else 0).sum := by
  obtain ⟨sd, h1, h2, h3⟩ := forM'_emit (F := flatD) (Q := OkD) (body := cotnlSpin junk n es N)
    (e := fun spins => if (N : ℤ) + 1 < 2 * n ∨ (N : ℤ) - 1 > 0 then (↑((ndindex2 I.eigvals.length I.eigvals.length).map fun fi =>
        ((((N : ℤ), fi.1), ((N : ℤ), fi.2)), sigmaOf n sK sI sJ K I J N spins fi)) : Multiset ((NId × NId) × NSigma)) else 0) (ndindex2 2 2)
    (fun sd spins hsp hsd => cotnlSpin_flat hn hI hJ hK (mem_ndindex2.mp hsp) hsd) [] ⟨by simp, by simp⟩
  refine ⟨sd.mergeSort fun a b => leNN a.1 b.1, ?_, ?_, ?_⟩
  · unfold cotnlBuild
    simp only [bind, Except.bind, pure, Except.pure, h1]
  · exact ⟨(((List.mergeSort_perm sd fun a b => leNN a.1 b.1).map Prod.fst).nodup_iff).mpr h2.1, fun p hp => h2.2 p (List.mem_mergeSort.mp hp)⟩
  · rw [flatD_perm (List.mergeSort_perm sd _), h3, flatD_nil, zero_add]

theorem cotnlBuild_flat {junk n N : ℕ} (hn : 2 * n ≤ 32) {es : Espace ℕ} {K I J : Sct} {sK sI sJ : List ℕ}
    (hI : dictGet es N = .ok I ∧ NSctOk n N I sI) (hJ : (N : ℤ) + 1 < 2 * n → dictGet es (N + 1) = .ok J ∧ NSctOk n (N + 1) J sJ)
    (hK : (N : ℤ) - 1 > 0 → dictGet es (N - 1) = .ok K ∧ NSctOk n (N - 1) K sK) (egs : Option ℝ) :
    ∃ sd, cotnlBuild junk n es (some (N : ℤ)) egs none = .ok sd ∧ (sd.map Prod.fst).Nodup ∧ flatD sd =
      ((ndindex2 2 2).map fun spins => if (N : ℤ) + 1 < 2 * n ∨ (N : ℤ) - 1 > 0 then (↑((ndindex2 I.eigvals.length I.eigvals.length).map fun fi =>
        ((((N : ℤ), fi.1), ((N : ℤ), fi.2)), sigmaOf n sK sI sJ K I J N spins fi)) : Multiset ((NId × NId) × NSigma)) else 0).sum := by
  obtain ⟨sd, h1, h2, h3⟩ := cotnlBuild_full (junk := junk) hn hI hJ hK egs
  exact ⟨sd, h1, h2.1, h3⟩

/-! ### Counting -/

theorem range_sum {M : Type} [AddCommMonoid M] (n : ℕ) (f : ℕ → M) : ((List.range n).map f).sum = ∑ i ∈ Finset.range n, f i := by
  rw [← Multiset.sum_coe, ← Multiset.map_coe]; rfl

theorem ndindex2_sum {M : Type} [AddCommMonoid M] (a b : ℕ) (f : ℕ × ℕ → M) : ((ndindex2 a b).map f).sum = ∑ x ∈ Finset.range a, ∑ y ∈ Finset.range b, f (x, y) := by
  unfold ndindex2
  rw [List.map_flatMap, ← range_sum]
  induction List.range a with
  | nil => rfl
  | cons x l ih =>
    rw [List.flatMap_cons, List.sum_append, ih, List.map_cons, List.sum_cons, List.map_map, ← range_sum]
    rfl

theorem coe_eq_sum {α : Type} (l : List α) : (↑l : Multiset α) = (l.map fun x => ({x} : Multiset α)).sum := by
  induction l with
  | nil => rfl
  | cons x l ih => rw [List.map_cons, List.sum_cons, ← ih]; rfl

theorem coe_ndindex2 {α : Type} (a b : ℕ) (f : ℕ × ℕ → α) : (↑((ndindex2 a b).map f) : Multiset α) = ∑ x ∈ Finset.range a, ∑ y ∈ Finset.range b, {f (x, y)} := by
  rw [coe_eq_sum, List.map_map, ndindex2_sum]; rfl

/-- An element without its label of spin. -/
def spinless (p : (NId × NId) × NGf) : (NId × NId) × NGf := (p.1, { p.2 with spin := 0 })

/-- The elements between the sectors `N` and `N + 1`, for adding or removing an electron of spin `s`. -/
noncomputable def pairSum (n : ℕ) (sI sJ : List ℕ) (I J : Sct) (N : ℤ) (el : Bool) (s : ℕ) : Multiset ((NId × NId) × NGf) :=
  ∑ i ∈ Finset.range I.eigvals.length, ∑ j ∈ Finset.range J.eigvals.length,
    {spinless ((if el then ((N + 1, j), (N, i)) else ((N, i), (N + 1, j))), element n sI sJ I J j i el s)}

theorem map_sum' {α β ι : Type} (s : Finset ι) (f : ι → Multiset α) (g : α → β) : (∑ i ∈ s, f i).map g = ∑ i ∈ s, (f i).map g :=
  map_sum (Multiset.mapAddMonoidHom g) f s

theorem pairList_flat (n : ℕ) (sI sJ : List ℕ) (I J : Sct) (N : ℤ) (s : ℕ) :
    (↑(pairList n sI sJ I J N s) : Multiset ((NId × NId) × NGf)).map spinless = pairSum n sI sJ I J N true s + pairSum n sI sJ I J N false s := by
  unfold pairList
  rw [← Multiset.coe_add, Multiset.map_add, coe_ndindex2, coe_ndindex2, map_sum', map_sum']
  simp only [map_sum', Multiset.map_singleton]
  rw [Finset.sum_comm]
  rfl

theorem pairList'_flat (n : ℕ) (sI sJ : List ℕ) (I J : Sct) (N : ℤ) (s : ℕ) :
    (↑(pairList' n sI sJ I J N s) : Multiset ((NId × NId) × NGf)).map spinless = pairSum n sI sJ I J N true s + pairSum n sI sJ I J N false s := by
  rw [← pairList_flat]
  congr 1
  unfold pairList pairList'
  rw [← Multiset.coe_add, ← Multiset.coe_add, add_comm]

/-- All elements of the sequential code, without labels of spin. -/
theorem allPairs_flat (n : ℕ) (sK sI sJ : List ℕ) (K I J : Sct) (N : ℕ) :
    (↑(allPairs n sK sI sJ K I J N) : Multiset ((NId × NId) × NGf)).map spinless =
      (if (N : ℤ) + 1 < 2 * n then pairSum n sI sJ I J N true 0 + pairSum n sI sJ I J N true 1 + (pairSum n sI sJ I J N false 0 + pairSum n sI sJ I J N false 1) else 0) +
      if (N : ℤ) - 1 > 0 then pairSum n sK sI K I (N - 1) true 0 + pairSum n sK sI K I (N - 1) true 1 + (pairSum n sK sI K I (N - 1) false 0 + pairSum n sK sI K I (N - 1) false 1) else 0 := by
  unfold allPairs
  have h2 : List.range 2 = [0, 1] := rfl
  rw [h2, List.flatMap_cons, List.flatMap_cons, List.flatMap_nil, List.append_nil]
  simp only [← Multiset.coe_add, Multiset.map_add]
  by_cases c1 : (N : ℤ) + 1 < 2 * n <;> by_cases c2 : (N : ℤ) - 1 > 0 <;>
    simp only [c1, c2, if_true, if_false, pairList_flat, pairList'_flat, Multiset.coe_nil, Multiset.map_zero] <;> abel

theorem emit_up {n : ℕ} {sI sJ : List ℕ} {I J : Sct} {N : ℤ} {i j : ℕ} (hj : j < J.eigvals.length) (spins : ℕ × ℕ) :
    (↑(emitGf N i i spins (gf2Up n sI sJ I J spins (i, i)) j) : Multiset ((NId × NId) × NGf)).map spinless =
      {spinless (((N + 1, j), (N, i)), element n sI sJ I J j i true spins.2)} + {spinless (((N, i), (N + 1, j)), element n sI sJ I J j i false spins.1)} := by
  simp only [emitGf, gf2Up, if_true, List.getElem?_map, List.getElem?_range hj, List.getElem?_eq_getElem hj, Option.map_some, Option.getD_some, element]
  rfl

theorem emit_down {n : ℕ} {sK sI : List ℕ} {K I : Sct} {N : ℤ} {i k : ℕ} (hk : k < K.eigvals.length) (spins : ℕ × ℕ) :
    (↑(emitGf (N + 1) i i spins (gf2Down n sK sI K I (spins.2, spins.1) (i, i)) k) : Multiset ((NId × NId) × NGf)).map spinless =
      {spinless (((N + 1, i), (N, k)), element n sK sI K I i k true spins.2)} + {spinless (((N, k), (N + 1, i)), element n sK sI K I i k false spins.1)} := by
  have h1 : N + 1 - 1 = N := by ring
  simp only [emitGf, gf2Down, Bool.false_eq_true, if_false, List.getElem?_map, List.getElem?_range hk, List.getElem?_eq_getElem hk, Option.map_some, Option.getD_some, element, h1]
  rfl

theorem emitSigma_flat {n : ℕ} {sK sI sJ : List ℕ} {K I J : Sct} {N : ℕ} (f i : ℕ) (spins : ℕ × ℕ) :
    (emitSigma ((((N : ℤ), f), ((N : ℤ), i)), sigmaOf n sK sI sJ K I J N spins (f, i))).map spinless = if f = i then
      (if (N : ℤ) + 1 < 2 * n then ∑ j ∈ Finset.range J.eigvals.length, ({spinless ((((N : ℤ) + 1, j), ((N : ℤ), i)), element n sI sJ I J j i true spins.2)} +
        {spinless ((((N : ℤ), i), ((N : ℤ) + 1, j)), element n sI sJ I J j i false spins.1)}) else 0) +
      (if (N : ℤ) - 1 > 0 then ∑ k ∈ Finset.range K.eigvals.length, ({spinless ((((N : ℤ) - 1 + 1, i), ((N : ℤ) - 1, k)), element n sK sI K I i k true spins.2)} +
        {spinless ((((N : ℤ) - 1, k), ((N : ℤ) - 1 + 1, i)), element n sK sI K I i k false spins.1)}) else 0) else 0 := by
  unfold emitSigma
  by_cases hfi : f = i
  · subst hfi
    rw [if_neg (by simp), if_pos rfl]
    have hu : (((List.range (gf2Up n sI sJ I J spins (f, f)).vI.length).map fun j => (↑(emitGf N f f spins (gf2Up n sI sJ I J spins (f, f)) j) : Multiset ((NId × NId) × NGf))).sum).map spinless
        = ∑ j ∈ Finset.range J.eigvals.length, ({spinless ((((N : ℤ) + 1, j), ((N : ℤ), f)), element n sI sJ I J j f true spins.2)} +
        {spinless ((((N : ℤ), f), ((N : ℤ) + 1, j)), element n sI sJ I J j f false spins.1)}) := by
      rw [range_sum, map_sum']
      have : (gf2Up n sI sJ I J spins (f, f)).vI.length = J.eigvals.length := by simp [gf2Up]
      rw [this]
      exact Finset.sum_congr rfl fun j hj => emit_up (Finset.mem_range.mp hj) spins
    have hd : (((List.range (gf2Down n sK sI K I (spins.2, spins.1) (f, f)).vI.length).map fun j =>
        (↑(emitGf N f f spins (gf2Down n sK sI K I (spins.2, spins.1) (f, f)) j) : Multiset ((NId × NId) × NGf))).sum).map spinless
        = ∑ k ∈ Finset.range K.eigvals.length, ({spinless ((((N : ℤ) - 1 + 1, f), ((N : ℤ) - 1, k)), element n sK sI K I f k true spins.2)} +
        {spinless ((((N : ℤ) - 1, k), ((N : ℤ) - 1 + 1, f)), element n sK sI K I f k false spins.1)}) := by
      rw [range_sum, map_sum']
      have : (gf2Down n sK sI K I (spins.2, spins.1) (f, f)).vI.length = K.eigvals.length := by simp [gf2Down]
      rw [this]
      refine Finset.sum_congr rfl fun k hk => ?_
      have e : (N : ℤ) = (N : ℤ) - 1 + 1 := by ring
      have := emit_down (n := n) (sK := sK) (sI := sI) (K := K) (I := I) (N := (N : ℤ) - 1) (i := f) (Finset.mem_range.mp hk) spins
      rw [← e] at this
      rw [this, ← e]
    unfold sigmaOf
    by_cases c1 : (N : ℤ) + 1 < 2 * n <;> by_cases c2 : (N : ℤ) - 1 > 0
    · simp only [c1, c2, if_true, List.map_append, List.map_cons, List.map_nil, List.sum_append, List.sum_cons, List.sum_nil, add_zero, Multiset.map_add, hu, hd]
    · simp only [c1, c2, if_true, if_false, List.append_nil, List.map_cons, List.map_nil, List.sum_cons, List.sum_nil, add_zero, hu]
    · simp only [c1, c2, if_true, if_false, List.nil_append, List.map_cons, List.map_nil, List.sum_cons, List.sum_nil, add_zero, zero_add, hd]
    · simp only [c1, c2, if_false, List.append_nil, List.map_nil, List.sum_nil, Multiset.map_zero, add_zero]
  · rw [if_pos (by simpa using fun h => hfi h.symm), if_neg hfi, Multiset.map_zero]

theorem mem_list_sum {α : Type} (l : List (Multiset α)) {q : α} (h : q ∈ l.sum) : ∃ A ∈ l, q ∈ A := by
  induction l with
  | nil => simp at h
  | cons B l ih =>
    rw [List.sum_cons, Multiset.mem_add] at h
    rcases h with h | h
    · exact ⟨B, by simp, h⟩
    · obtain ⟨A, hA, hq⟩ := ih h
      exact ⟨A, by simp [hA], hq⟩

theorem sum_map_spinless (A : Multiset (Multiset ((NId × NId) × NGf))) : A.sum.map spinless = (A.map fun x => x.map spinless).sum :=
  map_multiset_sum (Multiset.mapAddMonoidHom spinless) A

theorem sectors_of {n N : ℕ} {es : Espace ℕ} (hes : NEspaceOk n es) (hN : N ≤ 2 * n) : ∃ K I J sK sI sJ, (dictGet es N = .ok I ∧ NSctOk n N I sI) ∧
    ((N : ℤ) + 1 < 2 * n → dictGet es (N + 1) = .ok J ∧ NSctOk n (N + 1) J sJ) ∧ ((N : ℤ) - 1 > 0 → dictGet es (N - 1) = .ok K ∧ NSctOk n (N - 1) K sK) := by
  obtain ⟨I, sI, gI, hI⟩ := hes N hN
  obtain ⟨K, sK, gK, hK⟩ := hes (N - 1) (by omega)
  by_cases h : (N : ℤ) + 1 < 2 * n
  · obtain ⟨J, sJ, gJ, hJ⟩ := hes (N + 1) (by omega)
    exact ⟨K, I, J, sK, sI, sJ, ⟨gI, hI⟩, fun _ => ⟨gJ, hJ⟩, fun _ => ⟨gK, hK⟩⟩
  · exact ⟨K, I, I, sK, sI, [], ⟨gI, hI⟩, fun h' => absurd h' h, fun _ => ⟨gK, hK⟩⟩

theorem extract_double {junk n N : ℕ} (hn : 2 * n ≤ 32) {es : Espace ℕ} {K I J : Sct} {sK sI sJ : List ℕ}
    (hI : dictGet es N = .ok I ∧ NSctOk n N I sI) (hJ : (N : ℤ) + 1 < 2 * n → dictGet es (N + 1) = .ok J ∧ NSctOk n (N + 1) J sJ)
    (hK : (N : ℤ) - 1 > 0 → dictGet es (N - 1) = .ok K ∧ NSctOk n (N - 1) K sK) (egs : Option ℝ) :
    ∃ sd gd, cotnlBuild junk n es (some (N : ℤ)) egs none = .ok sd ∧ nExtract sd = .ok gd ∧ (∀ p ∈ gd, p.2 ≠ []) ∧
      (flatD gd).map spinless = (↑(allPairs n sK sI sJ K I J N) : Multiset ((NId × NId) × NGf)).map spinless +
        (↑(allPairs n sK sI sJ K I J N) : Multiset ((NId × NId) × NGf)).map spinless ∧ flatD gd = ((flatD sd).map emitSigma).sum := by
  obtain ⟨sd, hsd, hnd, hfl⟩ := cotnlBuild_flat (junk := junk) hn hI hJ hK egs
  have hmem : ∀ q ∈ flatD sd, ∃ spins fi, q.2 = sigmaOf n sK sI sJ K I J N spins fi := by
    rw [hfl]
    intro q hq
    obtain ⟨A, hA, hq⟩ := mem_list_sum _ hq
    obtain ⟨spins, -, rfl⟩ := List.mem_map.mp hA
    split at hq
    · obtain ⟨fi, -, rfl⟩ := List.mem_map.mp hq
      exact ⟨spins, fi, rfl⟩
    · simp at hq
  obtain ⟨gd, h1, h2, h3⟩ := nExtract_flat (sd := sd) (fun p hp s hs g hg => by
    obtain ⟨spins, fi, h⟩ := hmem (p.1, s) (by
      unfold flatD
      rw [Multiset.mem_coe, List.mem_flatMap]
      exact ⟨p, hp, List.mem_map.mpr ⟨s, hs, rfl⟩⟩)
    simp only at h
    rw [h] at hg
    unfold sigmaOf at hg
    rcases List.mem_append.mp hg with hg | hg <;> split at hg
    · rw [List.mem_singleton.mp hg]; exact ⟨by simp [gf2Up], by simp [gf2Up]⟩
    · simp at hg
    · rw [List.mem_singleton.mp hg]; exact ⟨by simp [gf2Down], by simp [gf2Down]⟩
    · simp at hg)
  refine ⟨sd, gd, hsd, h1, h2, ?_, h3⟩
  rw [h3, sum_map_spinless, Multiset.map_map, hfl, allPairs_flat]
  have hspin : ∀ spins : ℕ × ℕ, (((if (N : ℤ) + 1 < 2 * n ∨ (N : ℤ) - 1 > 0 then (↑((ndindex2 I.eigvals.length I.eigvals.length).map fun fi =>
        ((((N : ℤ), fi.1), ((N : ℤ), fi.2)), sigmaOf n sK sI sJ K I J N spins fi)) : Multiset ((NId × NId) × NSigma)) else 0).map
        ((fun x => x.map spinless) ∘ emitSigma)).sum) =
      (if (N : ℤ) + 1 < 2 * n then pairSum n sI sJ I J N true spins.2 + pairSum n sI sJ I J N false spins.1 else 0) +
      if (N : ℤ) - 1 > 0 then pairSum n sK sI K I (N - 1) true spins.2 + pairSum n sK sI K I (N - 1) false spins.1 else 0 := by
    intro spins
    by_cases c : (N : ℤ) + 1 < 2 * n ∨ (N : ℤ) - 1 > 0
    · rw [if_pos c, Multiset.map_coe, Multiset.sum_coe, List.map_map, ndindex2_sum]
      have : ∀ f i : ℕ, (((fun x => x.map spinless) ∘ emitSigma) ∘ fun fi : ℕ × ℕ => ((((N : ℤ), fi.1), ((N : ℤ), fi.2)), sigmaOf n sK sI sJ K I J N spins fi)) (f, i)
          = _ := fun f i => emitSigma_flat f i spins
      simp only [this]
      rw [Finset.sum_comm]
      simp only [Finset.sum_ite_eq', Finset.mem_range]
      rw [Finset.sum_congr rfl (fun i hi => if_pos (Finset.mem_range.mp hi)), Finset.sum_add_distrib]
      congr 1
      · split
        · simp only [Finset.sum_add_distrib]
          rfl
        · simp
      · split
        · simp only [Finset.sum_add_distrib]
          rw [Finset.sum_comm, Finset.sum_comm (s := Finset.range I.eigvals.length)]
          rfl
        · simp
    · obtain ⟨c1, c2⟩ := not_or.mp c
      rw [if_neg c, if_neg c1, if_neg c2]
      simp
  have hl : ndindex2 2 2 = [(0, 0), (0, 1), (1, 0), (1, 1)] := rfl
  rw [hl]
  simp only [List.map_cons, List.map_nil, List.sum_cons, List.sum_nil, add_zero, Multiset.map_add, Multiset.sum_add, hspin]
  by_cases c1 : (N : ℤ) + 1 < 2 * n <;> by_cases c2 : (N : ℤ) - 1 > 0 <;>
    simp only [c1, c2, if_true, if_false] <;> abel

/-! ### The matrices -/

/-- The contribution of one element to the rate of a lead. -/
noncomputable def ratePart (beta : ℝ) (mu : List ℝ) (A : List (List ℝ)) (lead : ℕ) (g : NGf) : ℝ :=
  match sqtnlGamma [g] beta mu A lead with | .ok x => x | .error _ => 0

theorem ratePart_spinless (beta : ℝ) (mu : List ℝ) (A : List (List ℝ)) (lead : ℕ) (q : (NId × NId) × NGf) :
    ratePart beta mu A lead (spinless q).2 = ratePart beta mu A lead q.2 := rfl

theorem sqtnlGamma_sum {l : List NGf} {beta : ℝ} {mu : List ℝ} {A : List (List ℝ)} {lead : ℕ} {γ : ℝ} (h : sqtnlGamma l beta mu A lead = .ok γ) :
    γ = (l.map (ratePart beta mu A lead)).sum := by
  have key : ∀ (l : List NGf) (γ0 γ : ℝ), forM' (fun γ g => do
      let a ← getItem A lead
      let m ← getItem mu lead
      let x ← g.call a beta m
      pure (γ + x)) l γ0 = .ok γ → γ = γ0 + (l.map (ratePart beta mu A lead)).sum := by
    intro l
    induction l with
    | nil => intro γ0 γ h; simp only [forM', Except.ok.injEq] at h; simp [h]
    | cons g l ih =>
      intro γ0 γ h
      rw [forM'] at h
      cases h1 : getItem A lead with
      | error e => simp [h1, bind, Except.bind] at h
      | ok a =>
        cases h2 : getItem mu lead with
        | error e => simp [h1, h2, bind, Except.bind] at h
        | ok m =>
          cases h3 : g.call a beta m with
          | error e => simp [h1, h2, h3, bind, Except.bind] at h
          | ok x =>
            have hr : ratePart beta mu A lead g = x := by
              unfold ratePart sqtnlGamma
              simp [forM', h1, h2, h3, bind, Except.bind, pure, Except.pure]
            simp only [h1, h2, h3, bind, Except.bind, pure, Except.pure] at h
            have := ih _ _ (by simpa only [h1, h2, bind, Except.bind, pure, Except.pure] using h)
            rw [this, List.map_cons, List.sum_cons, hr]
            ring
  have := key l 0 γ h
  rwa [zero_add] at this

/-- The transition adds an electron. -/
def isUp (k : NId × NId) : Bool := decide (k.2.1 < k.1.1)

/-- Whether the electron is added or removed is determined by the states, which differ, and no list is empty. -/
structure SeqDict (gd : List ((NId × NId) × List NGf)) : Prop where
  ne : ∀ p ∈ gd, p.2 ≠ []
  el : ∀ q ∈ flatD gd, q.2.el = isUp q.1
  off : ∀ q ∈ flatD gd, q.1.1 ≠ q.1.2

theorem mem_flatD {κ α : Type} {D : List (κ × List α)} {q : κ × α} : q ∈ flatD D ↔ ∃ p ∈ D, p.1 = q.1 ∧ q.2 ∈ p.2 := by
  unfold flatD
  rw [Multiset.mem_coe, List.mem_flatMap]
  constructor
  · rintro ⟨p, hp, h⟩
    obtain ⟨x, hx, rfl⟩ := List.mem_map.mp h
    exact ⟨p, hp, rfl, hx⟩
  · rintro ⟨p, hp, h1, h2⟩
    exact ⟨p, hp, List.mem_map.mpr ⟨q.2, h2, by rw [h1]⟩⟩

theorem seq_ids {gd : List ((NId × NId) × List NGf)} (hg : SeqDict gd) (k : NId × NId) : k ∈ gd.map Prod.fst ↔ ∃ q ∈ flatD gd, q.1 = k := by
  constructor
  · intro h
    obtain ⟨p, hp, rfl⟩ := List.mem_map.mp h
    obtain ⟨x, hx⟩ := List.exists_mem_of_ne_nil _ (hg.ne p hp)
    exact ⟨(p.1, x), mem_flatD.mpr ⟨p, hp, rfl, hx⟩, rfl⟩
  · rintro ⟨q, hq, rfl⟩
    obtain ⟨p, hp, h1, -⟩ := mem_flatD.mp hq
    exact List.mem_map.mpr ⟨p, hp, h1⟩

theorem sum_flat_add (gd : List ((NId × NId) × List NGf)) (φ : (NId × NId) × NGf → ℝ) (p : (NId × NId) × List NGf) :
    ((flatD (p :: gd)).map φ).sum = (p.2.map fun x => φ (p.1, x)).sum + ((flatD gd).map φ).sum := by
  rw [flatD_cons, Multiset.map_add, Multiset.sum_add, Multiset.map_coe, Multiset.sum_coe, List.map_map]
  rfl

theorem sqtnl_weights {beta : ℝ} {mu : List ℝ} {A : List (List ℝ)} {inject : ℕ} (hi : inject < 2) : ∀ {gd : List ((NId × NId) × List NGf)} (_ : SeqDict gd) {st st' : NState},
    forM' (sqtnlStep beta mu A inject) gd st = .ok st' → (st.W.map Prod.fst).Nodup → (st.T.map Prod.fst).Nodup → ∀ w : NId × NId → ℝ,
      wsum w st'.W = wsum w st.W + ((flatD gd).map fun q => (ratePart beta mu A 0 q.2 + ratePart beta mu A 1 q.2) * (w q.1 - w (q.1.2, q.1.2))).sum ∧
      wsum w st'.T = wsum w st.T + ((flatD gd).map fun q => w q.1 * (if q.2.el then -ratePart beta mu A inject q.2 else ratePart beta mu A inject q.2)).sum ∧
      (∀ x, x ∈ matrixIds st'.W ↔ x ∈ matrixIds st.W ∨ ∃ q ∈ flatD gd, q.1.1 = x ∨ q.1.2 = x) := by
  intro gd
  induction gd with
  | nil =>
    intro _ st st' h _ _ w
    simp only [forM', Except.ok.injEq] at h
    subst h
    simp [flatD_nil]
  | cons p gd ih =>
    intro hg st st' h hW hT w
    have hg' : SeqDict gd := ⟨fun q hq => hg.ne q (by simp [hq]), fun q hq => hg.el q (by rw [flatD_cons]; exact Multiset.mem_add.mpr (Or.inr hq)),
      fun q hq => hg.off q (by rw [flatD_cons]; exact Multiset.mem_add.mpr (Or.inr hq))⟩
    have hne := hg.ne p (by simp)
    have hmem : ∀ g ∈ p.2, (p.1, g) ∈ flatD (p :: gd) := fun g hg' => mem_flatD.mpr ⟨p, by simp, rfl, hg'⟩
    have hoff : p.1.1 ≠ p.1.2 := hg.off (p.1, p.2.getLast hne) (hmem _ (List.getLast_mem hne))
    have hel : ∀ g ∈ p.2, g.el = isUp p.1 := fun g hg' => hg.el _ (hmem g hg')
    rw [forM'] at h
    cases hb : sqtnlStep beta mu A inject st p with
    | error e => simp [hb, bind, Except.bind] at h
    | ok s1 =>
      rw [hb] at h
      unfold sqtnlStep at hb
      cases h1 : sqtnlGamma p.2 beta mu A 0 with
      | error e => simp [h1, bind, Except.bind] at hb
      | ok g0 =>
        cases h2 : sqtnlGamma p.2 beta mu A 1 with
        | error e => simp [h1, h2, bind, Except.bind] at hb
        | ok g1 =>
          have hgi : getItem [g0, g1] (inject : ℤ) = .ok ((p.2.map (ratePart beta mu A inject)).sum) := by
            rw [getItem_natCast _ _ (by simpa using hi)]
            congr 1
            interval_cases inject
            · exact sqtnlGamma_sum h1
            · exact sqtnlGamma_sum h2
          have hlast : p.2.getLast? = some (p.2.getLast hne) := List.getLast?_eq_some_getLast hne
          simp only [h1, h2, hgi, hlast, bind, Except.bind, pure, Except.pure, Except.ok.injEq, hel _ (List.getLast_mem hne)] at hb
          subst hb
          have nW : (((addRate st.W p.1 (g0 + g1))).map Prod.fst).Nodup := by
            unfold addRate
            rw [if_pos hoff]
            exact nodup_dictSet (nodup_dictSet hW _ _) _ _
          have nT : ∀ v : ℝ, ((dictAdd st.T p.1 v).map Prod.fst).Nodup := fun v => nodup_dictSet hT _ _
          obtain ⟨i1, i2, i3⟩ := ih hg' h nW (nT _) w
          refine ⟨?_, ?_, fun x => ?_⟩
          · rw [i1, sum_flat_add]
            simp only
            unfold addRate
            rw [if_pos hoff, wsum_dictAdd _ (show ((dictAdd st.W (p.1.2, p.1.2) (-(g0 + g1))).map Prod.fst).Nodup from nodup_dictSet hW _ _), wsum_dictAdd _ hW, List.sum_map_mul_right, List.sum_map_add, ← sqtnlGamma_sum h1, ← sqtnlGamma_sum h2]
            ring
          · rw [i2, sum_flat_add]
            simp only
            rw [wsum_dictAdd _ hT, List.sum_map_mul_left]
            have : (p.2.map fun x : NGf => if x.el = true then -ratePart beta mu A inject x else ratePart beta mu A inject x).sum
                = if isUp p.1 = true then -(p.2.map (ratePart beta mu A inject)).sum else (p.2.map (ratePart beta mu A inject)).sum := by
              rw [List.map_congr_left (g := fun x => (if isUp p.1 = true then -1 else 1) * ratePart beta mu A inject x) (fun x hx => by rw [hel x hx]; split <;> ring),
                List.sum_map_mul_left]
              split <;> ring
            rw [this]
            ring
          · rw [i3]
            simp only
            rw [mem_matrixIds_addRate hoff]
            constructor
            · rintro ((h | h) | ⟨q, hq, h⟩)
              · exact .inr ⟨(p.1, p.2.getLast hne), hmem _ (List.getLast_mem hne), h⟩
              · exact .inl h
              · exact .inr ⟨q, by rw [flatD_cons]; exact Multiset.mem_add.mpr (Or.inr hq), h⟩
            · rintro (h | ⟨q, hq, h⟩)
              · exact .inl (.inr h)
              · rw [flatD_cons] at hq
                rcases Multiset.mem_add.mp hq with hq | hq
                · obtain ⟨x, -, rfl⟩ := List.mem_map.mp hq
                  exact .inl (.inl h)
                · exact .inr ⟨q, hq, h⟩

theorem dictToMatrix_wsum (D : List ((NId × NId) × ℝ)) (a b : ℕ) :
    dictToMatrix D a b = wsum (fun k => if a = (matrixIds D).idxOf k.1 ∧ b = (matrixIds D).idxOf k.2 then 1 else 0) D := by
  rw [dictToMatrix_eq]
  unfold wsum
  congr 1
  refine List.map_congr_left fun p _ => ?_
  simp only [ite_mul, one_mul, zero_mul]

/-- Two dictionaries of sequential elements give the same matrices up to a factor of two if the second has each element twice, whatever
its label of spin. -/
theorem matrices_double {beta : ℝ} {mu : List ℝ} {A : List (List ℝ)} {inject : ℕ} (hi : inject < 2) {gd gd' : List ((NId × NId) × List NGf)}
    (hg : SeqDict gd) (hg' : SeqDict gd') (hd : (flatD gd').map spinless = (flatD gd).map spinless + (flatD gd).map spinless) {st st' : NState}
    (h : sqtnlDicts gd beta mu A inject = .ok st) (h' : sqtnlDicts gd' beta mu A inject = .ok st') :
    matrixIds st'.W = matrixIds st.W ∧ matrixIds st'.T = matrixIds st.T ∧ (∀ a b, dictToMatrix st'.W a b = 2 * dictToMatrix st.W a b) ∧
      ∀ a b, dictToMatrix st'.T a b = 2 * dictToMatrix st.T a b := by
  have hoff : ∀ {gd : List ((NId × NId) × List NGf)}, SeqDict gd → ∀ p ∈ gd, p.1.1 ≠ p.1.2 := by
    intro gd hg p hp
    obtain ⟨q, hq, h⟩ := (seq_ids hg p.1).mp (List.mem_map.mpr ⟨p, hp, rfl⟩)
    rw [← h]
    exact hg.off q hq
  have t := C79_sqtnl (hoff hg) h
  have t' := C79_sqtnl (hoff hg') h'
  have unf : ∀ {gd : List ((NId × NId) × List NGf)} {st : NState}, sqtnlDicts gd beta mu A inject = .ok st →
      forM' (sqtnlStep beta mu A inject) gd ⟨[], [], none⟩ = .ok st := by
    intro gd st h
    unfold sqtnlDicts at h
    cases h0 : checkElements gd with
    | error e => simp [h0, bind, Except.bind] at h
    | ok u => rw [h0] at h; exact h
  have w1 := sqtnl_weights hi hg (unf h) (by simp) (by simp)
  have w2 := sqtnl_weights hi hg' (unf h') (by simp) (by simp)
  have hids : matrixIds st'.W = matrixIds st.W := by
    refine matrixIds_ext fun x => ?_
    rw [(w1 fun _ => 0).2.2, (w2 fun _ => 0).2.2]
    have key : ∀ gd : List ((NId × NId) × List NGf), (∃ q ∈ flatD gd, q.1.1 = x ∨ q.1.2 = x) ↔ ∃ q ∈ (flatD gd).map spinless, q.1.1 = x ∨ q.1.2 = x := by
      intro gd
      constructor
      · rintro ⟨q, hq, h⟩
        exact ⟨spinless q, Multiset.mem_map.mpr ⟨q, hq, rfl⟩, h⟩
      · rintro ⟨q, hq, h⟩
        obtain ⟨q', hq', rfl⟩ := Multiset.mem_map.mp hq
        exact ⟨q', hq', h⟩
    rw [key, key, hd]
    simp only [Multiset.mem_add, or_self]
  have hsum : ∀ φ : (NId × NId) × NGf → ℝ, (∀ q, φ (spinless q) = φ q) → ((flatD gd').map φ).sum = 2 * ((flatD gd).map φ).sum := by
    intro φ hφ
    have e : ∀ m : Multiset ((NId × NId) × NGf), (m.map φ).sum = ((m.map spinless).map φ).sum := by
      intro m
      rw [Multiset.map_map]
      congr 1
      exact Multiset.map_congr rfl fun q _ => (hφ q).symm
    rw [e, hd, Multiset.map_add, Multiset.sum_add, ← e, two_mul]
  have z : ∀ w : NId × NId → ℝ, wsum w ([] : List ((NId × NId) × ℝ)) = 0 := fun w => rfl
  refine ⟨hids, by rw [← t, ← t', hids], fun a b => ?_, fun a b => ?_⟩
  · rw [dictToMatrix_wsum, dictToMatrix_wsum, hids, (w1 _).1, (w2 _).1, z, zero_add, zero_add]
    exact hsum _ fun q => rfl
  · rw [dictToMatrix_wsum, dictToMatrix_wsum, ← t, ← t', hids, (w1 _).2.1, (w2 _).2.1, z, zero_add, zero_add]
    exact hsum _ fun q => rfl

theorem allPairs_el {n N : ℕ} {sK sI sJ : List ℕ} {K I J : Sct} {q : (NId × NId) × NGf} (h : q ∈ allPairs n sK sI sJ K I J N) :
    q.2.el = isUp q.1 ∧ q.1.1 ≠ q.1.2 := by
  unfold allPairs at h
  obtain ⟨s, -, h⟩ := List.mem_flatMap.mp h
  have key : ∀ (sI sJ : List ℕ) (I J : Sct) (N : ℤ), q ∈ pairList n sI sJ I J N s ∨ q ∈ pairList' n sI sJ I J N s → q.2.el = isUp q.1 ∧ q.1.1 ≠ q.1.2 := by
    intro sI sJ I J N h
    have h : q ∈ pairList n sI sJ I J N s := by
      rcases h with h | h
      · exact h
      · unfold pairList' at h
        unfold pairList
        rw [List.mem_append] at h ⊢
        exact h.symm
    unfold pairList at h
    rcases List.mem_append.mp h with h | h <;> obtain ⟨x, -, rfl⟩ := List.mem_map.mp h <;> simp [element, isUp]
  rcases List.mem_append.mp h with h | h <;> split at h
  · exact key _ _ _ _ _ (.inl h)
  · simp at h
  · exact key _ _ _ _ _ (.inr h)
  · simp at h

/-- Building the matrices succeeds for dictionaries whose elements are those of the sequential code up to labels of spin. -/
theorem dicts_exist {n N : ℕ} {sK sI sJ : List ℕ} {K I J : Sct} {gd : List ((NId × NId) × List NGf)} (hne : ∀ p ∈ gd, p.2 ≠ [])
    (hmem : ∀ q, q ∈ (flatD gd).map spinless ↔ q ∈ (↑(allPairs n sK sI sJ K I J N) : Multiset ((NId × NId) × NGf)).map spinless) :
    SeqDict gd ∧ ∀ (beta : ℝ) {mu : List ℝ} {A : List (List ℝ)} (_ : mu.length = 2) (_ : A.length = 2) (_ : ∀ a ∈ A, a.length = n) {inject : ℕ} (_ : inject < 2),
      ∃ st, sqtnlDicts gd beta mu A inject = .ok st := by
  have hex : ∀ q ∈ flatD gd, ∃ q' ∈ allPairs n sK sI sJ K I J N, spinless q' = spinless q := by
    intro q hq
    obtain ⟨q', hq', h⟩ := Multiset.mem_map.mp ((hmem _).mp (Multiset.mem_map.mpr ⟨q, hq, rfl⟩))
    exact ⟨q', hq', h⟩
  have hkey : ∀ k, (∃ q ∈ flatD gd, q.1 = k) ↔ k ∈ (allPairs n sK sI sJ K I J N).map Prod.fst := by
    intro k
    constructor
    · rintro ⟨q, hq, rfl⟩
      obtain ⟨q', hq', h⟩ := hex q hq
      exact List.mem_map.mpr ⟨q', hq', (Prod.ext_iff.mp h).1⟩
    · intro h
      obtain ⟨q', hq', rfl⟩ := List.mem_map.mp h
      obtain ⟨q, hq, h⟩ := Multiset.mem_map.mp ((hmem _).mpr (Multiset.mem_map.mpr ⟨q', hq', rfl⟩))
      exact ⟨q, hq, (Prod.ext_iff.mp h).1⟩
  have hg : SeqDict gd := by
    refine ⟨hne, fun q hq => ?_, fun q hq => ?_⟩ <;> obtain ⟨q', hq', h⟩ := hex q hq
    · have := (allPairs_el hq').1
      have e1 : q'.1 = q.1 := (Prod.ext_iff.mp h).1
      have e2 : q'.2.el = q.2.el := congrArg (fun p => p.2.el) h
      rw [← e1, ← e2]; exact this
    · have := (allPairs_el hq').2
      have e1 : q'.1 = q.1 := (Prod.ext_iff.mp h).1
      rw [← e1]; exact this
  refine ⟨hg, fun beta mu A hmu hA hA' inject hi => ?_⟩
  have hchk : checkElements gd = .ok () := by
    unfold checkElements
    rw [if_pos]
    rw [List.all_eq_true]
    intro i hi
    obtain ⟨p, hp, rfl⟩ := List.mem_map.mp hi
    rw [decide_eq_true_eq]
    have h1 := (hkey p.1).mp ((seq_ids hg p.1).mp (List.mem_map.mpr ⟨p, hp, rfl⟩))
    have h2 := (seq_ids hg _).mpr ((hkey _).mpr (allPairs_symm h1))
    obtain ⟨p', hp', he⟩ := List.mem_map.mp h2
    exact List.mem_map.mpr ⟨p', hp', by rw [he]⟩
  unfold sqtnlDicts
  rw [hchk]
  refine forM'_exists (fun st p hp => ?_) _
  have hlen : ∀ g ∈ p.2, g.v.length = n := by
    intro g hgp
    obtain ⟨q', hq', h⟩ := hex (p.1, g) (mem_flatD.mpr ⟨p, hp, rfl, hgp⟩)
    have e : q'.2.v = g.v := congrArg (fun p => p.2.v) h
    rw [← e]
    exact allPairs_length hq'
  obtain ⟨g0, h0⟩ := sqtnlGamma_ok hlen beta hmu hA hA' (show 0 < 2 by norm_num)
  obtain ⟨g1, h1⟩ := sqtnlGamma_ok hlen beta hmu hA hA' (show 1 < 2 by norm_num)
  unfold sqtnlStep
  rw [h0, h1]
  have hlast : p.2.getLast? = some (p.2.getLast (hne p hp)) := List.getLast?_eq_some_getLast (hne p hp)
  simp only [bind, Except.bind, getItem_natCast [g0, g1] inject (by simpa using hi), hlast, pure, Except.pure]
  exact ⟨_, rfl⟩

/-- C140, part that holds: for every complete spectrum, number of electrons, temperature, chemical potentials and couplings, extracting
the sequential elements from those of cotunnelling succeeds, and the matrices built from them have the same states and are exactly twice
those of `build_transition_elements`. Missing: the factor two should be one (`C140_refuted`). -/
theorem C140_double_partial {junk n N : ℕ} (hn : 2 * n ≤ 32) {es : Espace ℕ} (hes : NEspaceOk n es) (hN : N ≤ 2 * n) (egs : Option ℝ) (beta : ℝ)
    {mu : List ℝ} {A : List (List ℝ)} (hmu : mu.length = 2) (hA : A.length = 2) (hA' : ∀ a ∈ A, a.length = n) {inject : ℕ} (hi : inject < 2) :
    ∃ gd sd gd' st st', sqtnlBuild junk n es (some (N : ℤ)) egs = .ok gd ∧ cotnlBuild junk n es (some (N : ℤ)) egs none = .ok sd ∧ nExtract sd = .ok gd' ∧
      sqtnlDicts gd beta mu A inject = .ok st ∧ sqtnlDicts gd' beta mu A inject = .ok st' ∧ matrixIds st'.W = matrixIds st.W ∧
      matrixIds st'.T = matrixIds st.T ∧ (∀ a b, dictToMatrix st'.W a b = 2 * dictToMatrix st.W a b) ∧ ∀ a b, dictToMatrix st'.T a b = 2 * dictToMatrix st.T a b := by
  obtain ⟨K, I, J, sK, sI, sJ, hI, hJ, hK⟩ := sectors_of hes hN
  have hb := sqtnlBuild_eq (junk := junk) hn hI hJ hK egs
  obtain ⟨sd, gd', h1, h2, hne', hd, -⟩ := extract_double (junk := junk) hn hI hJ hK egs
  set l := allPairs n sK sI sJ K I J N with hl
  set gd := (l.foldl appendN []).mergeSort fun a b => leNN a.1 b.1 with hgd
  have hne : ∀ p ∈ gd, p.2 ≠ [] := fun x hx =>
    (foldl_appendN_lists (fun g : NGf => g.v.length = n) l (fun p hp => allPairs_length hp) [] (by simp) x ((List.mergeSort_perm _ _).mem_iff.mp hx)).1
  have hfl : flatD gd = ↑l := by rw [hgd, flatD_perm (List.mergeSort_perm _ _), flatD_foldl_appendN l [] (by simp), flatD_nil, zero_add]
  obtain ⟨s1, e1⟩ := dicts_exist (n := n) (N := N) (sK := sK) (sI := sI) (sJ := sJ) (K := K) (I := I) (J := J) hne (fun q => by rw [hfl])
  obtain ⟨s2, e2⟩ := dicts_exist (n := n) (N := N) (sK := sK) (sI := sI) (sJ := sJ) (K := K) (I := I) (J := J) hne' (fun q => by rw [hd, Multiset.mem_add, or_self])
  obtain ⟨st, hst⟩ := e1 beta hmu hA hA' hi
  obtain ⟨st', hst'⟩ := e2 beta hmu hA hA' hi
  exact ⟨gd, sd, gd', st, st', hb, h1, h2, hst, hst', matrices_double hi s1 s2 (by rw [hfl]; exact hd) hst hst'⟩

/-! ### Refutation -/

theorem gs42 : gs 32 4 2 = [3, 5, 6, 9, 10, 12] := by decide
theorem gs43 : gs 32 4 3 = [7, 11, 13, 14] := by decide

/-- The sector of `oneState`. -/
noncomputable def oneSct (n N : ℕ) : Sct := ⟨.total (gs 32 (2 * n) N), (gs 32 (2 * n) N).length, [(N : ℝ)], [fun k => if k = 0 then 1 else 0]⟩

theorem oneSct_ok {n N : ℕ} (hn : 2 * n ≤ 32) (hN : N ≤ 2 * n) : NSctOk n N (oneSct n N) (gs 32 (2 * n) N) :=
  ⟨rfl, sectorList_of_generate hn hn hN (generateStates_gs hN), rfl⟩

theorem oneSct_amp : amplitude 2 (gs 32 4 2) (gs 32 4 3) (oneSct 2 2) (oneSct 2 3) 0 0 1 0 = 1 := by
  have hI : NSctOk 2 2 (oneSct 2 2) (gs 32 4 2) := oneSct_ok (n := 2) (by norm_num) (by norm_num)
  have hJ : NSctOk 2 3 (oneSct 2 3) (gs 32 4 3) := oneSct_ok (n := 2) (by norm_num) (by norm_num)
  have h := amp_cdg (junk := 0) (spin := 1) (x := 0) (by norm_num) (by norm_num) (by norm_num) hI hJ
  have e : ∃ M, nProject 0 1 0 .cdg 2 (oneSct 2 2) (oneSct 2 3) = .ok M ∧ M 0 0 = 1 := by
    unfold nProject
    have e1 : totalStates (oneSct 2 2).states = .ok [3, 5, 6, 9, 10, 12] := by
      rw [← gs42]; rfl
    have e2 : totalStates (oneSct 2 3).states = .ok [7, 11, 13, 14] := by
      rw [← gs43]; rfl
    have e3 : (oneSct 2 3).d = 4 := by
      change (gs 32 4 3).length = 4
      rw [gs43]; rfl
    rw [e1, e2]
    have a1 : Ladder.cdg.apply 3 (0 + 1 * 2) (2 * 2) = .ok (1, 7) := by decide
    have a2 : Ladder.cdg.apply 5 (0 + 1 * 2) (2 * 2) = .error .assertionError := by decide
    have a3 : Ladder.cdg.apply 6 (0 + 1 * 2) (2 * 2) = .error .assertionError := by decide
    have a4 : Ladder.cdg.apply 9 (0 + 1 * 2) (2 * 2) = .ok (-1, 13) := by decide
    have a5 : Ladder.cdg.apply 10 (0 + 1 * 2) (2 * 2) = .ok (-1, 14) := by decide
    have a6 : Ladder.cdg.apply 12 (0 + 1 * 2) (2 * 2) = .error .assertionError := by decide
    have b1 : pyIndex 4 (binsearch 0 [7, 11, 13, 14] 7) = .ok 0 := by decide +kernel
    have b2 : pyIndex 4 (binsearch 0 [7, 11, 13, 14] 13) = .ok 2 := by decide +kernel
    have b3 : pyIndex 4 (binsearch 0 [7, 11, 13, 14] 14) = .ok 3 := by decide +kernel
    have r6 : List.range [3, 5, 6, 9, 10, 12].length = [0, 1, 2, 3, 4, 5] := rfl
    have g : ∀ i : ℕ, i < 6 → getItem [3, 5, 6, 9, 10, 12] (i : ℤ) = .ok ([3, 5, 6, 9, 10, 12][i]!) := by decide
    have g0 := g 0 (by norm_num)
    have g1 := g 1 (by norm_num)
    have g2 := g 2 (by norm_num)
    have g3 := g 3 (by norm_num)
    have g4 := g 4 (by norm_num)
    have g5 := g 5 (by norm_num)
    simp only [bind, Except.bind, r6, forM', nProjectStep, g0, g1, g2, g3, g4, g5, List.getElem!_cons_zero, List.getElem!_cons_succ, a1, a2, a3, a4, a5, a6, e3, b1, b2, b3, pure, Except.pure]
    refine ⟨_, rfl, ?_⟩
    simp [oneSct]
  obtain ⟨M, h1, h2⟩ := e
  rw [h1, Except.ok.injEq] at h
  rw [h] at h2
  exact h2

theorem seq_build {junk n N : ℕ} (hn : 2 * n ≤ 32) {es : Espace ℕ} (hes : NEspaceOk n es) (hN : N ≤ 2 * n) {egs : Option ℝ} {gd : List ((NId × NId) × List NGf)}
    (h : sqtnlBuild junk n es (some (N : ℤ)) egs = .ok gd) : SeqDict gd := by
  obtain ⟨K, I, J, sK, sI, sJ, hI, hJ, hK⟩ := sectors_of hes hN
  have hb := sqtnlBuild_eq (junk := junk) hn hI hJ hK egs
  rw [h, Except.ok.injEq] at hb
  refine (dicts_exist (n := n) (N := N) (sK := sK) (sI := sI) (sJ := sJ) (K := K) (I := I) (J := J) (gd := gd) (fun x hx => ?_) (fun q => ?_)).1
  · rw [hb] at hx
    exact (foldl_appendN_lists (fun g : NGf => g.v.length = n) _ (fun p hp => allPairs_length hp) [] (by simp) x ((List.mergeSort_perm _ _).mem_iff.mp hx)).1
  · rw [hb, flatD_perm (List.mergeSort_perm _ _), flatD_foldl_appendN _ [] (by simp), flatD_nil, zero_add]

theorem ratePart_nonneg (beta : ℝ) (mu : List ℝ) (A : List (List ℝ)) (lead : ℕ) (g : NGf) : 0 ≤ ratePart beta mu A lead g := by
  unfold ratePart
  cases h : sqtnlGamma [g] beta mu A lead with
  | error e => exact le_refl _
  | ok x => exact sqtnlGamma_nonneg h

/-- A transition with a positive contribution gives a positive entry of the rate matrix. -/
theorem rate_pos {gd : List ((NId × NId) × List NGf)} (hg : SeqDict gd) {beta : ℝ} {mu : List ℝ} {A : List (List ℝ)} {inject : ℕ} (hi : inject < 2) {st : NState}
    (h : sqtnlDicts gd beta mu A inject = .ok st) {q : (NId × NId) × NGf} (hq : q ∈ flatD gd) (hp : 0 < ratePart beta mu A 0 q.2) :
    0 < dictToMatrix st.W ((matrixIds st.W).idxOf q.1.1) ((matrixIds st.W).idxOf q.1.2) := by
  have hf : forM' (sqtnlStep beta mu A inject) gd ⟨[], [], none⟩ = .ok st := by
    unfold sqtnlDicts at h
    cases h0 : checkElements gd with
    | error e => simp [h0, bind, Except.bind] at h
    | ok u => rw [h0] at h; exact h
  have w := sqtnl_weights hi hg hf (by simp) (by simp)
  have m1 : q.1.1 ∈ matrixIds st.W := ((w fun _ => 0).2.2 _).mpr (.inr ⟨q, hq, .inl rfl⟩)
  have hne : (matrixIds st.W).idxOf q.1.1 ≠ (matrixIds st.W).idxOf q.1.2 := fun h => hg.off q hq ((List.idxOf_inj m1).mp h)
  rw [dictToMatrix_wsum, (w _).1]
  have z : ∀ w : NId × NId → ℝ, wsum w ([] : List ((NId × NId) × ℝ)) = 0 := fun w => rfl
  rw [z, zero_add]
  set φ : (NId × NId) × NGf → ℝ := fun r => (ratePart beta mu A 0 r.2 + ratePart beta mu A 1 r.2) *
    ((if (matrixIds st.W).idxOf q.1.1 = (matrixIds st.W).idxOf r.1.1 ∧ (matrixIds st.W).idxOf q.1.2 = (matrixIds st.W).idxOf r.1.2 then (1 : ℝ) else 0) -
      (if (matrixIds st.W).idxOf q.1.1 = (matrixIds st.W).idxOf r.1.2 ∧ (matrixIds st.W).idxOf q.1.2 = (matrixIds st.W).idxOf r.1.2 then (1 : ℝ) else 0)) with hφ
  have h0 : ∀ r, 0 ≤ φ r := by
    intro r
    have hz : ¬ ((matrixIds st.W).idxOf q.1.1 = (matrixIds st.W).idxOf r.1.2 ∧ (matrixIds st.W).idxOf q.1.2 = (matrixIds st.W).idxOf r.1.2) :=
      fun hh => hne (hh.1.trans hh.2.symm)
    simp only [hφ, if_neg hz, sub_zero]
    refine mul_nonneg (add_nonneg (ratePart_nonneg _ _ _ _ _) (ratePart_nonneg _ _ _ _ _)) ?_
    split <;> norm_num
  have h1 : 0 < φ q := by
    have hz : ¬ ((matrixIds st.W).idxOf q.1.1 = (matrixIds st.W).idxOf q.1.2 ∧ (matrixIds st.W).idxOf q.1.2 = (matrixIds st.W).idxOf q.1.2) :=
      fun hh => hne (hh.1.trans hh.2.symm)
    rw [hφ]
    change 0 < (ratePart beta mu A 0 q.2 + ratePart beta mu A 1 q.2) * (_ - _)
    rw [if_neg hz, if_pos ⟨rfl, rfl⟩, sub_zero, mul_one]
    exact add_pos_of_pos_of_nonneg hp (ratePart_nonneg _ _ _ _ _)
  refine lt_of_lt_of_le h1 (Multiset.single_le_sum (fun x hx => ?_) _ (Multiset.mem_map_of_mem φ hq))
  obtain ⟨r, -, rfl⟩ := Multiset.mem_map.mp hx
  exact h0 r

/-- C140 is false of the code: for two sites with two electrons and one state in each sector, the rates from the extracted elements
differ from those of `build_transition_elements`. -/
theorem C140_refuted : ∃ gd sd gd' st st', sqtnlBuild 0 2 (oneState 2) (some 2) none = .ok gd ∧ cotnlBuild 0 2 (oneState 2) (some 2) none none = .ok sd ∧
    nExtract sd = .ok gd' ∧ sqtnlDicts gd 1 [0, 0] [[1, 0], [1, 0]] 0 = .ok st ∧ sqtnlDicts gd' 1 [0, 0] [[1, 0], [1, 0]] 0 = .ok st' ∧
    ∃ a b, dictToMatrix st'.W a b ≠ dictToMatrix st.W a b := by
  obtain ⟨gd, sd, gd', st, st', h1, h2, h3, h4, h5, -, -, h6, -⟩ := C140_double_partial (junk := 0) (n := 2) (N := 2) (by norm_num) (oneState_ok (by norm_num)).1 (by norm_num) none 1
    (mu := [0, 0]) (A := [[1, 0], [1, 0]]) rfl rfl (by simp) (inject := 0) (by norm_num)
  refine ⟨gd, sd, gd', st, st', h1, h2, h3, h4, h5, ?_⟩
  have gI : dictGet (oneState 2) 2 = .ok (oneSct 2 2) := oneState_get (by norm_num)
  have gJ : dictGet (oneState 2) 3 = .ok (oneSct 2 3) := oneState_get (by norm_num)
  have hI : NSctOk 2 2 (oneSct 2 2) (gs 32 4 2) := oneSct_ok (n := 2) (by norm_num) (by norm_num)
  have hJ : NSctOk 2 3 (oneSct 2 3) (gs 32 4 3) := oneSct_ok (n := 2) (by norm_num) (by norm_num)
  obtain ⟨gd2, hgd2, hel⟩ := C77_elements_up (junk := 0) (n := 2) (N := 2) (by norm_num) (oneState_ok (by norm_num)).1 (by norm_num) none gI gJ hI hJ
  rw [h1, Except.ok.injEq] at hgd2
  subst hgd2
  have hq := (hel 0 0 (by simp [oneSct]) (by simp [oneSct])).1
  set E := element 2 (gs 32 4 2) (gs 32 4 3) (oneSct 2 2) (oneSct 2 3) 0 0 true 1 with hE
  have hv : E.v = [1, amplitude 2 (gs 32 4 2) (gs 32 4 3) (oneSct 2 2) (oneSct 2 3) 0 0 1 1] := by
    rw [hE]
    simp only [element]
    have : List.range 2 = [0, 1] := rfl
    rw [this, List.map_cons, List.map_cons, oneSct_amp]
    rfl
  have hEe : E.E = 1 := by
    rw [hE]
    simp [element, oneSct]
    norm_num
  have hpos : 0 < ratePart 1 [0, 0] [[1, 0], [1, 0]] 0 E := by
    have hel : E.el = true := rfl
    have : sqtnlGamma [E] 1 [0, 0] [[1, 0], [1, 0]] 0 = .ok (nFcut 1) := by
      simp [sqtnlGamma, forM', NGf.call, dotArr, hv, hEe, hel, getItem, pyIndex, bind, Except.bind, pure, Except.pure]
    unfold ratePart
    rw [this]
    simp only
    unfold nFcut
    rw [if_neg (by norm_num)]
    positivity
  have := rate_pos (seq_build (N := 2) (by norm_num) (oneState_ok (by norm_num)).1 (by norm_num) h1) (inject := 0) (by norm_num) h4
    (mem_flatD.mpr ⟨_, dictGet_mem_of_ok hq, rfl, by simp⟩ : (((((2 : ℕ) : ℤ) + 1, 0), (((2 : ℕ) : ℤ), 0)), E) ∈ flatD gd) hpos
  refine ⟨(matrixIds st.W).idxOf (((2 : ℕ) : ℤ) + 1, 0), (matrixIds st.W).idxOf (((2 : ℕ) : ℤ), 0), fun hh => ?_⟩
  rw [h6] at hh
  linarith [this, hh]

theorem mem_list_sum_of {α : Type} {l : List (Multiset α)} {A : Multiset α} (hA : A ∈ l) {q : α} (h : q ∈ A) : q ∈ l.sum := by
  induction l with
  | nil => simp at hA
  | cons B l ih =>
    rw [List.sum_cons, Multiset.mem_add]
    rcases List.mem_cons.mp hA with rfl | hA
    · exact .inl h
    · exact .inr (ih hA)

/-- C140 is false of the labels of spin as well: for every complete spectrum with at least two electrons and each pair of states, the
extracted elements contain the amplitudes for removing an electron of spin `0` under the label `1`. -/
theorem C140_refuted_spin {junk n M : ℕ} (hn : 2 * n ≤ 32) {es : Espace ℕ} (hes : NEspaceOk n es) (hM : 0 < M) (hM' : M + 1 ≤ 2 * n) (egs : Option ℝ) {K I : Sct}
    {sK sI : List ℕ} (gK : dictGet es M = .ok K) (gI : dictGet es (M + 1) = .ok I) (hK : NSctOk n M K sK) (hI : NSctOk n (M + 1) I sI) :
    ∃ sd gd, cotnlBuild junk n es (some ((M : ℤ) + 1)) egs none = .ok sd ∧ nExtract sd = .ok gd ∧ ∀ k i, k < K.eigvals.length → i < I.eigvals.length →
      ∃ l, (((((M : ℤ), k), ((M : ℤ) + 1, i)), l) ∈ gd ∧ { element n sK sI K I i k false 0 with spin := 1 } ∈ l) := by
  obtain ⟨-, -, J, -, -, sJ, -, hJ, -⟩ := sectors_of hes hM'
  have hK' : ((M + 1 : ℕ) : ℤ) - 1 > 0 → dictGet es (M + 1 - 1) = .ok K ∧ NSctOk n (M + 1 - 1) K sK := fun _ => ⟨gK, hK⟩
  obtain ⟨sd, hsd, hnd, hfl⟩ := cotnlBuild_flat (junk := junk) hn ⟨gI, hI⟩ hJ hK' egs
  obtain ⟨sd2, gd, h1, h2, -, -, h3⟩ := extract_double (junk := junk) hn ⟨gI, hI⟩ hJ hK' egs
  rw [hsd, Except.ok.injEq] at h1
  subst h1
  have e2 : ((M + 1 : ℕ) : ℤ) = (M : ℤ) + 1 := by push_cast; ring
  have hc : ((M + 1 : ℕ) : ℤ) - 1 > 0 := by omega
  refine ⟨sd, gd, by rw [← e2]; exact hsd, h2, fun k i hk hi => ?_⟩
  have hm : (((((M + 1 : ℕ) : ℤ), i), (((M + 1 : ℕ) : ℤ), i)), sigmaOf n sK sI sJ K I J (M + 1) (0, 1) (i, i)) ∈ flatD sd := by
    rw [hfl]
    refine mem_list_sum_of (List.mem_map.mpr ⟨(0, 1), by decide, rfl⟩) ?_
    rw [if_pos (.inr hc), Multiset.mem_coe, List.mem_map]
    exact ⟨(i, i), mem_ndindex2.mpr ⟨hi, hi⟩, rfl⟩
  have hq : ((((M : ℤ), k), ((M : ℤ) + 1, i)), ({ element n sK sI K I i k false 0 with spin := 1 } : NGf)) ∈ flatD gd := by
    rw [h3]
    refine Multiset.mem_bind.mpr ⟨_, hm, ?_⟩
    unfold emitSigma
    rw [if_neg (by simp)]
    refine mem_list_sum_of (List.mem_map.mpr ⟨gf2Down n sK sI K I (1, 0) (i, i), ?_, rfl⟩) ?_
    · unfold sigmaOf
      rw [if_pos hc]
      simp
    · refine mem_list_sum_of (List.mem_map.mpr ⟨k, ?_, rfl⟩) ?_
      · simp [gf2Down, hk]
      · have h1 : ((M + 1 : ℕ) : ℤ) - 1 = M := by push_cast; ring
        simp only [emitGf, gf2Down, Bool.false_eq_true, if_false, List.getElem?_map, List.getElem?_range hk, List.getElem?_eq_getElem hk, Option.map_some, Option.getD_some, element, h1, sigmaOf]
        rw [e2]
        simp
  obtain ⟨p, hp, e1, hl⟩ := mem_flatD.mp hq
  exact ⟨p.2, by rw [← show p.1 = (((M : ℤ), k), ((M : ℤ) + 1, i)) from e1]; exact hp, hl⟩

/-- Non-vacuity of `C140_double_partial`: two sites, two electrons. -/
example : NEspaceOk 2 (oneState 2) ∧ ([0, 0] : List ℝ).length = 2 ∧ ∀ a ∈ ([[1, 0], [1, 0]] : List (List ℝ)), a.length = 2 := ⟨(oneState_ok (by norm_num)).1, rfl, by simp⟩

end Edpyt
