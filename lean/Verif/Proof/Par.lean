import Verif.Model.Par
import Mathlib.Tactic.Common
/-!
Any interleaving of iterations that touch disjoint cells has the effect of the sequential loop.
-/
namespace Edpyt

variable {α V : Type}

theorem Interleaving.filter {ls : List (List α)} {out : List α} (P : α → Bool) (h : Interleaving ls out) :
    Interleaving (ls.map (List.filter P)) (out.filter P) := by
  induction h with
  | done ls h =>
    apply Interleaving.done
    intro l hl
    obtain ⟨l', hl', rfl⟩ := List.mem_map.mp hl
    rw [h l' hl']; rfl
  | step ls k x rest out hk t ih =>
    rw [List.filter_cons]
    have hset : (ls.set k rest).map (List.filter P) = (ls.map (List.filter P)).set k (rest.filter P) := by
      rw [List.map_set]
    rw [hset] at ih
    split_ifs with hP
    · refine Interleaving.step _ k x (rest.filter P) _ ?_ ih
      rw [List.getElem?_map, hk]; simp [hP]
    · have : (ls.map (List.filter P)).set k (rest.filter P) = ls.map (List.filter P) := by
        apply List.ext_getElem?
        intro i
        rw [List.getElem?_set]
        split_ifs with h1 h2
        · subst h1
          rw [List.getElem?_map, hk]; simp [hP]
        · subst h1
          rw [List.getElem?_eq_none (by omega)]
        · rfl
      rwa [this] at ih

theorem flatten_of_single {ls : List (List α)} (k : ℕ) (h : ∀ i, i ≠ k → ls[i]?.getD [] = []) :
    ls.flatten = ls[k]?.getD [] := by
  induction ls generalizing k with
  | nil => simp
  | cons l ls ih =>
    cases k with
    | zero =>
      have : ∀ i, ls[i]?.getD [] = [] := fun i => by simpa using h (i + 1) (by omega)
      have e : ls.flatten = [] := by
        rw [List.flatten_eq_nil_iff]
        intro l' hl'
        obtain ⟨i, hi, rfl⟩ := List.getElem_of_mem hl'
        have := this i
        rw [List.getElem?_eq_getElem hi] at this
        simpa using this
      simp [e]
    | succ k =>
      have h0 : l = [] := by simpa using h 0 (by omega)
      have := ih k (fun i hi => by simpa using h (i + 1) (by omega))
      simp [h0, this]

theorem Interleaving.single {ls : List (List α)} {out : List α} (h : Interleaving ls out) (k : ℕ)
    (hs : ∀ i, i ≠ k → ls[i]?.getD [] = []) : out = ls[k]?.getD [] := by
  induction h with
  | done ls h =>
    cases hk : ls[k]? with
    | none => rfl
    | some l => rw [h l (List.mem_of_getElem? hk)]; rfl
  | step ls k' x rest out hk t ih =>
    have hkk : k' = k := by
      by_contra hne
      have := hs k' hne
      rw [hk] at this; simp at this
    subst hkk
    have hlt : k' < ls.length := by
      rw [List.getElem?_eq_some_iff] at hk; exact hk.1
    have := ih (fun i hi => by rw [List.getElem?_set_ne (Ne.symm hi)]; exact hs i hi)
    rw [List.getElem?_set_self hlt] at this
    rw [hk, this]; rfl

/-- If only one sequence contributes to `P`, filtering an interleaving gives that contribution. -/
theorem Interleaving.filter_eq {ls : List (List α)} {out : List α} (P : α → Bool) (h : Interleaving ls out)
    (hd : ∀ (i j : ℕ) (a b : α), i ≠ j → a ∈ ls[i]?.getD [] → b ∈ ls[j]?.getD [] → P a = true → P b = true → False) :
    out.filter P = ls.flatten.filter P := by
  have h' := h.filter P
  have hg : ∀ i : ℕ, (ls.map (List.filter P))[i]?.getD [] = (ls[i]?.getD []).filter P := by
    intro i; rw [List.getElem?_map]; cases ls[i]? <;> rfl
  by_cases hex : ∃ k : ℕ, (ls[k]?.getD []).filter P ≠ []
  · obtain ⟨k, hk⟩ := hex
    have hs : ∀ i : ℕ, i ≠ k → (ls.map (List.filter P))[i]?.getD [] = [] := by
      intro i hi
      rw [hg]
      by_contra hne
      obtain ⟨a, ha⟩ := List.exists_mem_of_ne_nil _ hne
      obtain ⟨b, hb⟩ := List.exists_mem_of_ne_nil _ hk
      rw [List.mem_filter] at ha hb
      exact hd i k a b hi ha.1 hb.1 ha.2 hb.2
    rw [h'.single k hs, List.filter_flatten, flatten_of_single k hs]
  · push Not at hex
    have hs : ∀ i : ℕ, i ≠ 0 → (ls.map (List.filter P))[i]?.getD [] = [] := fun i _ => by rw [hg, hex]
    rw [h'.single 0 hs, List.filter_flatten, flatten_of_single 0 hs]

theorem runOps_length (ops : List (MemOp V)) (mem : List V) : (runOps ops mem).length = mem.length := by
  unfold runOps
  induction ops generalizing mem with
  | nil => rfl
  | cons o ops ih => rw [List.foldl_cons, ih, List.length_modify]

theorem runOps_getElem? (ops : List (MemOp V)) (mem : List V) (l : ℕ) :
    (runOps ops mem)[l]? = (mem[l]?).map fun v => (ops.filter (fun o => o.loc = l)).foldl (fun v o => o.f v) v := by
  unfold runOps
  induction ops generalizing mem with
  | nil => simp
  | cons o ops ih =>
    rw [List.foldl_cons, ih, List.getElem?_modify, List.filter_cons]
    by_cases h : o.loc = l
    · simp [h]; rfl
    · simp [h]

/-- Schedule independence: if different iterations touch different cells, every interleaving has the
same effect as the sequential loop, for any scalar type and operations (no algebraic laws used). -/
theorem runOps_interleaving {ls : List (List (MemOp V))} {out : List (MemOp V)} (h : Interleaving ls out)
    (hd : ∀ (i j : ℕ) (a b : MemOp V), i ≠ j → a ∈ ls[i]?.getD [] → b ∈ ls[j]?.getD [] → a.loc ≠ b.loc) (mem : List V) :
    runOps out mem = runOps ls.flatten mem := by
  apply List.ext_getElem?
  intro l
  rw [runOps_getElem?, runOps_getElem?, h.filter_eq (fun o => decide (o.loc = l))]
  intro i j a b hij ha hb h1 h2
  simp at h1 h2
  exact hd i j a b hij ha hb (h1.trans h2.symm)

/-- Interleavings exist: the sequential order is one. -/
theorem Interleaving.sequential (ls : List (List α)) : Interleaving ls ls.flatten := by
  suffices ∀ (done : List (List α)), (∀ l ∈ done, l = []) → ∀ ls, Interleaving (done ++ ls) ls.flatten by
    simpa using this [] (by simp) ls
  intro done hdone ls
  induction ls generalizing done with
  | nil => simpa using Interleaving.done done hdone
  | cons l ls ih =>
    rw [List.flatten_cons]
    induction l with
    | nil =>
      have := ih (done ++ [[]]) (by
        intro l hl
        rcases List.mem_append.mp hl with h | h
        · exact hdone l h
        · simpa using h)
      simpa using this
    | cons x xs ihl =>
      refine Interleaving.step _ done.length x xs _ (by simp) ?_
      simpa using ihl

end Edpyt
