import Verif.Model.Skeleton
import Mathlib.Data.List.Nodup
import Mathlib.Algebra.BigOperators.Group.List.Basic
import Mathlib.Algebra.BigOperators.Ring.List
import Mathlib.Tactic.Ring
import Mathlib.Tactic.IntervalCases
import Mathlib.Algebra.Ring.Parity
/-!
C206: the drawings of `cotools` show every bond once and the amplitudes of the orbital.
-/
namespace Edpyt

/-! ## Specification -/

/-- The coordinates are numbered in the order x, y, z. -/
def Spec.IsAxis (c : Char) (k : ℕ) : Prop := (c = 'x' ∧ k = 0) ∨ (c = 'y' ∧ k = 1) ∨ (c = 'z' ∧ k = 2)

/-- The line between the projections of the atoms `i` and `j` onto the plane of the axes `a` and `b`. -/
def Spec.bondLine (pos : ℕ → ℕ → ℝ) (a b : ℕ) (p : ℕ × ℕ) : Segment := ⟨(pos p.1 a, pos p.1 b), (pos p.2 a, pos p.2 b)⟩

open Spec

/-! ## Helpers -/

theorem axisIndex_of {c : Char} {k : ℕ} (h : IsAxis c k) : axisIndex c = .ok k := by
  rcases h with ⟨rfl, rfl⟩ | ⟨rfl, rfl⟩ | ⟨rfl, rfl⟩ <;> rfl

theorem axisIndex_err {c : Char} (h : ∀ k, ¬ IsAxis c k) : axisIndex c = .error .valueError := by
  have hx : c ≠ 'x' := fun e => h 0 (.inl ⟨e, rfl⟩)
  have hy : c ≠ 'y' := fun e => h 1 (.inr (.inl ⟨e, rfl⟩))
  have hz : c ≠ 'z' := fun e => h 2 (.inr (.inr ⟨e, rfl⟩))
  unfold axisIndex
  split <;> first | rfl | exact absurd rfl ‹_›

theorem skeletonPairs_eq (n : ℕ) (nl : ℕ → List ℕ) : skeletonPairs n nl = (List.range n).flatMap fun a => ((nl a).filter (a < ·)).map fun j => (a, j) := by
  unfold skeletonPairs
  have step : ∀ (ij : List (ℕ × ℕ)) (a : ℕ), (if ((nl a).filter (a < ·)).any (· ≠ 0) then ij ++ ((nl a).filter (a < ·)).map fun j => (a, j) else ij) =
      ij ++ ((nl a).filter (a < ·)).map fun j => (a, j) := by
    intro ij a
    split
    · rfl
    · rename_i h
      have : (nl a).filter (a < ·) = [] := by
        rw [List.eq_nil_iff_forall_not_mem]
        intro j hj
        refine h (List.any_eq_true.mpr ⟨j, hj, ?_⟩)
        have := (List.mem_filter.mp hj).2
        simp only [decide_eq_true_eq] at this ⊢
        omega
      rw [this]
      simp
  simp only [step]
  have fold : ∀ (l : List ℕ) (f : ℕ → List (ℕ × ℕ)) (ij : List (ℕ × ℕ)), l.foldl (fun ij a => ij ++ f a) ij = ij ++ l.flatMap f := by
    intro l f
    induction l with
    | nil => simp
    | cons a l ih => intro ij; rw [List.foldl_cons, ih, List.flatMap_cons, List.append_assoc]
  rw [fold, List.nil_append]

/-! ## Theorems -/

/-- **C206** (bonds) If the neighbour list gives each neighbour with a larger index once, `draw_skeleton` draws exactly one line for each pair of bonded atoms, between the
projections of the two atoms onto the plane, and no other line. What the list holds for smaller indices, for the atom itself, and in which order, does not matter. -/
theorem C206_bonds {n : ℕ} {nl : ℕ → List ℕ} {bond : ℕ → ℕ → Prop} [DecidableRel bond] (hnl : ∀ i < n, ∀ j, i < j → (nl i).count j = if bond i j then 1 else 0)
    (pos : ℕ → ℕ → ℝ) {p0 p1 : Char} {a b : ℕ} (h0 : IsAxis p0 a) (h1 : IsAxis p1 b) :
    ∃ ij : List (ℕ × ℕ), drawSkeleton n nl pos p0 p1 = .ok (ij.map (bondLine pos a b)) ∧ ij.Nodup ∧ ∀ i j, (i, j) ∈ ij ↔ i < n ∧ i < j ∧ bond i j := by
  refine ⟨skeletonPairs n nl, ?_, ?_, ?_⟩
  · unfold drawSkeleton skeletonLinks
    rw [axisIndex_of h0, axisIndex_of h1]
    simp only [bind, Except.bind, pure, Except.pure, List.map_map]
    rfl
  · rw [skeletonPairs_eq, List.nodup_flatMap]
    constructor
    · intro i hi
      refine List.Nodup.map (fun x y hxy => (Prod.mk.inj hxy).2) ?_
      rw [List.nodup_iff_count_le_one]
      intro j
      by_cases hij : i < j
      · rw [List.count_filter (by simpa using hij), hnl i (List.mem_range.mp hi) j hij]
        split <;> omega
      · rw [List.count_eq_zero_of_not_mem fun hm => hij (by simpa using (List.mem_filter.mp hm).2)]
        omega
    · refine List.Pairwise.imp_of_mem ?_ (List.nodup_range (n := n))
      intro i i' _ _ hne
      rw [Function.onFun, List.disjoint_left]
      intro q hq hq'
      obtain ⟨_, -, rfl⟩ := List.mem_map.mp hq
      obtain ⟨_, -, h⟩ := List.mem_map.mp hq'
      exact hne (Prod.mk.inj h).1.symm
  · intro i j
    rw [skeletonPairs_eq]
    simp only [List.mem_flatMap, List.mem_range, List.mem_map, List.mem_filter, decide_eq_true_eq, Prod.mk.injEq]
    constructor
    · rintro ⟨i', hi, j', ⟨hm, hlt⟩, rfl, rfl⟩
      refine ⟨hi, hlt, ?_⟩
      by_contra hb
      have := hnl i' hi j' hlt
      rw [if_neg hb] at this
      exact List.count_eq_zero.mp this hm
    · rintro ⟨hi, hlt, hb⟩
      refine ⟨i, hi, j, ⟨List.count_pos_iff.mp ?_, hlt⟩, rfl, rfl⟩
      rw [hnl i hi j hlt, if_pos hb]
      exact Nat.one_pos

/-- **C206** (orbital) `draw_feynman_dyson_orbital` draws over the skeleton one circle for each selected atom, at the atom, with radius `scale` times the squared amplitude, red
where the amplitude is positive and blue elsewhere. The radii add up to `scale` times the norm of the orbital; the other sign of the orbital gives the same circles
with the colours exchanged where the amplitude is not zero. -/
theorem C206_orbital (n : ℕ) (nl : ℕ → List ℕ) (pos : ℕ → ℕ → ℝ) {subset : List ℕ} {v : List ℝ} (hv : subset.length = v.length) {p0 p1 : Char} {a b : ℕ}
    (h0 : IsAxis p0 a) (h1 : IsAxis p1 b) (scale : ℝ) :
    ∃ ls cs cs', drawSkeleton n nl pos p0 p1 = .ok ls ∧ drawOrbital n nl pos subset v p0 p1 scale = .ok (ls, cs) ∧
      drawOrbital n nl pos subset (v.map (-·)) p0 p1 scale = .ok (ls, cs') ∧ cs.length = v.length ∧ cs'.length = v.length ∧
      (∀ (k : ℕ) (hk : k < v.length) (hs : k < subset.length) (hc : k < cs.length) (hc' : k < cs'.length),
        cs[k].centre = (pos subset[k] a, pos subset[k] b) ∧ cs[k].radius = scale * v[k] ^ 2 ∧ (cs[k].red = true ↔ 0 < v[k]) ∧
        cs'[k].centre = cs[k].centre ∧ cs'[k].radius = cs[k].radius ∧ (v[k] ≠ 0 → cs'[k].red = !cs[k].red)) ∧
      (cs.map Disc.radius).sum = scale * (v.map (· ^ 2)).sum := by
  have run : ∀ v : List ℝ, subset.length = v.length → drawOrbital n nl pos subset v p0 p1 scale =
      .ok ((skeletonPairs n nl).map (bondLine pos a b), (subset.zip v).map fun q => ⟨(pos q.1 a, pos q.1 b), scale * q.2 ^ 2, decide (0 < q.2)⟩) := by
    intro v hv
    unfold drawOrbital drawSkeleton skeletonLinks
    rw [if_neg (not_not.mpr hv), axisIndex_of h0, axisIndex_of h1]
    simp only [bind, Except.bind, pure, Except.pure, List.map_map]
    rfl
  refine ⟨_, _, _, ?_, run v hv, run (v.map (-·)) (by simpa using hv), by simp [hv], by simp [hv], ?_, ?_⟩
  · unfold drawSkeleton skeletonLinks
    rw [axisIndex_of h0, axisIndex_of h1]
    simp only [bind, Except.bind, pure, Except.pure, List.map_map]
    rfl
  · intro k hk hs hc hc'
    simp only [List.getElem_map, List.getElem_zip, decide_eq_true_eq, even_two, Even.neg_pow, true_and]
    intro hne
    rcases lt_or_gt_of_ne hne with h | h
    · simp [h, h.le]
    · simp [h, h.le]
  · rw [List.map_map, ← List.sum_map_mul_left]
    have : ∀ (s : List ℕ) (v : List ℝ), s.length = v.length → (s.zip v).map (Disc.radius ∘ fun q => (⟨(pos q.1 a, pos q.1 b), scale * q.2 ^ 2, decide (0 < q.2)⟩ : Disc)) =
        v.map fun x => scale * x ^ 2 := by
      intro s
      induction s with
      | nil => intro v h; cases v with
        | nil => rfl
        | cons _ _ => simp at h
      | cons i s ih => intro v h; cases v with
        | nil => simp at h
        | cons x v => simp only [List.zip_cons_cons, List.map_cons]; rw [ih v (by simpa using h)]; rfl
    rw [this subset v hv]

/-- **C206** (rejected input) An orbital that does not have one amplitude for each selected atom, and a plane with an axis other than x, y, z, are rejected and nothing is drawn. -/
theorem C206_rejects (n : ℕ) (nl : ℕ → List ℕ) (pos : ℕ → ℕ → ℝ) (subset : List ℕ) (v : List ℝ) (p0 p1 : Char) (scale : ℝ) :
    (subset.length ≠ v.length → drawOrbital n nl pos subset v p0 p1 scale = .error .assertionError) ∧
    ((∀ k, ¬ IsAxis p0 k) → drawSkeleton n nl pos p0 p1 = .error .valueError) ∧
    ((∃ k, IsAxis p0 k) → (∀ k, ¬ IsAxis p1 k) → drawSkeleton n nl pos p0 p1 = .error .valueError) := by
  refine ⟨fun h => ?_, fun h => ?_, fun ⟨k, h⟩ h' => ?_⟩
  · unfold drawOrbital
    rw [if_pos h]
  · unfold drawSkeleton
    rw [axisIndex_err h]
    rfl
  · unfold drawSkeleton
    rw [axisIndex_of h, axisIndex_err h']
    rfl

/-- Non-vacuity: a chain of three atoms, with a list that has the atom itself and both neighbours. -/
example : ∀ i < 3, ∀ j, i < j → ([[0, 1], [1, 2, 0], [2, 1]].getD i []).count j = if j = i + 1 ∧ j < 3 then 1 else 0 := by
  intro i hi j hj
  interval_cases i
  · rcases j with _ | _ | _ | j <;> simp at hj ⊢
  · rcases j with _ | _ | _ | j <;> simp at hj ⊢
  · rcases j with _ | _ | _ | j <;> simp at hj ⊢

example : IsAxis 'y' 1 ∧ skeletonPairs 3 (fun i => [[0, 1], [1, 2, 0], [2, 1]].getD i []) = [(0, 1), (1, 2)] := ⟨.inr (.inl ⟨rfl, rfl⟩), by decide⟩

end Edpyt
