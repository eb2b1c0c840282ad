import Verif.Model.Cotnl
import Verif.Proof.SqBuild
import Verif.Props.SqBuild
import Verif.Spec.Rates
/-!
Lemmas on rate matrices collected in dictionaries.
-/
namespace Edpyt
open Spec

section
variable {α : Type} [DecidableEq α]

/-- Weighted sum of the values. -/
def wsum (φ : α → ℝ) (D : List (α × ℝ)) : ℝ := (D.map fun p => φ p.1 * p.2).sum

theorem wsum_replace (φ : α → ℝ) {D : List (α × ℝ)} (hD : (D.map Prod.fst).Nodup) {k : α} {x : ℝ} (h : dictGet D k = .ok x) (s : ℝ) :
    wsum φ (D.map fun p => if p.1 = k then (k, s) else p) = wsum φ D + φ k * (s - x) := by
  induction D with
  | nil => simp [dictGet_nil] at h
  | cons p D ih =>
    rw [List.map_cons, List.nodup_cons] at hD
    rw [dictGet_cons] at h
    simp only [wsum, List.map_cons, List.sum_cons] at ih ⊢
    by_cases hp : p.1 = k
    · rw [if_pos hp] at h ⊢
      simp only [Except.ok.injEq] at h
      have : D.map (fun p => if p.1 = k then (k, s) else p) = D := by
        conv_rhs => rw [← List.map_id D]
        refine List.map_congr_left fun q hq => ?_
        rw [if_neg, id]
        intro hqk
        exact hD.1 (List.mem_map.mpr ⟨q, hq, by rw [hqk, hp]⟩)
      rw [this, hp, h]
      ring
    · rw [if_neg hp] at h ⊢
      rw [ih hD.2 h]
      ring

theorem dictGet_none {D : List (α × ℝ)} {k : α} (h : k ∉ D.map Prod.fst) : ∃ e, dictGet D k = .error e := by
  cases hd : dictGet D k with
  | error e => exact ⟨e, rfl⟩
  | ok x => exact absurd (List.mem_map.mpr ⟨_, dictGet_mem_of_ok hd, rfl⟩) h

theorem wsum_dictAdd (φ : α → ℝ) {D : List (α × ℝ)} (hD : (D.map Prod.fst).Nodup) (k : α) (v : ℝ) :
    wsum φ (dictAdd D k v) = wsum φ D + φ k * v := by
  unfold dictAdd dictSet
  by_cases hk : k ∈ D.map Prod.fst
  · obtain ⟨x, hx⟩ := dictGet_of_key hk
    rw [if_pos hk, wsum_replace φ hD hx, hx]
    ring
  · obtain ⟨e, he⟩ := dictGet_none hk
    rw [if_neg hk, he]
    simp [wsum]

theorem nodup_dictAdd {D : List (α × ℝ)} (hD : (D.map Prod.fst).Nodup) (k : α) (v : ℝ) : ((dictAdd D k v).map Prod.fst).Nodup := nodup_dictSet hD _ _

theorem mem_dictAdd {D : List (α × ℝ)} {k : α} {v : ℝ} {p : α × ℝ} (h : p ∈ dictAdd D k v) :
    p ∈ D ∨ ∃ x, p = (k, x + v) ∧ (x = 0 ∨ (k, x) ∈ D) := by
  rcases mem_dictSet h with h | h
  · exact .inl h
  · right
    cases hd : dictGet D k with
    | error e => exact ⟨0, by rw [h, hd], .inl rfl⟩
    | ok x => exact ⟨x, by rw [h, hd], .inr (dictGet_mem_of_ok hd)⟩

theorem keys_dictSet {D : List (α × ℝ)} {k : α} {v : ℝ} (q : α) : q ∈ (dictSet D k v).map Prod.fst ↔ q = k ∨ q ∈ D.map Prod.fst := by
  unfold dictSet
  split
  · rename_i hk
    have : (D.map fun p => if p.1 = k then (k, v) else p).map Prod.fst = D.map Prod.fst := by
      rw [List.map_map]
      refine List.map_congr_left fun p _ => ?_
      by_cases hp : p.1 = k <;> simp [hp]
    rw [this]
    constructor
    · exact .inr
    · rintro (rfl | h)
      · exact hk
      · exact h
  · rw [List.map_append, List.mem_append]
    simp only [List.map_cons, List.map_nil, List.mem_singleton]
    exact or_comm

theorem keys_dictAdd {D : List (α × ℝ)} {k : α} {v : ℝ} (q : α) : q ∈ (dictAdd D k v).map Prod.fst ↔ q = k ∨ q ∈ D.map Prod.fst := keys_dictSet q
end

/-- Invariant of the dictionary of rates. -/
structure RateDict (W : List ((NId × NId) × ℝ)) : Prop where
  nodup : (W.map Prod.fst).Nodup
  conserve : ∀ x, wsum (fun k => if k.2 = x then 1 else 0) W = 0
  nonneg : ∀ p ∈ W, p.1.1 ≠ p.1.2 → 0 ≤ p.2

theorem rateDict_nil : RateDict [] := ⟨by simp, fun x => by simp [wsum], by simp⟩

theorem rateDict_addRate {W : List ((NId × NId) × ℝ)} (h : RateDict W) (k : NId × NId) {γ : ℝ} (hγ : 0 ≤ γ) : RateDict (addRate W k γ) := by
  unfold addRate
  by_cases hk : k.1 = k.2
  · rw [if_neg (by simp [hk])]; exact h
  · rw [if_pos hk]
    have h1 := nodup_dictAdd h.nodup (k.2, k.2) (-γ)
    refine ⟨nodup_dictAdd h1 _ _, fun x => ?_, fun p hp hne => ?_⟩
    · rw [wsum_dictAdd _ h1, wsum_dictAdd _ h.nodup, h.conserve x]
      by_cases hx : k.2 = x <;> simp [hx]
    · have key : ∀ p ∈ dictAdd W (k.2, k.2) (-γ), p.1.1 ≠ p.1.2 → 0 ≤ p.2 := by
        intro p hp hne
        rcases mem_dictAdd hp with hp | ⟨x, rfl, -⟩
        · exact h.nonneg p hp hne
        · exact absurd rfl hne
      rcases mem_dictAdd hp with hp | ⟨x, rfl, hx⟩
      · exact key p hp hne
      · rcases hx with rfl | hx
        · simpa using hγ
        · have := key _ hx hk
          simp only at this ⊢
          linarith

theorem dictToMatrix_eq (D : List ((NId × NId) × ℝ)) (a b : ℕ) :
    dictToMatrix D a b = (D.map fun p => if a = (matrixIds D).idxOf p.1.1 ∧ b = (matrixIds D).idxOf p.1.2 then p.2 else 0).sum := by
  unfold dictToMatrix
  generalize matrixIds D = ids
  have : ∀ (L : List ((NId × NId) × ℝ)) (M : ℕ → ℕ → ℝ),
      L.foldl (fun M p a b => if a = ids.idxOf p.1.1 ∧ b = ids.idxOf p.1.2 then M a b + p.2 else M a b) M a b
        = M a b + (L.map fun p => if a = ids.idxOf p.1.1 ∧ b = ids.idxOf p.1.2 then p.2 else 0).sum := by
    intro L
    induction L with
    | nil => simp
    | cons p L ih =>
      intro M
      rw [List.foldl_cons, ih, List.map_cons, List.sum_cons]
      split <;> ring
  rw [this, zero_add]

theorem matrixIds_nodup (D : List ((NId × NId) × ℝ)) : (matrixIds D).Nodup := by
  unfold matrixIds uniqueSorted
  exact (List.mergeSort_perm _ _).nodup_iff.mpr (List.nodup_dedup _)

theorem mem_matrixIds {D : List ((NId × NId) × ℝ)} {x : NId} : x ∈ matrixIds D ↔ (∃ p ∈ D, p.1.1 = x) ∨ ∃ p ∈ D, p.1.2 = x := by
  unfold matrixIds
  rw [mem_uniqueSorted, List.mem_append, List.mem_map, List.mem_map]

theorem idxOf_iff {ids : List NId} (h : ids.Nodup) {x : NId} (hx : x ∈ ids) {b : ℕ} (hb : b < ids.length) : b = ids.idxOf x ↔ x = ids[b] := by
  constructor
  · rintro rfl; simp
  · intro hxb
    have h1 := List.idxOf_lt_length_iff.mpr hx
    have h2 : ids[ids.idxOf x] = ids[b] := by rw [List.getElem_idxOf, hxb]
    exact ((h.getElem_inj_iff).mp h2).symm

/-- The entries of the matrix are the values of the dictionary. -/
theorem dictToMatrix_get {D : List ((NId × NId) × ℝ)} (hD : (D.map Prod.fst).Nodup) {a b : ℕ} (ha : a < (matrixIds D).length) (hb : b < (matrixIds D).length) :
    dictToMatrix D a b = match dictGet D ((matrixIds D)[a], (matrixIds D)[b]) with | .ok x => x | .error _ => 0 := by
  rw [dictToMatrix_eq]
  have h1 : ∀ p ∈ D, (if a = (matrixIds D).idxOf p.1.1 ∧ b = (matrixIds D).idxOf p.1.2 then p.2 else 0)
      = if p.1 = ((matrixIds D)[a], (matrixIds D)[b]) then p.2 else 0 := by
    intro p hp
    simp only [idxOf_iff (matrixIds_nodup D) (mem_matrixIds.mpr (.inl ⟨p, hp, rfl⟩)) ha, idxOf_iff (matrixIds_nodup D) (mem_matrixIds.mpr (.inr ⟨p, hp, rfl⟩)) hb,
      Prod.ext_iff]
  rw [List.map_congr_left h1]
  generalize ((matrixIds D)[a], (matrixIds D)[b]) = k
  clear h1 ha hb
  induction D with
  | nil => simp [dictGet_nil]
  | cons p D ih =>
    rw [List.map_cons, List.nodup_cons] at hD
    rw [List.map_cons, List.sum_cons, ih hD.2, dictGet_cons]
    by_cases hp : p.1 = k
    · subst hp
      obtain ⟨e, he⟩ := dictGet_none hD.1
      simp [he]
    · simp [hp]

/-- The matrix of a dictionary of rates is a rate matrix. -/
theorem rateDict_matrix {W : List ((NId × NId) × ℝ)} (h : RateDict W) : IsRateMatrix (matrixIds W).length (dictToMatrix W) := by
  constructor
  · intro f i hf hi hfi
    rw [dictToMatrix_get h.nodup hf hi]
    split
    · rename_i x hx
      refine h.nonneg _ (dictGet_mem_of_ok hx) ?_
      simp only
      intro he
      exact hfi ((matrixIds_nodup W).getElem_inj_iff.mp he)
    · exact le_rfl
  · intro i hi
    simp only [dictToMatrix_eq]
    refine Eq.trans ?_ (h.conserve (matrixIds W)[i])
    have : ∀ (L : List ((NId × NId) × ℝ)), (∀ p ∈ L, p ∈ W) → ∑ f ∈ Finset.range (matrixIds W).length,
        (L.map fun p => if f = (matrixIds W).idxOf p.1.1 ∧ i = (matrixIds W).idxOf p.1.2 then p.2 else 0).sum
        = wsum (fun k => if k.2 = (matrixIds W)[i] then 1 else 0) L := by
      intro L
      induction L with
      | nil => simp [wsum]
      | cons p L ih =>
        intro hL
        have hp := hL p (by simp)
        simp only [List.map_cons, List.sum_cons, Finset.sum_add_distrib]
        rw [ih fun q hq => hL q (by simp [hq])]
        simp only [wsum, List.map_cons, List.sum_cons]
        congr 1
        have hlt := List.idxOf_lt_length_iff.mpr (mem_matrixIds.mpr (.inl ⟨p, hp, rfl⟩))
        rw [Finset.sum_eq_single_of_mem _ (Finset.mem_range.mpr hlt)]
        · simp only [idxOf_iff (matrixIds_nodup W) (mem_matrixIds.mpr (.inr ⟨p, hp, rfl⟩)) hi]
          by_cases hx : p.1.2 = (matrixIds W)[i] <;> simp [hx]
        · intro f _ hf
          simp [hf]
    exact this W fun _ h => h

end Edpyt
