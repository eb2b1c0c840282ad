import Verif.Model.Sampler
import Verif.Proof.Py
import Mathlib.Algebra.BigOperators.Field
import Mathlib.MeasureTheory.Measure.Lebesgue.Basic
import Mathlib.Data.List.Sort
/-!
Theorems about `RandomSampler` of `edpyt/dedlib.py`.
-/
namespace Edpyt

theorem cumsum_loop (a : List ℝ) : ∀ m, m ≤ a.length - 1 →
    ((List.range' 1 m).foldl (fun a i => a.set i (a[i]?.getD 0 + a[i - 1]?.getD 0)) a).length = a.length ∧
    ∀ i, ((List.range' 1 m).foldl (fun a i => a.set i (a[i]?.getD 0 + a[i - 1]?.getD 0)) a)[i]?.getD 0 =
      if i ≤ m then ∑ j ∈ Finset.range (i + 1), a[j]?.getD 0 else a[i]?.getD 0 := by
  intro m
  induction m with
  | zero =>
    intro _
    refine ⟨rfl, fun i => ?_⟩
    rcases i with _ | i <;> simp
  | succ m ih =>
    intro hm
    obtain ⟨h1, h2⟩ := ih (by omega)
    rw [List.range'_concat, List.foldl_append]
    set b := (List.range' 1 m).foldl (fun a i => a.set i (a[i]?.getD 0 + a[i - 1]?.getD 0)) a
    simp only [List.foldl_cons, List.foldl_nil, List.length_set]
    refine ⟨h1, fun i => ?_⟩
    rw [List.getElem?_set, h2, h2]
    by_cases hi : 1 + 1 * m = i
    · subst hi
      have hl : 1 + 1 * m < b.length := by omega
      rw [if_pos rfl, if_pos hl, if_neg (by omega), if_pos (by omega), if_pos (by omega), Option.getD_some,
        show 1 + 1 * m - 1 + 1 = 1 + 1 * m by omega, Finset.sum_range_succ]
      ring
    · rw [if_neg hi, h2]
      by_cases h3 : i ≤ m
      · rw [if_pos h3, if_pos (by omega)]
      · rw [if_neg h3, if_neg (by omega)]

/-- `cumsum` gives the partial sums. -/
theorem cumsum_spec (a : List ℝ) : (cumsum a).length = a.length ∧ ∀ i, i < a.length → (cumsum a)[i]?.getD 0 = ∑ j ∈ Finset.range (i + 1), a[j]?.getD 0 := by
  obtain ⟨h1, h2⟩ := cumsum_loop a _ le_rfl
  refine ⟨h1, fun i hi => ?_⟩
  unfold cumsum
  rw [h2, if_pos (by omega)]

/-- In a sorted list the number of smaller elements is the place of the first element that is not smaller. -/
theorem searchsorted_iff {a : List ℝ} (hs : ∀ i j, i ≤ j → j < a.length → a[i]?.getD 0 ≤ a[j]?.getD 0) {v : ℝ} {i : ℕ} (hi : i < a.length) :
    searchsorted a v = i ↔ (∀ j, j < i → a[j]?.getD 0 < v) ∧ v ≤ a[i]?.getD 0 := by
  have key : ∀ (a : List ℝ), (∀ i j, i ≤ j → j < a.length → a[i]?.getD 0 ≤ a[j]?.getD 0) →
      (∀ j, j < searchsorted a v → a[j]?.getD 0 < v) ∧ (∀ j, searchsorted a v ≤ j → j < a.length → v ≤ a[j]?.getD 0) := by
    intro a
    induction a with
    | nil => intro _; exact ⟨by simp [searchsorted], by simp⟩
    | cons x l ih =>
      intro hs
      obtain ⟨i1, i2⟩ := ih fun i j hij hj => by
        have := hs (i + 1) (j + 1) (by omega) (by simpa using hj)
        simpa using this
      by_cases hx : x < v
      · have hc : searchsorted (x :: l) v = searchsorted l v + 1 := by simp [searchsorted, hx]
        rw [hc]
        constructor
        · rintro (_ | j) hj
          · simpa using hx
          · simpa using i1 j (by omega)
        · rintro (_ | j) hj hjl
          · omega
          · simpa using i2 j (by omega) (by simpa using hjl)
      · have hall : ∀ y ∈ x :: l, v ≤ y := by
          intro y hy
          obtain ⟨k, hk, rfl⟩ := List.mem_iff_getElem.mp hy
          have := hs 0 k (by omega) hk
          rw [List.getElem?_eq_getElem hk] at this
          simp at this
          linarith
        have hc : searchsorted (x :: l) v = 0 := by
          unfold searchsorted
          rw [List.countP_eq_zero]
          intro y hy
          simpa using hall y hy
        rw [hc]
        refine ⟨by simp, fun j _ hj => ?_⟩
        have := hall _ (List.getElem_mem hj)
        rw [List.getElem?_eq_getElem hj]
        exact this
  obtain ⟨k1, k2⟩ := key a hs
  constructor
  · rintro rfl
    exact ⟨k1, k2 _ le_rfl hi⟩
  · rintro ⟨h1, h2⟩
    apply le_antisymm
    · by_contra h
      exact absurd (k1 i (by omega)) (by linarith)
    · by_contra h
      have hlt : searchsorted a v < i := by omega
      have := h1 _ hlt
      exact absurd (k2 _ le_rfl (by omega)) (by linarith)

/-- Upper end of the interval of the random numbers that draw one of the first `i` values: `Σ_{j<i} w_j / Σ w`. -/
noncomputable def Spec.upTo (ws : List ℝ) (i : ℕ) : ℝ := (∑ j ∈ Finset.range i, ws[j]?.getD 0) / ws.sum

open Spec

theorem upTo_mono {ws : List ℝ} (hw : ∀ x ∈ ws, 0 ≤ x) {i j : ℕ} (h : i ≤ j) : upTo ws i ≤ upTo ws j := by
  refine div_le_div_of_nonneg_right (Finset.sum_le_sum_of_subset_of_nonneg (by simpa using h) fun k _ _ => ?_) (List.sum_nonneg hw)
  cases hk : ws[k]? with
  | none => simp
  | some x => simpa using hw x (List.mem_of_getElem? hk)

theorem sum_get (ws : List ℝ) : ∑ j ∈ Finset.range ws.length, ws[j]?.getD 0 = ws.sum := by
  induction ws with
  | nil => simp
  | cons x l ih => rw [List.length_cons, Finset.sum_range_succ']; simp [ih, add_comm]

/-- The table of a sampler. -/
theorem cdf_get (ws : List ℝ) {i : ℕ} (hi : i < ws.length) : (cumsum (ws.map fun x => x / ws.sum))[i]?.getD 0 = upTo ws (i + 1) := by
  rw [(cumsum_spec _).2 i (by simpa using hi), upTo, Finset.sum_div]
  refine Finset.sum_congr rfl fun j hj => ?_
  have : j < ws.length := by have := Finset.mem_range.mp hj; omega
  simp [this]

/-- **C65.** For all non-negative weights with a positive sum and every random number in `[0, 1)` the search finds an index of the grid,
and it finds `i` exactly if the number is above all weights before `i` (taken together, normalised) and not above those up to and
including `i`. -/
theorem C65_draw {ws : List ℝ} (hw : ∀ x ∈ ws, 0 ≤ x) (hs : 0 < ws.sum) {u : ℝ} (hu0 : 0 ≤ u) (hu1 : u < 1) :
    searchsorted (cumsum (ws.map fun x => x / ws.sum)) u < ws.length ∧
    ∀ i, i < ws.length → (searchsorted (cumsum (ws.map fun x => x / ws.sum)) u = i ↔ (i = 0 ∨ upTo ws i < u) ∧ u ≤ upTo ws (i + 1)) := by
  have hlen : (cumsum (ws.map fun x => x / ws.sum)).length = ws.length := by rw [(cumsum_spec _).1, List.length_map]
  have hsort : ∀ i j, i ≤ j → j < (cumsum (ws.map fun x => x / ws.sum)).length →
      (cumsum (ws.map fun x => x / ws.sum))[i]?.getD 0 ≤ (cumsum (ws.map fun x => x / ws.sum))[j]?.getD 0 := by
    intro i j hij hj
    rw [hlen] at hj
    rw [cdf_get ws hj, cdf_get ws (by omega)]
    exact upTo_mono hw (by omega)
  have hiff : ∀ i, i < ws.length → (searchsorted (cumsum (ws.map fun x => x / ws.sum)) u = i ↔ (i = 0 ∨ upTo ws i < u) ∧ u ≤ upTo ws (i + 1)) := by
    intro i hi
    rw [searchsorted_iff hsort (by rwa [hlen]), cdf_get ws hi]
    refine and_congr_left fun _ => ?_
    constructor
    · intro h
      rcases i with _ | i
      · exact Or.inl rfl
      · right
        have := h i (by omega)
        rwa [cdf_get ws (by omega)] at this
    · rintro (rfl | h) j hj
      · omega
      · rw [cdf_get ws (by omega)]
        exact lt_of_le_of_lt (upTo_mono hw (by omega)) h
  refine ⟨?_, hiff⟩
  have hlast : upTo ws ws.length = 1 := by rw [upTo, sum_get, div_self hs.ne']
  by_contra hge
  have hfull : searchsorted (cumsum (ws.map fun x => x / ws.sum)) u = (cumsum (ws.map fun x => x / ws.sum)).length :=
    le_antisymm (List.countP_le_length) (by omega)
  have hne : 0 < ws.length := by
    rcases ws with _ | ⟨x, l⟩
    · simp at hs
    · simp
  unfold searchsorted at hfull
  rw [List.countP_eq_length] at hfull
  have h1 := cdf_get ws (show ws.length - 1 < ws.length by omega)
  have hl : ws.length - 1 < (cumsum (ws.map fun x => x / ws.sum)).length := by omega
  have h2 := hfull _ (List.getElem_mem hl)
  rw [List.getElem?_eq_getElem hl, Option.getD_some, show ws.length - 1 + 1 = ws.length by omega, hlast] at h1
  rw [h1] at h2
  simp at h2
  linarith

/-- **C65.** The set of random numbers of `[0, 1)` that draw the value `i` has the length `w_i / Σ w`. -/
theorem C65_probability {ws : List ℝ} (hw : ∀ x ∈ ws, 0 ≤ x) (hs : 0 < ws.sum) {i : ℕ} (hi : i < ws.length) :
    MeasureTheory.volume {u : ℝ | u ∈ Set.Ico 0 1 ∧ searchsorted (cumsum (ws.map fun x => x / ws.sum)) u = i} = ENNReal.ofReal (ws[i] / ws.sum) := by
  have hlast : upTo ws ws.length = 1 := by rw [upTo, sum_get, div_self hs.ne']
  have h01 : upTo ws 0 = 0 := by simp [upTo]
  have h0 : 0 ≤ upTo ws i := h01 ▸ upTo_mono hw (Nat.zero_le i)
  have h1 : upTo ws (i + 1) ≤ 1 := hlast ▸ upTo_mono hw hi
  have hd : upTo ws (i + 1) - upTo ws i = ws[i] / ws.sum := by
    rw [upTo, upTo, Finset.sum_range_succ, ← sub_div]
    simp [hi]
  rw [← hd]
  apply le_antisymm
  · rw [← Real.volume_Icc]
    refine MeasureTheory.measure_mono ?_
    rintro u ⟨⟨hu0, hu1⟩, hu⟩
    obtain ⟨h2, h3⟩ := ((C65_draw hw hs hu0 hu1).2 i hi).mp hu
    refine ⟨?_, h3⟩
    rcases h2 with rfl | h2
    · rwa [h01]
    · exact h2.le
  · rw [← Real.volume_Ioo]
    refine MeasureTheory.measure_mono ?_
    rintro u ⟨h2, h3⟩
    have hu0 : 0 ≤ u := by linarith
    have hu1 : u < 1 := by linarith
    exact ⟨⟨hu0, hu1⟩, ((C65_draw hw hs hu0 hu1).2 i hi).mpr ⟨Or.inr h2, h3.le⟩⟩

/-- **C65.** For every density that is non-negative and not everywhere zero on the grid, all limits and all random numbers of `[0, 1)`, the
call does not raise; it returns as many poles as random numbers, sorted, all of them grid points within the limits. -/
theorem C65_call {p : ℝ → ℝ} {l0 l1 ns : ℝ} (hl : l0 ≤ l1) (hns : 0 ≤ ns) (hp : ∀ x, 0 ≤ p x) {r : RandomSampler} (hr : RandomSampler.init p l0 l1 ns = .ok r)
    (hpos : 0 < (r.eners.map p).sum) {us : List ℝ} (hus : ∀ u ∈ us, 0 ≤ u ∧ u < 1) :
    ∃ poles, r.call us = .ok poles ∧ poles.length = us.length ∧ poles.Pairwise (· ≤ ·) ∧ ∀ x ∈ poles, x ∈ r.eners ∧ l0 ≤ x ∧ x ≤ l1 := by
  have hge : 0 ≤ (l1 - l0) * ns := mul_nonneg (by linarith) hns
  have hnum : 0 < pyInt ((l1 - l0) * ns + 1) := by
    unfold pyInt
    rw [if_pos (by linarith [hge]), Int.floor_add_one]
    have := Int.floor_nonneg.mpr (hge)
    omega
  simp only [RandomSampler.init, linspace, if_neg (not_lt.mpr hnum.le), bind, Except.bind, pure, Except.pure, Except.ok.injEq] at hr
  set N := (pyInt ((l1 - l0) * ns + 1)).toNat with hN
  have hN1 : 1 ≤ N := by omega
  have he : r.eners = (List.range N).map fun k : ℕ => l0 + (k : ℝ) * ((l1 - l0) / ((N : ℝ) - 1)) := by rw [← hr]
  have hc : r.cdf = cumsum ((r.eners.map p).map fun x => x / (r.eners.map p).sum) := by rw [← hr]
  have hdraw : ∀ u ∈ us, ∃ x, r.draw u = .ok x ∧ x ∈ r.eners := by
    intro u hu
    have h1 := (C65_draw (ws := r.eners.map p) (by simp only [List.mem_map]; rintro _ ⟨x, _, rfl⟩; exact hp x) hpos (hus u hu).1 (hus u hu).2).1
    rw [← hc, List.length_map] at h1
    refine ⟨r.eners[searchsorted r.cdf u], ?_, List.getElem_mem _⟩
    unfold RandomSampler.draw
    rw [getItem_natCast]
  have hmap : ∃ ps, us.mapM r.draw = .ok ps ∧ ps.length = us.length ∧ ∀ x ∈ ps, x ∈ r.eners := by
    clear hus
    induction us with
    | nil => exact ⟨[], rfl, rfl, by simp⟩
    | cons u us ih =>
      obtain ⟨ps, h1, h2, h3⟩ := ih fun u hu => hdraw u (by simp [hu])
      obtain ⟨x, h4, h5⟩ := hdraw u (by simp)
      refine ⟨x :: ps, ?_, by simp [h2], by simpa using ⟨h5, h3⟩⟩
      simp [List.mapM_cons, h4, h1, bind, Except.bind, pure, Except.pure]
  obtain ⟨ps, h1, h2, h3⟩ := hmap
  refine ⟨ps.insertionSort (· ≤ ·), by simp [RandomSampler.call, h1, bind, Except.bind, pure, Except.pure], ?_, ?_, ?_⟩
  · rw [List.length_insertionSort, h2]
  · exact List.pairwise_insertionSort _ _
  · intro x hx
    have hx' := h3 x ((List.mem_insertionSort _).mp hx)
    refine ⟨hx', ?_⟩
    rw [he, List.mem_map] at hx'
    obtain ⟨k, hk, rfl⟩ := hx'
    rw [List.mem_range] at hk
    rcases Nat.lt_or_ge 1 N with h | h
    · have hN' : (0 : ℝ) < (N : ℝ) - 1 := by
        have : (1 : ℝ) < N := by exact_mod_cast h
        linarith
      have hk' : (k : ℝ) ≤ (N : ℝ) - 1 := by
        have : (k : ℝ) + 1 ≤ N := by exact_mod_cast hk
        linarith
      have hkn : (0 : ℝ) ≤ k := Nat.cast_nonneg k
      have hd : 0 ≤ (l1 - l0) / ((N : ℝ) - 1) := div_nonneg (by linarith) hN'.le
      constructor
      · nlinarith
      · have : (k : ℝ) * ((l1 - l0) / ((N : ℝ) - 1)) ≤ ((N : ℝ) - 1) * ((l1 - l0) / ((N : ℝ) - 1)) := mul_le_mul_of_nonneg_right hk' hd
        rw [mul_div_cancel₀ _ hN'.ne'] at this
        linarith
    · have hk0 : k = 0 := by omega
      subst hk0
      simp [hl]

/-- Non-vacuity: three weights, and the random number one half draws the value of index one. -/
example : searchsorted (cumsum (([1, 2, 1] : List ℝ).map fun x => x / ([1, 2, 1] : List ℝ).sum)) (1 / 2) = 1 := by
  refine ((C65_draw (by simp) (by norm_num) (by norm_num) (by norm_num)).2 1 (by simp)).mpr ?_
  norm_num [upTo, Finset.sum_range_succ]

/-- Non-vacuity of `C65_call`: a constant density on a grid of three points. -/
example : ∃ r, RandomSampler.init (fun _ => 1) 0 1 2 = .ok r ∧ 0 < (r.eners.map fun _ => (1 : ℝ)).sum := by
  have h : pyInt ((1 - 0) * 2 + 1) = 3 := by
    unfold pyInt
    norm_num
  refine ⟨_, by simp only [RandomSampler.init, linspace, h, bind, Except.bind, pure, Except.pure]; rfl, ?_⟩
  norm_num [Function.comp_def]

end Edpyt
