import Verif.Proof.NonLocalN
/-!
Properties C21, C22, C23: spin exchange and pair hopping.
-/
namespace Edpyt
open Spec

variable {K : Type} [Field K] [LinearOrder K]

theorem rowTerm_congr {n : ℕ} {A : ℕ → ℕ → K} {ci cj : ℕ → Bool} {val : ℕ → ℕ → K} {pos pos' : ℕ → ℕ → ℤ}
    (h : ∀ i j, i < n → j < n → ci i = true → cj j = true → pos i j = pos' i j) :
    rowTerm n A ci cj val pos = rowTerm n A ci cj val pos' := by
  unfold rowTerm
  apply List.flatMap_congr; intro i hi
  apply List.flatMap_congr; intro j hj
  split_ifs with hc
  · rw [h i j (List.mem_range.mp hi) (List.mem_range.mp hj) hc.2.1 hc.2.2]
  · rfl

theorem mem_rowTerm {n : ℕ} {A : ℕ → ℕ → K} {ci cj : ℕ → Bool} {val : ℕ → ℕ → K} {pos : ℕ → ℕ → ℤ} {x : K × ℤ}
    (h : x ∈ rowTerm n A ci cj val pos) : ∃ i j, i < n ∧ j < n ∧ ci i = true ∧ cj j = true ∧ x.2 = pos i j := by
  unfold rowTerm at h
  simp only [List.mem_flatMap, List.mem_range] at h
  obtain ⟨i, hi, j, hj, h⟩ := h
  split_ifs at h with hc
  · rw [List.mem_singleton] at h
    exact ⟨i, j, hi, hj, hc.2.1, hc.2.2, by rw [h]⟩
  · simp at h

section
variable {n p q : ℕ} (hn : n ≤ 32) {up dw : List ℕ} (hu : SectorList n p up) (hd : SectorList n q dw)
include hn hu hd

theorem nlEntries_bj (bj bj' : ℕ) (Jx Jp : Option (ℕ → ℕ → K)) {sup sdw : ℕ} (h1 : sup ∈ up) (h2 : sdw ∈ dw) :
    nlEntries bj n up dw Jx Jp sup sdw = nlEntries bj' n up dw Jx Jp sup sdw := by
  have hx : ∀ A : ℕ → ℕ → K, xEntries bj n up dw A sup sdw = xEntries bj' n up dw A sup sdw := by
    intro A
    apply rowTerm_congr
    intro i j hi hj ci cj
    simp only [Bool.and_eq_true, Bool.not_eq_true'] at ci cj
    have m1 := cdgc_mem hn hu h1 hi hj cj.1 ci.1
    have m2 := cdgc_mem hn hd h2 hj hi ci.2 cj.2
    simp only [binsearch_idxOf hu _ m1, binsearch_idxOf hd _ m2]
  have hp : ∀ A : ℕ → ℕ → K, pEntries bj n up dw A sup sdw = pEntries bj' n up dw A sup sdw := by
    intro A
    apply rowTerm_congr
    intro i j hi hj ci cj
    simp only [Bool.and_eq_true, Bool.not_eq_true'] at ci cj
    have m1 := cdgc_mem hn hu h1 hi hj cj.1 ci.1
    have m2 := cdgc_mem hn hd h2 hi hj cj.2 ci.2
    simp only [binsearch_idxOf hu _ m1, binsearch_idxOf hd _ m2]
  unfold nlEntries
  simp only [hx, hp]

theorem nlEntries_range (bj : ℕ) (Jx Jp : Option (ℕ → ℕ → K)) {sup sdw : ℕ} (h1 : sup ∈ up) (h2 : sdw ∈ dw) {x : K × ℤ}
    (hx : x ∈ nlEntries bj n up dw Jx Jp sup sdw) : 0 ≤ x.2 ∧ x.2 < ((dw.length * up.length : ℕ) : ℤ) := by
  have key : ∀ fu fd : ℕ, fu ∈ up → fd ∈ dw → x.2 = binsearch bj dw fd * up.length + binsearch bj up fu →
      0 ≤ x.2 ∧ x.2 < ((dw.length * up.length : ℕ) : ℤ) := by
    intro fu fd m1 m2 e
    have b1 := binsearch_range hu bj m1
    rw [binsearch_idxOf hd bj m2] at e
    have b2 := List.idxOf_lt_length_of_mem m2
    obtain ⟨k, hk⟩ := Int.eq_ofNat_of_zero_le b1.1
    rw [hk] at e b1
    have b3 : k < up.length := by omega
    have b4 := pairIndex_lt b3 b2
    rw [e]
    constructor
    · positivity
    · push_cast
      calc ((List.idxOf fd dw : ℕ) : ℤ) * up.length + k = ((k + up.length * List.idxOf fd dw : ℕ) : ℤ) := by
            push_cast; ring
        _ < ((dw.length * up.length : ℕ) : ℤ) := by exact_mod_cast b4
        _ = _ := by push_cast; ring
  unfold nlEntries at hx
  rw [List.mem_append] at hx
  rcases hx with hx | hx
  · cases Jx with
    | none => simp at hx
    | some A =>
      obtain ⟨i, j, hi, hj, ci, cj, e⟩ := mem_rowTerm hx
      simp only [Bool.and_eq_true, Bool.not_eq_true'] at ci cj
      exact key _ _ (cdgc_mem hn hu h1 hi hj cj.1 ci.1) (cdgc_mem hn hd h2 hj hi ci.2 cj.2) e
  · cases Jp with
    | none => simp at hx
    | some A =>
      obtain ⟨i, j, hi, hj, ci, cj, e⟩ := mem_rowTerm hx
      simp only [Bool.and_eq_true, Bool.not_eq_true'] at ci cj
      exact key _ _ (cdgc_mem hn hu h1 hi hj cj.1 ci.1) (cdgc_mem hn hd h2 hi hj cj.2 ci.2) e

theorem nlRows_bj (bj bj' : ℕ) (Jx Jp : Option (ℕ → ℕ → K)) :
    nlRows bj n up dw Jx Jp = nlRows bj' n up dw Jx Jp := by
  unfold nlRows
  apply List.flatMap_congr; intro sdw h2
  apply List.map_congr_left; intro sup h1
  exact nlEntries_bj hn hu hd bj bj' Jx Jp h1 h2

end

/-- **C21.** For `2 ≤ n ≤ 32` sites, every pair of particle numbers, an exchange matrix and an
optional pair hopping matrix: the build succeeds, never issues the "lower than calculated" warning
(the first component is `false`), writes nothing outside its buffers, whose length is
`(nnz_x + nnz_p)·binomial(n-2, nup-1)·binomial(n-2, ndw-1)` and equals the final row pointer, does not
depend on uninitialised memory, and every column index is a valid position. -/
theorem C21_nonlocal_buffers {w n p q : ℕ} (h2 : 2 ≤ n) (hn : n ≤ 32) (hnw : n ≤ w) (hp : p ≤ n) (hq : q ≤ n)
    {up dw : List ℕ} (hup : generateStates w n (p : ℤ) = .ok up) (hdw : generateStates w n (q : ℤ) = .ok dw)
    (Jx : ℕ → ℕ → K) (Jp : Option (ℕ → ℕ → K)) (vec : List K) (hv : vec.length = dw.length * up.length) :
    ∃ m v', (∀ jk bj, buildNonLocal jk bj n (some Jx) Jp up dw vec = .ok (false, m, v')) ∧
      m.data.length = (countNnzOffdiag n Jx + Jp.elim 0 (countNnzOffdiag n)) *
        (if p = 0 then 0 else (n - 2).choose (p - 1)) * (if q = 0 then 0 else (n - 2).choose (q - 1)) ∧
      m.indices.length = m.data.length ∧ m.indptr.length = dw.length * up.length + 1 ∧
      m.indptr[dw.length * up.length]? = some (m.data.length : ℤ) ∧
      ∀ x ∈ m.indices, 0 ≤ x ∧ x < ((dw.length * up.length : ℕ) : ℤ) := by
  have hu := sectorList_of_generate hn hnw hp hup
  have hd := sectorList_of_generate hn hnw hq hdw
  have key := fun jk bj => buildNonLocal_core h2 hp hq hu hd jk bj Jx Jp vec hv
  obtain ⟨m, v', e1, e2, e3, e4, e5, e6, e7⟩ := key (⟨fun _ => 0, fun _ => 0⟩ : Junk K) 0
  have hrl : (nlRows 0 n up dw (some Jx) Jp).length = dw.length * up.length := nlRows_length _ _ _ _ _ _
  have hflat : (nlRows 0 n up dw (some Jx) Jp).flatten.length = m.data.length := by rw [e2.1, List.length_map]
  have hb : ∀ p : ℕ, binom (n - 2) ((p : ℤ) - 1) = if p = 0 then 0 else (n - 2).choose (p - 1) := by
    intro p
    unfold binom
    split_ifs with c1 c2 c3
    · rfl
    · omega
    · omega
    · congr 1; omega
  refine ⟨m, v', ?_, ?_, e5, ?_, ?_, ?_⟩
  · intro jk bj
    obtain ⟨m', v'', g1, g2, g3, g4, g5, g6, g7⟩ := key jk bj
    rw [g1]
    rw [nlRows_bj hn hu hd bj 0] at g2
    have hv'' : v'' = v' := by
      apply List.ext_getElem?
      intro k
      by_cases hk : k < dw.length * up.length
      · rw [e7 k hk, g7 k hk]
      · rw [List.getElem?_eq_none (by omega), List.getElem?_eq_none (by omega)]
    rw [hv'']
    congr 3
    obtain ⟨d, r, ix, r1, c1⟩ := m
    obtain ⟨d', r', ix', r1', c1'⟩ := m'
    obtain ⟨a1, a2, a3, a4⟩ := e2
    obtain ⟨b1, b2, b3, b4⟩ := g2
    simp only at a1 a2 a3 a4 b1 b2 b3 b4 e3 g3
    rw [a1, a2, a3, a4, b1, b2, b3, b4, e3, g3]
  · rw [e4, hb, hb]; rfl
  · rw [e2.2.2.1, ptrs_length, hrl]
  · have := (isCsr_indptr e2 (dw.length * up.length) (by omega)).2
    rw [this, List.take_of_length_le (by omega), hflat]
  · intro x hx
    rw [e2.2.1, List.mem_map] at hx
    obtain ⟨y, hy, rfl⟩ := hx
    rw [List.mem_flatten] at hy
    obtain ⟨row, hrow, hy⟩ := hy
    unfold nlRows at hrow
    rw [List.mem_flatMap] at hrow
    obtain ⟨sdw, hsdw, hrow⟩ := hrow
    obtain ⟨sup, hsup, rfl⟩ := List.mem_map.mp hrow
    exact nlEntries_range hn hu hd 0 _ _ hsup hsdw hy

/-- Non-vacuity: two sites, one particle of each spin. -/
example : generateStates 64 2 (1 : ℕ) = .ok [1, 2] := by decide
example : (buildNonLocal (⟨fun _ => 7, fun _ => 9⟩ : Junk ℚ) 0 2 (some fun i j => if i = j then 0 else 3)
    (some fun i j => if i = j then 0 else 5) [1, 2] [1, 2] [0, 0, 0, 0]).map (fun r => (r.1, r.2.1.data, r.2.1.indices, r.2.1.indptr))
    = .ok (false, [5, -3, -3, 5], [3, 2, 1, 0], [0, 1, 2, 3, 4]) := by decide +kernel

/-- **C22, exact description of the code for fixed `(nup, ndw)`** (what is proved instead of C22,
because of the sign of the spin flip term, see `C22_refuted`). For symmetric coupling matrices the
built matrix is `pair hopping − (opposite spin part of the exchange)`, and the correction added to the
diagonal is the equal spin part of the exchange. Missing for C22: the sign `+` of the opposite spin
part. -/
theorem C22_nonlocal_elements_partial [CharZero K] {w n p q : ℕ} (h2 : 2 ≤ n) (hn : n ≤ 32) (hnw : n ≤ w) (hp : p ≤ n)
    (hq : q ≤ n) {up dw : List ℕ} (hup : generateStates w n (p : ℤ) = .ok up)
    (hdw : generateStates w n (q : ℤ) = .ok dw) (Jx : ℕ → ℕ → K) (Jp : Option (ℕ → ℕ → K))
    (hx : ∀ i j, i < n → j < n → Jx i j = Jx j i) (hJp : ∀ A ∈ Jp, ∀ i j, i < n → j < n → A i j = A j i)
    (vec : List K) (hv : vec.length = dw.length * up.length) (jk : Junk K) (bj : ℕ) :
    ∃ m v', buildNonLocal jk bj n (some Jx) Jp up dw vec = .ok (false, m, v') ∧
      (∀ (iu id ju jd : ℕ) (_ : iu < up.length) (_ : id < dw.length) (_ : ju < up.length) (_ : jd < dw.length),
        m.dense (iu + up.length * id) (ju + up.length * jd) =
          (pairHopping (offdiag (n := n) (optMat Jp)) - exchangeFlip (offdiag (n := n) Jx))
            (occ2 n up[iu] dw[id]) (occ2 n up[ju] dw[jd])) ∧
      (∀ (iu id : ℕ) (_ : iu < up.length) (_ : id < dw.length), v'[iu + up.length * id]? =
        some (vec[iu + up.length * id]?.getD 0 +
          exchangeSame (offdiag (n := n) Jx) (occ2 n up[iu] dw[id]) (occ2 n up[iu] dw[id]))) := by
  have hu := sectorList_of_generate hn hnw hp hup
  have hd := sectorList_of_generate hn hnw hq hdw
  obtain ⟨m, v', e1, e2, e3, e4, e5, e6, e7⟩ := buildNonLocal_core h2 hp hq hu hd jk bj Jx Jp vec hv
  have hrl : (nlRows bj n up dw (some Jx) Jp).length = dw.length * up.length := nlRows_length _ _ _ _ _ _
  have hox := offdiag_symm hx
  have hop : ∀ i j : Fin n, offdiag (n := n) (optMat Jp) i j = offdiag (n := n) (optMat Jp) j i := by
    apply offdiag_symm
    intro i j hi hj
    cases Jp with
    | none => rfl
    | some A => exact hJp A rfl i j hi hj
  refine ⟨m, v', e1, ?_, ?_⟩
  · intro iu id ju jd hiu hid hju hjd
    have hr := pairIndex_lt hiu hid
    rw [dense_eq e2 _ _ (by omega), nlRows_getElem _ _ _ _ _ _ _ _ hiu hid (by omega)]
    simp only [nlEntries, List.map_append, List.sum_append, Option.elim]
    rw [sum_xEntries hn hu hd bj Jx iu id ju jd hiu hid hju hjd, Matrix.sub_apply,
      pairHopping_symm _ hop, exchangeFlip_symm _ hox, exchangeFlip_eq _ hox, pairHopping_eq]
    cases Jp with
    | none => simp only [optMat, Option.getD, offdiag_zero]; simp
    | some A =>
      simp only [optMat, Option.getD]
      rw [sum_pEntries hn hu hd bj A iu id ju jd hiu hid hju hjd]
      ring
  · intro iu id hiu hid
    have hr := pairIndex_lt hiu hid
    rw [e7 _ hr]
    have h1 : (iu + up.length * id) % up.length = iu := by
      rw [Nat.add_mul_mod_self_left, Nat.mod_eq_of_lt hiu]
    have h2 : (iu + up.length * id) / up.length = id := by
      rw [Nat.add_mul_div_left _ _ (by omega), Nat.div_eq_of_lt hiu, Nat.zero_add]
    rw [h1, h2, List.getElem?_eq_getElem hiu, List.getElem?_eq_getElem hid]
    simp only [Option.getD_some]
    rw [nlDiag_eq_same (some Jx) ((hu.mem _).mp (List.getElem_mem _)).1]
    rfl

/-- **C22, fixed total particle number**: the matrix built for a sector of `N` particles on the `2n`
spin orbitals is exactly the documented operator, spin exchange plus pair hopping, whatever the
uninitialised memory contained (no symmetry assumed: row is the initial state). -/
theorem C22_nonlocal_fixed_N {w n N : ℕ} (hn : n + n ≤ 32) (hnw : n + n ≤ w) (hN : N ≤ n + n) {L : List ℕ}
    (hL : generateStates w (n + n) (N : ℤ) = .ok L) (Jx Jp : Option (ℕ → ℕ → K)) (hJ : ¬ (Jx.isNone ∧ Jp.isNone))
    (jk : Junk K) (bj : ℕ) :
    ∃ m, nBuildNonLocal jk bj n Jx Jp L = .ok m ∧
      ∀ (r c : ℕ) (_ : r < L.length) (_ : c < L.length), m.dense r c =
        (spinExchange (offdiag (n := n) (optMat Jx)) + pairHopping (offdiag (n := n) (optMat Jp)))
          (occF (n + n) L[c]) (occF (n + n) L[r]) := by
  have hS := sectorList_of_generate hn hnw hN hL
  have hl : 0 < L.length := by rw [hS.len]; exact Nat.choose_pos hN
  obtain ⟨m, e1, e2, e3⟩ := nBuildNonLocal_core (n := n) hl jk bj Jx Jp hJ
  refine ⟨m, e1, ?_⟩
  intro r c hr hc
  rw [dense_eq e2 _ _ (by simpa using hr)]
  simp only [List.getElem_map, nEntries, List.map_append, List.sum_append, Matrix.add_apply]
  congr 1
  · cases Jx with
    | none => simp only [optMat, Option.getD, Option.elim, offdiag_zero]; simp [spinExchange, offdiag_zero]
    | some A => exact sum_nx hn hS bj A (List.getElem_mem _) c hc
  · cases Jp with
    | none => simp only [optMat, Option.getD, Option.elim, offdiag_zero]; simp [pairHopping, offdiag_zero]
    | some A => exact sum_np hn hS bj A (List.getElem_mem _) c hc

/-- The coupling used below: two sites, `J_01 = J_10 = 3`. -/
def jTwo : ℕ → ℕ → ℚ := fun i j => if i = j then 0 else 3

/-- The documented operator has the element `+J` between `|01⟩|10⟩` and `|10⟩|01⟩`. -/
theorem spinExchange_two_sites :
    spinExchange (offdiag (n := 2) jTwo) (occ2 2 2 1) (occ2 2 1 2) = 3 := by
  obtain ⟨m, e1, e2⟩ := C22_nonlocal_fixed_N (w := 64) (n := 2) (N := 2) (L := [3, 5, 6, 9, 10, 12]) (by norm_num) (by norm_num)
    (by norm_num) (by decide) (some jTwo) none (by simp) (⟨fun _ => 0, fun _ => 0⟩ : Junk ℚ) 0
  have e3 : (nBuildNonLocal (⟨fun _ => 0, fun _ => 0⟩ : Junk ℚ) 0 2 (some jTwo) none [3, 5, 6, 9, 10, 12]).map
      (fun m => m.dense 3 2) = .ok 3 := by decide +kernel
  rw [e1] at e3
  have e4 := e2 3 2 (by norm_num) (by norm_num)
  have e5 : m.dense 3 2 = 3 := by simpa [Except.map] using e3
  rw [e5] at e4
  have hz : pairHopping (offdiag (n := 2) (optMat (none : Option (ℕ → ℕ → ℚ)))) = 0 := by
    simp [pairHopping, optMat, offdiag_zero]
  rw [hz, add_zero] at e4
  exact e4.symm

/-- **C22 is false as stated**: for two sites with one particle of each spin the code stores `-J`
where the documented exchange operator has `+J` (sign of the opposite spin term,
`edpyt/ham_non_local.py:127`). -/
theorem C22_refuted :
    ∃ m v', buildNonLocal (⟨fun _ => 0, fun _ => 0⟩ : Junk ℚ) 0 2 (some jTwo) none [1, 2] [1, 2] [0, 0, 0, 0] =
        .ok (false, m, v') ∧
      generateStates 64 2 (1 : ℕ) = .ok [1, 2] ∧
      m.dense 1 2 = -3 ∧ spinExchange (offdiag (n := 2) jTwo) (occ2 2 2 1) (occ2 2 1 2) = 3 := by
  refine ⟨⟨[-3, -3], [0, 0, 1, 2, 2], [2, 1], 4, 4⟩, [0, 0, 0, 0], by decide +kernel, by decide, by decide +kernel,
    spinExchange_two_sites⟩

/-- **C22, pair hopping without exchange matrix**: the call fails (`n = Jx.shape[0]`,
`edpyt/ham_non_local.py:71`), although the docstring allows either matrix to be absent. -/
theorem C22_pair_only_raises (jk : Junk K) (bj n : ℕ) (Jp : Option (ℕ → ℕ → K)) (up dw : List ℕ) (vec : List K) :
    buildNonLocal jk bj n none Jp up dw vec = .error .attributeError := rfl

/-- **C23, partial**: comparison of the two code paths on the same product states. For symmetric
couplings the element built for fixed `N` equals the element built for fixed `(nup, ndw)` (matrix plus
diagonal correction) plus twice the opposite spin exchange. Missing for C23: the extra term, which the
wrong sign of the opposite spin term produces (`C23_refuted`). -/
theorem C23_N_vs_Sz_partial [CharZero K] {w n p q N : ℕ} (h2 : 2 ≤ n) (hn : n + n ≤ 32) (hnw : n + n ≤ w) (hp : p ≤ n)
    (hq : q ≤ n) (hN : N ≤ n + n) {up dw L : List ℕ} (hup : generateStates w n (p : ℤ) = .ok up)
    (hdw : generateStates w n (q : ℤ) = .ok dw) (hL : generateStates w (n + n) (N : ℤ) = .ok L)
    (Jx : ℕ → ℕ → K) (Jp : Option (ℕ → ℕ → K)) (hx : ∀ i j, i < n → j < n → Jx i j = Jx j i)
    (hJp : ∀ A ∈ Jp, ∀ i j, i < n → j < n → A i j = A j i)
    (vec : List K) (hv : vec.length = dw.length * up.length) (jk : Junk K) (bj : ℕ) :
    ∃ m v' mN, buildNonLocal jk bj n (some Jx) Jp up dw vec = .ok (false, m, v') ∧
      nBuildNonLocal jk bj n (some Jx) Jp L = .ok mN ∧
      ∀ (iu id ju jd r c : ℕ) (_ : iu < up.length) (_ : id < dw.length) (_ : ju < up.length) (_ : jd < dw.length)
        (_ : r < L.length) (_ : c < L.length), L[r] = up[iu] + 2 ^ n * dw[id] → L[c] = up[ju] + 2 ^ n * dw[jd] →
        mN.dense r c = m.dense (iu + up.length * id) (ju + up.length * jd) +
          (if r = c then (v'[iu + up.length * id]?.getD 0) - (vec[iu + up.length * id]?.getD 0) else 0) +
          2 * exchangeFlip (offdiag (n := n) Jx) (occ2 n up[iu] dw[id]) (occ2 n up[ju] dw[jd]) := by
  obtain ⟨m, v', e1, e2, e3⟩ := C22_nonlocal_elements_partial h2 (by omega) (by omega) hp hq hup hdw Jx Jp hx hJp vec hv jk bj
  obtain ⟨mN, f1, f2⟩ := C22_nonlocal_fixed_N hn hnw hN hL (some Jx) Jp (by simp) jk bj
  have hu := sectorList_of_generate (by omega) (by omega) hp hup
  have hd := sectorList_of_generate (by omega) (by omega) hq hdw
  have hS := sectorList_of_generate hn hnw hN hL
  refine ⟨m, v', mN, e1, f1, ?_⟩
  intro iu id ju jd r c hiu hid hju hjd hr hc hLr hLc
  have b1 := ((hu.mem _).mp (List.getElem_mem hiu)).1
  have b2 := ((hd.mem _).mp (List.getElem_mem hid)).1
  have b3 := ((hu.mem _).mp (List.getElem_mem hju)).1
  have b4 := ((hd.mem _).mp (List.getElem_mem hjd)).1
  have hox := offdiag_symm hx
  have hop : ∀ i j : Fin n, offdiag (n := n) (optMat Jp) i j = offdiag (n := n) (optMat Jp) j i := by
    apply offdiag_symm
    intro i j hi hj
    cases Jp with
    | none => rfl
    | some A => exact hJp A rfl i j hi hj
  rw [f2 r c hr hc, e2 iu id ju jd hiu hid hju hjd, e3 iu id hiu hid]
  have oc : ∀ a b, occF (n + n) (a + 2 ^ n * b) = occ2 n a b := fun _ _ => rfl
  rw [hLr, hLc, oc, oc, Matrix.add_apply, Matrix.sub_apply, exchange_split, Matrix.add_apply,
    pairHopping_symm _ hop, exchangeFlip_symm (offdiag (n := n) (optMat (some Jx))) hox]
  have hrc : r = c ↔ occ2 n up[ju] dw[jd] = occ2 n up[iu] dw[id] := by
    rw [occ2_inj b3 b4 b1 b2]
    constructor
    · intro h
      have e : occ2 n up[iu] dw[id] = occ2 n up[ju] dw[jd] := by
        rw [← oc, ← oc, ← hLr, ← hLc]; simp only [h]
      rw [occ2_inj b1 b2 b3 b4] at e
      exact ⟨e.1.symm, e.2.symm⟩
    · intro h
      have e : L[r] = L[c] := by rw [hLr, hLc, h.1, h.2]
      exact (hS.nodup.getElem_inj_iff).mp e
  by_cases h : r = c
  · have h' := hrc.mp h
    rw [if_pos h, h']
    simp only [Option.getD_some, optMat]
    ring
  · rw [if_neg h, exchangeSame_occ2 _ (by intro i; simp [offdiag]) b1, if_neg (fun h' => h (hrc.mpr h'))]
    simp only [optMat, Option.getD_some]
    ring

/-- **C23, pair hopping**: without an (above threshold) exchange coupling the two paths agree. -/
theorem C23_pair_hopping_agrees [CharZero K] {w n p q N : ℕ} (h2 : 2 ≤ n) (hn : n + n ≤ 32) (hnw : n + n ≤ w) (hp : p ≤ n)
    (hq : q ≤ n) (hN : N ≤ n + n) {up dw L : List ℕ} (hup : generateStates w n (p : ℤ) = .ok up)
    (hdw : generateStates w n (q : ℤ) = .ok dw) (hL : generateStates w (n + n) (N : ℤ) = .ok L)
    (Jp : ℕ → ℕ → K) (hJp : ∀ i j, i < n → j < n → Jp i j = Jp j i)
    (vec : List K) (hv : vec.length = dw.length * up.length) (jk : Junk K) (bj : ℕ) :
    ∃ m v' mN, buildNonLocal jk bj n (some fun _ _ => 0) (some Jp) up dw vec = .ok (false, m, v') ∧
      nBuildNonLocal jk bj n (some fun _ _ => 0) (some Jp) L = .ok mN ∧
      ∀ (iu id ju jd r c : ℕ) (_ : iu < up.length) (_ : id < dw.length) (_ : ju < up.length) (_ : jd < dw.length)
        (_ : r < L.length) (_ : c < L.length), L[r] = up[iu] + 2 ^ n * dw[id] → L[c] = up[ju] + 2 ^ n * dw[jd] →
        mN.dense r c = m.dense (iu + up.length * id) (ju + up.length * jd) +
          (if r = c then (v'[iu + up.length * id]?.getD 0) - (vec[iu + up.length * id]?.getD 0) else 0) := by
  obtain ⟨m, v', mN, e1, e2, e3⟩ := C23_N_vs_Sz_partial h2 hn hnw hp hq hN hup hdw hL (fun _ _ => 0) (some Jp)
    (by simp) (by intro A hA; obtain rfl := Option.some.inj hA; exact hJp) vec hv jk bj
  refine ⟨m, v', mN, e1, e2, ?_⟩
  intro iu id ju jd r c hiu hid hju hjd hr hc hLr hLc
  rw [e3 iu id ju jd r c hiu hid hju hjd hr hc hLr hLc]
  have : exchangeFlip (offdiag (n := n) fun _ _ => (0 : K)) = 0 := by simp [exchangeFlip, offdiag_zero]
  rw [this]; simp

/-- **C23 is false**: the two builds differ in sign at the element between `|10⟩|01⟩` and `|01⟩|10⟩`
(states `6 = 2 + 4·1` and `9 = 1 + 4·2`, positions 2 and 3 of the `N = 2` sector). -/
theorem C23_refuted :
    ∃ m v' mN, buildNonLocal (⟨fun _ => 0, fun _ => 0⟩ : Junk ℚ) 0 2 (some jTwo) none [1, 2] [1, 2] [0, 0, 0, 0] =
        .ok (false, m, v') ∧
      nBuildNonLocal (⟨fun _ => 0, fun _ => 0⟩ : Junk ℚ) 0 2 (some jTwo) none [3, 5, 6, 9, 10, 12] = .ok mN ∧
      generateStates 64 4 (2 : ℕ) = .ok [3, 5, 6, 9, 10, 12] ∧ m.dense 1 2 = -3 ∧ mN.dense 2 3 = 3 := by
  refine ⟨⟨[-3, -3], [0, 0, 1, 2, 2], [2, 1], 4, 4⟩, [0, 0, 0, 0],
    ⟨[-3/2, -3/2, 3/2, 3/2, 3/2, 3/2, -3/2, -3/2], [0, 2, 2, 4, 6, 6, 8], [0, 0, 3, 3, 2, 2, 5, 5], 6, 6⟩,
    by decide +kernel, by decide +kernel, by decide, by decide +kernel, by decide +kernel⟩

end Edpyt
