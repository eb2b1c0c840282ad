import Verif.Proof.Hopping
/-!
Properties C14, C15, C16: compression of one-body matrices and the hopping Hamiltonian.
-/
namespace Edpyt
open Spec

variable {K : Type} [Field K] [LinearOrder K]

/-- **C14.** For every `n` and every matrix `A` the compression succeeds, the arrays have exactly the
allocated length (independent of the uninitialised content of the buffers), row pointers start at 0,
end at the number of elements and do not decrease, inside a row the column indices strictly increase
(so each element is stored once), and the dense form is the off-diagonal part of `A` above the
threshold. -/
theorem C14_compression (n : ℕ) (A : ℕ → ℕ → K) :
    ∃ m : Csr K, (∀ jk, nnzOffdiagCsrmat jk n A (countNnzOffdiag n A) = .ok m) ∧
      m.data.length = countNnzOffdiag n A ∧ m.indices.length = countNnzOffdiag n A ∧
      countNnzOffdiag n A = (Finset.univ.filter (fun ij : Fin n × Fin n =>
        ij.1 ≠ ij.2 ∧ |A ij.1 ij.2| > 1 / 10 ^ 7)).card ∧
      m.indptr.length = n + 1 ∧ m.indptr[0]? = some 0 ∧ m.indptr[n]? = some (countNnzOffdiag n A : ℤ) ∧
      (∀ i j : Fin n, m.dense i j = if i ≠ j ∧ |A i j| > 1 / 10 ^ 7 then A i j else 0) ∧
      (∀ i : ℕ, i < n → ∃ lo hi : ℕ, m.indptr[i]? = some (lo : ℤ) ∧ m.indptr[i + 1]? = some (hi : ℤ) ∧
        lo ≤ hi ∧ hi ≤ m.indices.length ∧
        ∀ p q : ℕ, lo ≤ p → p < q → q < hi → ∃ a b : ℤ, m.indices[p]? = some a ∧ m.indices[q]? = some b ∧
          0 ≤ a ∧ a < b ∧ b < n) := by
  classical
  obtain ⟨m, h1, h2, h3, h4, h5⟩ := nnzOffdiagCsrmat_core (⟨fun _ => 0, fun _ => 0⟩ : Junk K) n A
  set rows := (List.range n).map (keptRow n A) with hrows
  have hrl : rows.length = n := by simp [hrows]
  have htot : rows.flatten.length = countNnzOffdiag n A := (countNnzOffdiag_eq n A).symm
  refine ⟨m, ?_, h4, h5, ?_, ?_, ?_, ?_, ?_, ?_⟩
  · intro jk
    obtain ⟨m', g1, g2, g3, -⟩ := nnzOffdiagCsrmat_core jk n A
    rw [g1]
    congr 1
    obtain ⟨d, p, ix, r, c⟩ := m
    obtain ⟨d', p', ix', r', c'⟩ := m'
    obtain ⟨a1, a2, a3, a4⟩ := h2
    obtain ⟨b1, b2, b3, b4⟩ := g2
    simp only at a1 a2 a3 a4 b1 b2 b3 b4 h3 g3
    rw [a1, a2, a3, a4, b1, b2, b3, b4, h3, g3]
  · rw [countNnz_sum, Finset.card_filter, Fintype.sum_prod_type, Finset.sum_range]
    apply Finset.sum_congr rfl; intro i _
    rw [Finset.sum_range]
    apply Finset.sum_congr rfl; intro j _
    have : keepElem A i j = true ↔ (i ≠ j ∧ |A i j| > 1 / 10 ^ 7) := by
      unfold keepElem
      rw [Bool.and_eq_true, decide_eq_true_iff, decide_eq_true_iff]
      simp [Fin.ext_iff]
    simp only [this]
  · rw [h2.2.2.1, ptrs_length, hrl]
  · have := (isCsr_indptr h2 0 (by omega)).2
    simpa using this
  · have := (isCsr_indptr h2 n (by omega)).2
    rw [this, List.take_of_length_le (by omega), htot]
  · intro i j
    rw [dense_eq h2 i j (by omega)]
    simp only [hrows, List.getElem_map, List.getElem_range, keptRow, List.map_map]
    rw [sum_map_filter, sum_map_range, Finset.sum_eq_single (j : ℕ)]
    · have : keepElem A i j = true ↔ (i ≠ j ∧ |A i j| > 1 / 10 ^ 7) := by
        unfold keepElem
        rw [Bool.and_eq_true, decide_eq_true_iff, decide_eq_true_iff]
        simp [Fin.ext_iff]
      simp only [this, Function.comp, if_true]
    · intro b _ hb
      have : ¬ ((b : ℤ) = (j : ℕ)) := by exact_mod_cast hb
      simp [Function.comp, this]
    · intro h; exact absurd (Finset.mem_range.mpr j.2) h
  · intro i hi
    have hi' : i < rows.length := by omega
    refine ⟨_, _, (isCsr_indptr h2 i (by omega)).2, (isCsr_indptr h2 (i + 1) (by omega)).2, ?_, ?_, ?_⟩
    · rw [take_flatten_succ _ _ hi', List.length_append]; omega
    · rw [h5, ← htot]
      conv_rhs => rw [← List.take_append_drop (i + 1) rows, List.flatten_append, List.length_append]
      omega
    · intro p q hp hpq hq
      rw [take_flatten_succ _ _ hi', List.length_append] at hq
      obtain ⟨k, rfl⟩ := Nat.exists_eq_add_of_le hp
      obtain ⟨l, rfl⟩ := Nat.exists_eq_add_of_le (hp.trans hpq.le)
      have hl : l < rows[i].length := by omega
      have hk : k < rows[i].length := by omega
      refine ⟨_, _, (isCsr_read h2 i k hi' hk).2, (isCsr_read h2 i l hi' hl).2, ?_⟩
      have hlen : rows[i].length = ((List.range n).filter (keepElem A i)).length := by simp [hrows, keptRow]
      have hpw : ((List.range n).filter (keepElem A i)).Pairwise (· < ·) :=
        List.Pairwise.filter _ List.pairwise_lt_range
      have hmem := List.mem_filter.mp (List.getElem_mem (l := (List.range n).filter (keepElem A i)) (n := l) (by omega))
      have hlt := List.pairwise_iff_getElem.mp hpw k l (by omega) (by omega) (by omega)
      simp only [hrows, List.getElem_map, List.getElem_range, keptRow]
      have := List.mem_range.mp hmem.1
      omega

/-- Non-vacuity: a 3×3 matrix with one element below the threshold. -/
example : (nnzOffdiagCsrmat (⟨fun _ => 7, fun _ => 9⟩ : Junk ℚ) 2
    (fun i j => if i = j then 5 else if i = 0 then 3 else 1 / 10 ^ 8) 1).map (fun m => (m.data, m.indices, m.indptr))
    = .ok ([3], [1], [0, 1, 1]) := by decide +kernel

/-- **C15.** For every number of sites `2 ≤ n ≤ 32`, particle number and one-body matrix, building one
spin component of the hopping Hamiltonian succeeds; the final counter equals the allocated number
`nnz_offdiag · binomial(n-2, p-1)`, which is the length of both buffers; the outcome does not depend
on the uninitialised buffer content; every stored column index is a valid position (a looked up state
is always found). -/
theorem C15_hopping_buffers {w n p : ℕ} (h2 : 2 ≤ n) (hn : n ≤ 32) (hnw : n ≤ w) (hp : p ≤ n) {L : List ℕ}
    (hL : generateStates w n (p : ℤ) = .ok L) (A : ℕ → ℕ → K) :
    ∃ count m, (∀ jk bj, buildSpinHopping jk bj n A L = .ok (count, m)) ∧
      count = countNnzOffdiag n A * (if p = 0 then 0 else (n - 2).choose (p - 1)) ∧
      m.data.length = count ∧ m.indices.length = count ∧
      m.indptr.length = L.length + 1 ∧ m.indptr[L.length]? = some (count : ℤ) ∧
      ∀ x ∈ m.indices, 0 ≤ x ∧ x < L.length := by
  have hS := sectorList_of_generate hn hnw hp hL
  have key := fun jk bj => buildSpinHopping_core h2 hn hp hS jk bj A
  obtain ⟨⟨cnt, m⟩, e1, e2, e3, e4, e5, e6⟩ := key (⟨fun _ => 0, fun _ => 0⟩ : Junk K) 0
  simp only at e2 e3 e4 e5 e6
  refine ⟨cnt, m, ?_, ?_, e5, e6, ?_, ?_, ?_⟩
  · intro jk bj
    obtain ⟨⟨cnt', m'⟩, g1, g2, g3, g4, -⟩ := key jk bj
    rw [g1]
    simp only at g2 g3 g4
    congr 2
    · rw [e3, g3]
    obtain ⟨d, q, ix, r, c⟩ := m
    obtain ⟨d', q', ix', r', c'⟩ := m'
    obtain ⟨a1, a2, a3, a4⟩ := e2
    obtain ⟨b1, b2, b3, b4⟩ := g2
    simp only at a1 a2 a3 a4 b1 b2 b3 b4 e4 g4
    rw [a1, a2, a3, a4, b1, b2, b3, b4, e4, g4]
  · rw [e3]
    congr 1
    unfold binom
    split_ifs with c1 c2 c3
    · rfl
    · omega
    · omega
    · congr 1; omega
  · rw [e2.2.2.1, ptrs_length]; simp
  · have := (isCsr_indptr e2 L.length (by simp)).2
    rw [this, List.take_of_length_le (by simp), total_hop hS A, e3]
  · intro x hx
    rw [e2.2.1, List.mem_map] at hx
    obtain ⟨y, hy, rfl⟩ := hx
    rw [List.mem_flatten] at hy
    obtain ⟨row, hrow, hy⟩ := hy
    obtain ⟨s, hs, rfl⟩ := List.mem_map.mp hrow
    unfold hopEntries at hy
    rw [List.mem_flatMap] at hy
    obtain ⟨i, hi, hy⟩ := hy
    rw [List.mem_flatMap] at hy
    obtain ⟨j, hj, hy⟩ := hy
    unfold hopPair at hy
    split_ifs at hy with hc
    · rw [List.mem_singleton] at hy
      subst hy
      have hm := cdgc_mem hn hS hs (List.mem_range.mp hi) (List.mem_range.mp hj) hc.2.2 hc.2.1
      have := List.idxOf_lt_length_of_mem hm
      simp only
      omega
    · simp at hy

/-- **C16.** The element in row `r`, column `c` of the built matrix is
`⟨state c| Σ_{i≠j} H_ij c†_i c_j |state r⟩` (elements of `H` up to the threshold dropped). -/
theorem C16_hopping_elements {w n p : ℕ} (h2 : 2 ≤ n) (hn : n ≤ 32) (hnw : n ≤ w) (hp : p ≤ n) {L : List ℕ}
    (hL : generateStates w n (p : ℤ) = .ok L) (A : ℕ → ℕ → K) (jk : Junk K) (bj : ℕ) :
    ∃ count m, buildSpinHopping jk bj n A L = .ok (count, m) ∧
      ∀ (r c : ℕ) (hr : r < L.length) (hc : c < L.length),
        m.dense r c = oneBody (offdiag (n := n) A) (occF n L[c]) (occF n L[r]) := by
  have hS := sectorList_of_generate hn hnw hp hL
  obtain ⟨⟨cnt, m⟩, e1, e2, -⟩ := buildSpinHopping_core h2 hn hp hS jk bj A
  exact ⟨cnt, m, e1, fun r c hr hc => dense_hop hn hS A e2 r c hr hc⟩

/-- Transpose of the one-body operator. -/
theorem oneBody_transpose {n : ℕ} (t : Fin n → Fin n → K) :
    (oneBody t).transpose = oneBody (fun i j => t j i) := by
  unfold oneBody
  rw [Matrix.transpose_sum]
  simp only [Matrix.transpose_sum, Matrix.transpose_smul, Matrix.transpose_mul]
  rw [Finset.sum_comm]
  rfl

/-- **C16**, symmetric matrices: the built matrix is the matrix of the hopping operator,
`⟨row| Σ_{i≠j} H_ij c†_i c_j |column⟩`. -/
theorem C16_hopping_symmetric {w n p : ℕ} (h2 : 2 ≤ n) (hn : n ≤ 32) (hnw : n ≤ w) (hp : p ≤ n) {L : List ℕ}
    (hL : generateStates w n (p : ℤ) = .ok L) (A : ℕ → ℕ → K) (hA : ∀ i j, i < n → j < n → A i j = A j i) (jk : Junk K)
    (bj : ℕ) :
    ∃ count m, buildSpinHopping jk bj n A L = .ok (count, m) ∧
      ∀ (r c : ℕ) (hr : r < L.length) (hc : c < L.length),
        m.dense r c = oneBody (offdiag (n := n) A) (occF n L[r]) (occF n L[c]) := by
  obtain ⟨cnt, m, e1, e2⟩ := C16_hopping_elements h2 hn hnw hp hL A jk bj
  refine ⟨cnt, m, e1, fun r c hr hc => ?_⟩
  rw [e2 r c hr hc]
  have h := congrFun (congrFun (oneBody_transpose (offdiag (n := n) A)) (occF n L[r])) (occF n L[c])
  rw [Matrix.transpose_apply] at h
  rw [h]
  congr 2
  funext i j
  simp only [offdiag, hA (j : ℕ) (i : ℕ) j.2 i.2, ne_comm]

/-- The element convention matters: for a non-symmetric one-body matrix the built matrix is the
transpose of the operator's matrix (here `H_01 = 1`, `H_10 = 0`, one particle on two sites; states
`01, 10`). -/
theorem C16_nonsymmetric_is_transposed :
    ∃ m : Csr ℚ, (buildSpinHopping ⟨fun _ => 0, fun _ => 0⟩ 0 2 (fun i j => if i = 0 ∧ j = 1 then 1 else 0) [1, 2]).map
      Prod.snd = .ok m ∧ m.dense 1 0 = 1 ∧ m.dense 0 1 = 0 := by
  refine ⟨⟨[1], [0, 0, 1], [0], 2, 2⟩, by decide +kernel, by decide +kernel, by decide +kernel⟩

example : generateStates 64 3 (1 : ℕ) = .ok [1, 2, 4] := by decide
example : (buildSpinHopping (⟨fun _ => 0, fun _ => 0⟩ : Junk ℚ) 0 3
    (fun i j => if i = j then 0 else (i + j : ℕ)) [1, 2, 4]).map (fun x => (x.1, x.2.data)) =
    .ok (6, [1, 2, 1, 3, 2, 3]) := by decide +kernel

end Edpyt
