import Verif.Model.NnzCsr
import Verif.Proof.Hopping
/-!
C188: compression of a one-body matrix with its diagonal.
-/
namespace Edpyt
open Spec
variable {K : Type} [Field K] [LinearOrder K]

/-- The elements of row `i` above the threshold. -/
def bigRow (n : ℕ) (A : ℕ → ℕ → K) (i : ℕ) : List (K × ℤ) := ((List.range n).filter fun j => |A i j| > 1 / 10 ^ 7).map fun j => (A i j, (j : ℤ))

theorem bigRow_flatMap (n : ℕ) (A : ℕ → ℕ → K) (i : ℕ) :
    bigRow n A i = (List.range n).flatMap fun j => if |A i j| > 1 / 10 ^ 7 then [(A i j, (j : ℤ))] else [] := by
  unfold bigRow
  induction List.range n with
  | nil => rfl
  | cons x xs ih =>
    rw [List.filter_cons, List.flatMap_cons]
    by_cases h : |A i x| > 1 / 10 ^ 7
    · rw [if_pos (by simpa using h), if_pos h, List.map_cons, ih]; rfl
    · rw [if_neg (by simpa using h), if_neg h, ih]; rfl

theorem nnzCsrmat_rows (jk : Junk K) (n : ℕ) (A : ℕ → ℕ → K) {nnz : ℕ} (hc : ((List.range n).map (bigRow n A)).flatten.length ≤ nnz) :
    ∃ st, forM' (compressRowAll n A) (List.range n) (0, emptyCsrmat jk nnz n n) = .ok st ∧ RowsDone nnz n n ((List.range n).map (bigRow n A)) st := by
  obtain ⟨st, h1, h2⟩ := rowsDone_loop (compressRowAll n A) (bigRow n A) (List.range n) [] _
    (rowsDone_empty jk nnz n n) (by
      intro k hk rows' st' hl hst hcap
      simp only [List.length_range] at hk
      simp only [List.getElem_range, List.length_nil, Nat.zero_add] at hl hcap ⊢
      have := rowsDone_step (f := forM' (compressElemAll A k) (List.range n)) (E := bigRow n A k) hst
        (by
          intro P
          rw [bigRow_flatMap]
          apply emits_forM'
          intro j _
          unfold compressElemAll
          split_ifs with hkeep
          · exact emits_put _ _ _ _ _ _
          · exact emits_pure _ _ _ _) (by omega) hcap
      rw [hl] at this
      exact this) (by
      rw [List.flatMap_def]; simp only [List.flatten_nil, List.length_nil, Nat.zero_add]
      exact hc)
  exact ⟨st, h1, by simpa using h2⟩

theorem bigRow_count (n : ℕ) (A : ℕ → ℕ → K) : ((List.range n).map (bigRow n A)).flatten.length
    = (Finset.univ.filter fun ij : Fin n × Fin n => |A ij.1 ij.2| > 1 / 10 ^ 7).card := by
  classical
  rw [Finset.card_filter, Fintype.sum_prod_type, List.length_flatten, List.map_map, sum_map_range, Finset.sum_range]
  refine Finset.sum_congr rfl fun i _ => ?_
  have key : ∀ (l : List ℕ), (l.filter fun j => |A i j| > 1 / 10 ^ 7).length = (l.map fun j => if |A i j| > 1 / 10 ^ 7 then 1 else 0).sum := by
    intro l
    induction l with
    | nil => rfl
    | cons x xs ih =>
      rw [List.filter_cons]
      by_cases h : |A i x| > 1 / 10 ^ 7
      · rw [if_pos (by simpa using h), List.length_cons, ih, List.map_cons, List.sum_cons, if_pos h]; omega
      · rw [if_neg (by simpa using h), ih, List.map_cons, List.sum_cons, if_neg h]; omega
  simp only [Function.comp, bigRow, List.length_map]
  rw [key, sum_map_range, Finset.sum_range]

/-- **C188.** `nnz_csrmat(A, nnz)` with the number of elements above the threshold returns, for every size and matrix and whatever the uninitialised
buffers contain, arrays that are full, and their dense form is `A` with the elements at or below the threshold replaced by zero. -/
theorem C188_compression (n : ℕ) (A : ℕ → ℕ → K) (jk : Junk K) :
    ∃ m, nnzCsrmat jk n A (Finset.univ.filter fun ij : Fin n × Fin n => |A ij.1 ij.2| > 1 / 10 ^ 7).card = .ok m ∧
      m.data.length = (Finset.univ.filter fun ij : Fin n × Fin n => |A ij.1 ij.2| > 1 / 10 ^ 7).card ∧ m.indices.length = m.data.length ∧
      m.indptr.length = n + 1 ∧ m.rows = n ∧ m.cols = n ∧
      ∀ i j : Fin n, m.dense i j = if |A i j| > 1 / 10 ^ 7 then A i j else 0 := by
  classical
  rw [← bigRow_count]
  obtain ⟨st, h1, h2⟩ := nnzCsrmat_rows jk n A le_rfl
  obtain ⟨h3, -, h4, h5, h6⟩ := isCsr_of_rowsDone h2 (by simp) rfl
  refine ⟨st.2, by unfold nnzCsrmat; rw [h1]; rfl, h5, by rw [h6, h5], by rw [h3.2.2.1, ptrs_length]; simp, by rw [h3.2.2.2]; simp, h4, fun i j => ?_⟩
  rw [dense_eq h3 i j (by simp)]
  simp only [List.getElem_map, List.getElem_range, bigRow, List.map_map]
  rw [sum_map_filter, sum_map_range, Finset.sum_eq_single (j : ℕ)]
  · simp [Function.comp]
  · intro b _ hb
    have : ¬ ((b : ℤ) = (j : ℕ)) := by exact_mod_cast hb
    simp [Function.comp, this]
  · intro h; exact absurd (Finset.mem_range.mpr j.2) h

/-- With a larger `nnz` the function still returns, and the row pointers end at the number of elements stored. -/
theorem C188_larger (n : ℕ) (A : ℕ → ℕ → K) (jk : Junk K) {nnz : ℕ} (hc : (Finset.univ.filter fun ij : Fin n × Fin n => |A ij.1 ij.2| > 1 / 10 ^ 7).card ≤ nnz) :
    ∃ m, nnzCsrmat jk n A nnz = .ok m ∧ m.data.length = nnz ∧ m.indptr[n]? = some ((Finset.univ.filter fun ij : Fin n × Fin n => |A ij.1 ij.2| > 1 / 10 ^ 7).card : ℤ) := by
  rw [← bigRow_count] at hc ⊢
  obtain ⟨st, h1, P, ⟨-, -, -, h4, -, h6, -, -⟩, hPl, hPt⟩ := nnzCsrmat_rows jk n A hc
  refine ⟨st.2, by unfold nnzCsrmat; rw [h1]; rfl, h4, ?_⟩
  rw [h6]
  have h := congrArg (fun l => l[n]?) hPt
  simp only [List.length_map, List.length_range, List.getElem?_take, show n < n + 1 by omega, if_true] at h
  rw [h, List.getElem?_eq_getElem (by rw [ptrs_length]; simp), ptrs_getElem, List.take_of_length_le (by simp)]

/-- A 2×2 matrix with diagonal elements and one element below the threshold. -/
example : (nnzCsrmat (⟨fun _ => 7, fun _ => 9⟩ : Junk ℚ) 2
    (fun i j => if i = j then 5 else if i = 0 then 3 else 1 / 10 ^ 8) 3).map (fun m => (m.data, m.indices, m.indptr))
    = .ok ([5, 3, 5], [0, 1, 1], [0, 2, 3]) := by decide +kernel

/-- One place too few: the elements do not fit. -/
example : (nnzCsrmat (⟨fun _ => 7, fun _ => 9⟩ : Junk ℚ) 2 (fun _ _ => 1) 3).map (fun m => m.data) = .error .indexError := by decide +kernel

end Edpyt
