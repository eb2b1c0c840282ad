import Verif.Model.Py
import Mathlib.Algebra.Order.Field.Basic
/-!
Model of the CSR containers and of the compression of a one-body matrix,
`edpyt/ham_hopping.py:33-80`. Scalars are an arbitrary linearly ordered field instead of `float64`;
`int32` overflow of index arrays is not modelled.
-/
namespace Edpyt

/-- `cs_type`, `edpyt/ham_hopping.py:33`. -/
structure Csr (K : Type) where
  data : List K
  indptr : List ℤ
  indices : List ℤ
  rows : ℕ
  cols : ℕ
  deriving DecidableEq, Repr

/-- Arbitrary content of uninitialised memory (`np.empty`). Source: `edpyt/ham_hopping.py:36-43`. -/
structure Junk (K : Type) where
  data : ℕ → K
  idx : ℕ → ℤ

/-- `empty_csrmat`, `edpyt/ham_hopping.py:36-43`. -/
def emptyCsrmat {K : Type} (jk : Junk K) (nnz r c : ℕ) : Csr K :=
  { data := (List.range nnz).map jk.data
    indptr := ((List.range (r + 1)).map jk.idx).set 0 0
    indices := (List.range nnz).map jk.idx
    rows := r
    cols := c }

/-- The pair of statements `data[count] = x; indices[count] = j`
(`edpyt/ham_hopping.py:75-76` and `105-106`, `edpyt/ham_non_local.py:127-128` and `152-153`). -/
def Csr.put {K : Type} (m : Csr K) (count : ℕ) (x : K) (j : ℤ) : Except PyErr (Csr K) := do
  let d ← setItem m.data count x
  let ix ← setItem m.indices count j
  pure { m with data := d, indices := ix }

/-- `indptr[i+1] = indptr[i] + added` (`edpyt/ham_hopping.py:78` and `109`,
`edpyt/ham_non_local.py:156`). -/
def Csr.closeRow {K : Type} (m : Csr K) (i : ℤ) (added : ℤ) : Except PyErr (Csr K) := do
  let a ← getItem m.indptr i
  let p ← setItem m.indptr (i + 1) (a + added)
  pure { m with indptr := p }

/-- Python `range(lo, hi)`. Source: `edpyt/ham_non_local.py:119`. -/
def pyRange (lo hi : ℤ) : List ℤ := (List.range (hi - lo).toNat).map fun (k : ℕ) => lo + (k : ℤ)

section
variable {K : Type} [Field K] [LinearOrder K]

/-- `(i != j) and (abs(A[i,j]) > 1e-7)`, `edpyt/ham_hopping.py:54,74`. -/
def keepElem (A : ℕ → ℕ → K) (i j : ℕ) : Bool := decide (i ≠ j) && decide (|A i j| > 1 / 10 ^ 7)

/-- `count_nnz_offdiag`, `edpyt/ham_hopping.py:46-57`; `A` is an `n`×`n` array. -/
def countNnzOffdiag (n : ℕ) (A : ℕ → ℕ → K) : ℕ :=
  (List.range n).foldl (fun count i =>
    (List.range n).foldl (fun count j => if keepElem A i j then count + 1 else count) count) 0

/-- Body of the inner loop, `edpyt/ham_hopping.py:74-77`. -/
def compressElem (A : ℕ → ℕ → K) (i : ℕ) (st : ℕ × Csr K) (j : ℕ) : Except PyErr (ℕ × Csr K) :=
  if keepElem A i j then do
    let m ← st.2.put st.1 (A i j) j
    pure (st.1 + 1, m)
  else pure st

/-- Body of the outer loop, `edpyt/ham_hopping.py:72-78`. -/
def compressRow (n : ℕ) (A : ℕ → ℕ → K) (st : ℕ × Csr K) (i : ℕ) : Except PyErr (ℕ × Csr K) := do
  let st' ← forM' (compressElem A i) (List.range n) st
  let m ← st'.2.closeRow i ((st'.1 : ℤ) - st.1)
  pure (st'.1, m)

/-- `nnz_offdiag_csrmat`, `edpyt/ham_hopping.py:60-80`. -/
def nnzOffdiagCsrmat (jk : Junk K) (n : ℕ) (A : ℕ → ℕ → K) (nnz : ℕ) : Except PyErr (Csr K) := do
  let st ← forM' (compressRow n A) (List.range n) (0, emptyCsrmat jk nnz n n)
  pure st.2

end

/-- Dense form of a CSR matrix (scipy `csr_matrix.todense`): the stored elements of row `i` with
column index `j` are added up. Source: `edpyt/ham_hopping.py:172-173,185-186`. -/
def Csr.dense {K : Type} [AddCommMonoid K] (m : Csr K) (i j : ℕ) : K :=
  ((pyRange (m.indptr[i]?.getD 0) (m.indptr[i + 1]?.getD 0)).map fun p =>
    if m.indices[p.toNat]?.getD (-1) = (j : ℤ) then m.data[p.toNat]?.getD 0 else 0).sum

end Edpyt
