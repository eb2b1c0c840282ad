import Verif.Model.Csr
/-!
Model of `nnz_csrmat`, `edpyt/ham_non_local.py:25-44`: the compression of a one-body matrix with its diagonal.
-/
namespace Edpyt
variable {K : Type} [Field K] [LinearOrder K]

/-- Body of the inner loop, `edpyt/ham_non_local.py:39-42`. -/
def compressElemAll (A : ℕ → ℕ → K) (i : ℕ) (st : ℕ × Csr K) (j : ℕ) : Except PyErr (ℕ × Csr K) :=
  if |A i j| > 1 / 10 ^ 7 then do
    let m ← st.2.put st.1 (A i j) j
    pure (st.1 + 1, m)
  else pure st

/-- Body of the outer loop, `edpyt/ham_non_local.py:36-43`. -/
def compressRowAll (n : ℕ) (A : ℕ → ℕ → K) (st : ℕ × Csr K) (i : ℕ) : Except PyErr (ℕ × Csr K) := do
  let st' ← forM' (compressElemAll A i) (List.range n) st
  let m ← st'.2.closeRow i ((st'.1 : ℤ) - st.1)
  pure (st'.1, m)

/-- `nnz_csrmat`, `edpyt/ham_non_local.py:25-44`. -/
def nnzCsrmat (jk : Junk K) (n : ℕ) (A : ℕ → ℕ → K) (nnz : ℕ) : Except PyErr (Csr K) := do
  let st ← forM' (compressRowAll n A) (List.range n) (0, emptyCsrmat jk nnz n n)
  pure st.2

end Edpyt
