import Verif.Model.Csr
import Verif.Model.Operators
import Verif.Model.Lookup
import Verif.Model.Sector
/-!
Model of `edpyt/ham_hopping.py:83-189`.
-/
namespace Edpyt

/-- `int(binom(n-2, p))` with `n-2` possibly negative: `scipy.special.binom` is `nan` for a negative
integer first argument and `int(nan)` raises `ValueError`. Source: `edpyt/ham_hopping.py:132`. -/
def intBinom (n p : ℤ) : Except PyErr ℕ :=
  if n < 0 then .error .valueError else .ok (binom n.toNat p)

variable {K : Type} [Field K] [LinearOrder K]

/-- Body of the inner loop of `add_hoppings`, `edpyt/ham_hopping.py:100-107`. -/
def hopElem (bj : ℕ) (states : List ℕ) (T : Csr K) (s i : ℕ) (st : ℕ × Csr K) (p : ℤ) :
    Except PyErr (ℕ × Csr K) := do
  let j ← getItem T.indices p
  if checkFull s j.toNat ≠ 0 then
    let (sgn, f) := cdgc s i j.toNat
    let t ← getItem T.data p
    let m ← st.2.put st.1 (t * (sgn : K)) (binsearch bj states f)
    pure (st.1 + 1, m)
  else pure st

/-- Body of the outer loop of `add_hoppings`, `edpyt/ham_hopping.py:97-107`. -/
def hopRow (bj : ℕ) (states : List ℕ) (T : Csr K) (s : ℕ) (st : ℕ × Csr K) (i : ℕ) :
    Except PyErr (ℕ × Csr K) := do
  if checkEmpty s i ≠ 0 then
    let lo ← getItem T.indptr i
    let hi ← getItem T.indptr (i + 1)
    forM' (hopElem bj states T s i) (pyRange lo hi) st
  else pure st

/-- `add_hoppings`, `edpyt/ham_hopping.py:83-110`; returns the new counter and the matrix. -/
def addHoppings (bj : ℕ) (states : List ℕ) (T : Csr K) (st : ℕ × Csr K) (ixS : ℕ) :
    Except PyErr (ℕ × Csr K) := do
  let s ← getItem states ixS
  let st' ← forM' (hopRow bj states T s) (List.range T.rows) st
  let m ← st'.2.closeRow ixS ((st'.1 : ℤ) - st.1)
  pure (st'.1, m)

/-- One spin component of `build_ham_hopping`, `edpyt/ham_hopping.py:128-143` (up) and `145-160`
(down): the same statements with `H[0]`, `states_up` or `H[1]`, `states_dw`. Returns the final
counter and the CSR arrays. -/
def buildSpinHopping (jk : Junk K) (bj n : ℕ) (A : ℕ → ℕ → K) (states : List ℕ) :
    Except PyErr (ℕ × Csr K) := do
  let s0 ← getItem states 0
  let nsp := countBits s0 n
  let nnz := countNnzOffdiag n A
  let T ← nnzOffdiagCsrmat jk n A nnz
  let b ← intBinom (n - 2) (nsp - 1)
  forM' (addHoppings bj states T) (List.range states.length)
    (0, emptyCsrmat jk (nnz * b) states.length states.length)

/-- `build_ham_hopping`, `edpyt/ham_hopping.py:113-164`, for a sector with separate spin states.
The `UpHopping`/`DwHopping` wrappers keep the CSR arrays and the other spin's dimension. -/
def buildHamHopping (jk : Junk K) (bj n : ℕ) (H : ℕ → ℕ → ℕ → K) (statesUp statesDw : List ℕ) :
    Except PyErr (Csr K × Csr K) := do
  let up ← buildSpinHopping jk bj n (H 0) statesUp
  let dw ← buildSpinHopping jk bj n (H 1) statesDw
  pure (up.2, dw.2)

end Edpyt
