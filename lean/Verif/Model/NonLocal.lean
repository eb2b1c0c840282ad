import Verif.Model.Hopping
/-!
Model of `edpyt/ham_non_local.py`. Warnings about diagonal couplings (lines 80-81, 88-89, 187-188,
194-195) are not modelled, the warning about the number of elements (158) is.
-/
namespace Edpyt

variable {K : Type} [Field K] [LinearOrder K]

/-- Body of the inner loop of the spin flip term, `edpyt/ham_non_local.py:119-129`. -/
def xElem (bj : ℕ) (up dw : List ℕ) (T : Csr K) (sup sdw i : ℕ) (st : ℕ × Csr K) (p : ℤ) :
    Except PyErr (ℕ × Csr K) := do
  let j ← getItem T.indices p
  if checkFull sup j.toNat ≠ 0 ∧ checkEmpty sdw j.toNat ≠ 0 then
    let (sgnUp, fup) := cdgc sup i j.toNat
    let jup := binsearch bj up fup
    let (sgnDw, fdw) := cdgc sdw j.toNat i
    let jdw := binsearch bj dw fdw
    let t ← getItem T.data p
    let m ← st.2.put st.1 (-(sgnUp : K) * (sgnDw : K) * t) (jdw * up.length + jup)
    pure (st.1 + 1, m)
  else pure st

/-- Lines 117-129 for one `i`. -/
def xRow (bj : ℕ) (up dw : List ℕ) (T : Csr K) (sup sdw : ℕ) (st : ℕ × Csr K) (i : ℕ) :
    Except PyErr (ℕ × Csr K) := do
  if checkEmpty sup i ≠ 0 ∧ checkFull sdw i ≠ 0 then
    let lo ← getItem T.indptr i
    let hi ← getItem T.indptr (i + 1)
    forM' (xElem bj up dw T sup sdw i) (pyRange lo hi) st
  else pure st

/-- Body of `edpyt/ham_non_local.py:130-132`. -/
def xDiagElem (T : Csr K) (sup sdw i : ℕ) (tmp : K) (p : ℤ) : Except PyErr K := do
  let j ← getItem T.indices p
  let t ← getItem T.data p
  pure (tmp + t * (((checkFull sup i * checkFull sup j.toNat + checkFull sdw i * checkFull sdw j.toNat : ℕ)) : K))

/-- Lines 130-132 for one `i`. -/
def xDiagRow (T : Csr K) (sup sdw : ℕ) (tmp : K) (i : ℕ) : Except PyErr K := do
  let lo ← getItem T.indptr i
  let hi ← getItem T.indptr (i + 1)
  forM' (xDiagElem T sup sdw i) (pyRange lo hi) tmp

/-- Body of the inner loop of the pair hopping term, `edpyt/ham_non_local.py:143-153`. -/
def pElem (bj : ℕ) (up dw : List ℕ) (T : Csr K) (sup sdw i : ℕ) (st : ℕ × Csr K) (p : ℤ) :
    Except PyErr (ℕ × Csr K) := do
  let j ← getItem T.indices p
  if checkFull sup j.toNat ≠ 0 ∧ checkFull sdw j.toNat ≠ 0 then
    let (sgnUp, fup) := cdgc sup i j.toNat
    let jup := binsearch bj up fup
    let (sgnDw, fdw) := cdgc sdw i j.toNat
    let jdw := binsearch bj dw fdw
    let t ← getItem T.data p
    let m ← st.2.put st.1 ((sgnUp : K) * (sgnDw : K) * t) (jdw * up.length + jup)
    pure (st.1 + 1, m)
  else pure st

/-- Lines 141-153 for one `i`. -/
def pRow (bj : ℕ) (up dw : List ℕ) (T : Csr K) (sup sdw : ℕ) (st : ℕ × Csr K) (i : ℕ) :
    Except PyErr (ℕ × Csr K) := do
  if checkEmpty sup i ≠ 0 ∧ checkEmpty sdw i ≠ 0 then
    let lo ← getItem T.indptr i
    let hi ← getItem T.indptr (i + 1)
    forM' (pElem bj up dw T sup sdw i) (pyRange lo hi) st
  else pure st

/-- Off-diagonal elements of one row, lines 111-129 and 137-153. -/
def nlRowElems (bj n : ℕ) (up dw : List ℕ) (Tx Tp : Option (Csr K)) (sup sdw : ℕ) (st : ℕ × Csr K) :
    Except PyErr (ℕ × Csr K) := do
  let st ← match Tx with
    | some T => forM' (xRow bj up dw T sup sdw) (List.range n) st
    | none => pure st
  match Tp with
    | some T => forM' (pRow bj up dw T sup sdw) (List.range n) st
    | none => pure st

/-- Matrix part of the loop body for the pair `(idw, iup)`, lines 97-129, 137-155. The diagonal
correction is a separate function: it neither reads nor writes the sparse matrix. -/
def nlMatStep (bj n : ℕ) (up dw : List ℕ) (Tx Tp : Option (Csr K)) (st : ℕ × Csr K) (ix : ℕ × ℕ) :
    Except PyErr (ℕ × Csr K) := do
  let sdw ← getItem dw ix.1
  let sup ← getItem up ix.2
  let st' ← nlRowElems bj n up dw Tx Tp sup sdw st
  let m ← st'.2.closeRow ((ix.2 : ℤ) + up.length * ix.1) ((st'.1 : ℤ) - st.1)
  pure (st'.1, m)

/-- Diagonal part of the loop body, lines 116, 130-134: `vec_diag[iup+idw*dup] += -0.5*tmp`. -/
def nlDiagStep (n : ℕ) (up dw : List ℕ) (Tx : Option (Csr K)) (vec : List K) (ix : ℕ × ℕ) :
    Except PyErr (List K) := do
  let sdw ← getItem dw ix.1
  let sup ← getItem up ix.2
  match Tx with
  | some T =>
    let tmp ← forM' (xDiagRow T sup sdw) (List.range n) 0
    let old ← getItem vec ((ix.2 : ℤ) + ix.1 * up.length)
    setItem vec ((ix.2 : ℤ) + ix.1 * up.length) (old + tmp * (-(1 / 2)))
  | none => pure vec

/-- Loop body for the pair `(idw, iup)`, lines 97-155. -/
def nlStep (bj n : ℕ) (up dw : List ℕ) (Tx Tp : Option (Csr K)) (st : (ℕ × Csr K) × List K) (ix : ℕ × ℕ) :
    Except PyErr ((ℕ × Csr K) × List K) := do
  let a ← nlMatStep bj n up dw Tx Tp st.1 ix
  let b ← nlDiagStep n up dw Tx st.2 ix
  pure (a, b)

/-- Lines 76-82 and 84-90: number of elements and compressed form of an optional matrix. -/
def nlCompress (jk : Junk K) (n : ℕ) (J : Option (ℕ → ℕ → K)) : Except PyErr (ℕ × Option (Csr K)) :=
  match J with
  | none => pure (0, none)
  | some A => do
    let T ← nnzOffdiagCsrmat jk n A (countNnzOffdiag n A)
    pure (countNnzOffdiag n A, some T)

/-- `_build_ham_non_local`, `edpyt/ham_non_local.py:55-161`. The matrices are `n`×`n`. `n =
Jx.shape[0]` (line 71) comes before the test for `None`, hence `AttributeError` without `Jx`. The
result is: whether the warning of line 158 was issued, the matrix, and the updated `vec_diag`. The two
nested loops of lines 97 and 103 are one loop over the pairs in the same order. -/
def buildNonLocal (jk : Junk K) (bj n : ℕ) (Jx Jp : Option (ℕ → ℕ → K)) (up dw : List ℕ) (vec : List K) :
    Except PyErr (Bool × Csr K × List K) :=
  match Jx with
  | none => .error .attributeError
  | some _ => do
    let u0 ← getItem up 0
    let nup := countBits u0 n
    let d0 ← getItem dw 0
    let ndw := countBits d0 n
    let (nnzX, Tx) ← nlCompress jk n Jx
    let (nnzP, Tp) ← nlCompress jk n Jp
    let b1 ← intBinom (n - 2) (nup - 1)
    let b2 ← intBinom (n - 2) (ndw - 1)
    let nnz := (nnzX + nnzP) * b1 * b2
    let d := dw.length * up.length
    let st ← forM' (nlStep bj n up dw Tx Tp) (ndindex2 dw.length up.length) ((0, emptyCsrmat jk nnz d d), vec)
    if st.1.1 ≠ st.1.2.data.length then
      pure (true, { st.1.2 with data := st.1.2.data.take st.1.1, indices := st.1.2.indices.take st.1.1 }, st.2)
    else pure (false, st.1.2, st.2)

/-! ### Sectors of fixed total particle number -/

/-- Applies the four operators of `edpyt/ham_non_local.py:217-220`/`232-235` (`c`, `c`, `cdg`, `cdg` at
the given positions); `none` if one of them raises (bare `except: continue`, lines 221-222). -/
def fourOps (s a b d e m : ℕ) : Option (ℤ × ℕ) :=
  match (do
    let (s0, f) ← c s a m
    let (s1, f) ← c f b m
    let (s2, f) ← cdg f d m
    let (s3, f) ← cdg f e m
    pure (s0 * s1 * s2 * s3, f) : Except PyErr (ℤ × ℕ)) with
  | .ok r => some r
  | .error _ => none

/-- `data.append(x); indices.append(j)`: the lists grow by one element. Source: `edpyt/ham_non_local.py:164-243`. -/
def nAppend (st : List (K × ℤ)) (x : K) (j : ℤ) : List (K × ℤ) := st ++ [(x, j)]

/-- Innermost body of the exchange term, lines 214-225. -/
def nxElem (bj n : ℕ) (states : List ℕ) (T : Csr K) (s i : ℕ) (p : ℤ) (st : List (K × ℤ)) (sg : ℕ × ℕ) :
    Except PyErr (List (K × ℤ)) := do
  let j ← getItem T.indices p
  match fourOps s (j.toNat + sg.1 * n) (i + sg.2 * n) (j.toNat + sg.2 * n) (i + sg.1 * n) (2 * n) with
  | none => pure st
  | some (sgn, f) => do
    let t ← getItem T.data p
    pure (nAppend st ((sgn : K) * t / 2) (binsearch bj states f))

/-- Innermost body of the pair hopping term, lines 229-240. -/
def npElem (bj n : ℕ) (states : List ℕ) (T : Csr K) (s i : ℕ) (p : ℤ) (st : List (K × ℤ)) (sg : ℕ × ℕ) :
    Except PyErr (List (K × ℤ)) := do
  let j ← getItem T.indices p
  match fourOps s (j.toNat + sg.1 * n) (j.toNat + sg.2 * n) (i + sg.2 * n) (i + sg.1 * n) (2 * n) with
  | none => pure st
  | some (sgn, f) => do
    let t ← getItem T.data p
    pure (nAppend st ((sgn : K) * t / 2) (binsearch bj states f))

/-- One row `i` of the exchange (`spins = product(range(2), repeat=2)`) or pair hopping
(`spins = permutations(range(2), r=2)`) loop, lines 212-225 and 227-240. -/
def nRow (elem : ℕ → ℤ → List (K × ℤ) → ℕ × ℕ → Except PyErr (List (K × ℤ))) (spins : List (ℕ × ℕ))
    (T : Csr K) (st : List (K × ℤ)) (i : ℕ) : Except PyErr (List (K × ℤ)) := do
  let lo ← getItem T.indptr i
  let hi ← getItem T.indptr (i + 1)
  forM' (fun st p => forM' (elem i p) spins st) (pyRange lo hi) st

/-- Elements appended for the state `s`, lines 211-240. -/
def nStateElems (bj n : ℕ) (states : List ℕ) (Tx Tp : Option (Csr K)) (s : ℕ) (st : List (K × ℤ)) :
    Except PyErr (List (K × ℤ)) := do
  let st ← match Tx with
    | some T => forM' (nRow (nxElem bj n states T s) [(0, 0), (0, 1), (1, 0), (1, 1)] T) (List.range n) st
    | none => pure st
  match Tp with
    | some T => forM' (nRow (npElem bj n states T s) [(0, 1), (1, 0)] T) (List.range n) st
    | none => pure st

/-- Loop body, lines 208-241; `count` is the number of appended elements. -/
def nStep (bj n : ℕ) (states : List ℕ) (Tx Tp : Option (Csr K)) (st : List (K × ℤ) × List ℤ) (idu : ℕ) :
    Except PyErr (List (K × ℤ) × List ℤ) := do
  let s ← getItem states idu
  let e ← nStateElems bj n states Tx Tp s st.1
  let q ← getItem st.2 idu
  pure (e, st.2 ++ [q + ((e.length : ℤ) - st.1.length)])

/-- `_N_build_ham_non_local`, `edpyt/ham_non_local.py:164-243`; `vec_diag` is not touched. If both
matrices are `None` line 179 raises `AttributeError`. -/
def nBuildNonLocal (jk : Junk K) (bj n : ℕ) (Jx Jp : Option (ℕ → ℕ → K)) (states : List ℕ) :
    Except PyErr (Csr K) :=
  if Jx.isNone ∧ Jp.isNone then .error .attributeError else do
    let _ ← getItem states 0
    let (_, Tx) ← nlCompress jk n Jx
    let (_, Tp) ← nlCompress jk n Jp
    let st ← forM' (nStep bj n states Tx Tp) (List.range states.length) ([], [0])
    pure { data := st.1.map Prod.fst, indices := st.1.map Prod.snd, indptr := st.2,
           rows := states.length, cols := states.length }

end Edpyt
