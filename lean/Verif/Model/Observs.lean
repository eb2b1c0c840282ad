import Verif.Model.Project
import Mathlib.Analysis.SpecialFunctions.Exp
/-!
Model of `edpyt/observs.py`. The eigenvector array is modelled with its memory layout, because the code reshapes it in
place.
-/
namespace Edpyt

/-- Memory layout of an array: Fortran order (`flags.f_contiguous`), C order, or neither. Source: `edpyt/observs.py:80`. -/
inductive Layout
  | F
  | C
  | strided
  deriving DecidableEq

/-- An array object: its shape and the content of its buffer. Source: `edpyt/observs.py:80-82,90`. -/
structure NdArr where
  shape : List ℕ
  lay : Layout
  data : ℕ → ℝ

/-- `evecs[r, j]` of a two-dimensional contiguous array with `d` rows and `nev` columns. Source: `edpyt/observs.py:80-96`. -/
def NdArr.elem (A : NdArr) (d nev r j : ℕ) : ℝ :=
  match A.lay with
  | .F => A.data (r + d * j)
  | .C => A.data (r * nev + j)
  | .strided => A.data 0

/-- `nup[k,:] += x`. Source: `edpyt/observs.py:103,110`. -/
def rowAdd (nup : ℕ → ℕ → ℝ) (k : ℕ) (x : ℕ → ℝ) : ℕ → ℕ → ℝ := fun k' j => if k' = k then nup k' j + x j else nup k' j

/-- One pass of the loops over the states of one spin, `edpyt/observs.py:98-103` and `105-110`: `contract` is
`contract_up` or `contract_dw`, and `n_op = check_full`. -/
def occStep (n : ℕ) (states : List ℕ) (contract : ℕ → ℕ → ℝ) (nsp : ℕ → ℕ → ℝ) (i : ℕ) : Except PyErr (ℕ → ℕ → ℝ) := do
  let s ← getItem states i
  pure ((List.range n).foldl (fun nsp k => rowAdd nsp k fun j => (checkFull s k : ℝ) * contract i j) nsp)

/-- `np.einsum('i,ij,ji->i', coeffs, x, x.T)` with the factor left out if `coeffs` is `None`: `Σ_j x[i,j] x.T[j,i]`. Source: `edpyt/observs.py:84-96`. -/
def contract (coeffs : Option (List ℝ)) (m : ℕ) (x : ℕ → ℕ → ℝ) (i : ℕ) : ℝ :=
  match coeffs with
  | none => ((List.range m).map fun j => x i j * x i j).sum
  | some c => ((List.range m).map fun j => (c[i]?.getD 0) * x i j * x i j).sum

/-- `evecs.shape = …`, `edpyt/observs.py:81-91`: the array as read by the loops (eigenvector, down index, up index) and the
caller's array object as it is left. The Fortran branch reshapes the view `evecs.T` (lines 82-83), the other branch the
caller's array itself (line 91). An incompatible shape raises `ValueError`, an array that is not contiguous
`AttributeError`. -/
def reshapeEvecs (A : NdArr) (nev dwn dup : ℕ) : Except PyErr ((ℕ → ℕ → ℕ → ℝ) × NdArr) :=
  if A.shape.prod ≠ nev * dwn * dup then .error .valueError
  else match A.lay with
    | .F => .ok ((fun j idw iup => A.data (j * (dwn * dup) + idw * dup + iup)), A)
    | .C => .ok ((fun j idw iup => A.data ((idw * dup + iup) * nev + j)), { A with shape := [dwn, dup, nev] })
    | .strided => .error .attributeError

/-- `_get_evecs_occupation`, `edpyt/observs.py:50-112`. Besides `(nup, ndw)` the function returns the caller's array
object as the call leaves it. -/
def evecsOccupation (A : NdArr) (up dw : List ℕ) (n : ℕ) (coeffs : Option (List ℝ)) :
    Except PyErr ((ℕ → ℕ → ℝ) × (ℕ → ℕ → ℝ) × NdArr) := do
  let dup := up.length
  let dwn := dw.length
  let nev ← getItem A.shape 1
  let vA ← reshapeEvecs A nev dwn dup
  let nup ← forM' (occStep n up fun iup j => contract coeffs dwn (fun j idw => vA.1 j idw iup) j) (List.range dup) (fun _ _ => 0)
  let ndw ← forM' (occStep n dw fun idw j => contract coeffs dup (fun j iup => vA.1 j idw iup) j) (List.range dwn) (fun _ _ => 0)
  pure (nup, ndw, vA.2)

/-- A sector as `get_occupation` sees it. Source: `edpyt/observs.py:5-21`. -/
structure OccSct where
  eigvals : List ℝ
  eigvecs : NdArr
  up : List ℕ
  dw : List ℕ

/-- One pass of the loop over the sectors, `edpyt/observs.py:12-18`; the state is `(nup, ndw, Z, arrays after the calls)`. -/
noncomputable def occupationStep (egs beta : ℝ) (n : ℕ) (st : (ℕ → ℝ) × (ℕ → ℝ) × ℝ × List NdArr) (sct : OccSct) :
    Except PyErr ((ℕ → ℝ) × (ℕ → ℝ) × ℝ × List NdArr) := do
  let exps := sct.eigvals.map fun E => Real.exp (-beta * (E - egs))
  let nev ← getItem sct.eigvecs.shape 1
  let (u, w, A) ← evecsOccupation sct.eigvecs sct.up sct.dw n (some exps)
  pure ((fun k => st.1 k + ((List.range nev).map fun j => u k j).sum), (fun k => st.2.1 k + ((List.range nev).map fun j => w k j).sum),
    st.2.2.1 + exps.sum, st.2.2.2 ++ [A])

/-- `get_occupation`, `edpyt/observs.py:5-21`. -/
noncomputable def getOccupation (es : List OccSct) (egs beta : ℝ) (n : ℕ) : Except PyErr ((ℕ → ℝ) × (ℕ → ℝ) × List NdArr) := do
  let st ← forM' (occupationStep egs beta n) es ((fun _ => 0), (fun _ => 0), 0, [])
  pure ((fun k => st.1 k / st.2.2.1), (fun k => st.2.1 k / st.2.2.1), st.2.2.2)

/-- `_get_evecs_occupation_mpi`, `edpyt/observs.py:115-128`, on all ranks of a communicator of size `size`: `local r` is
the array held by rank `r`; `Allreduce` with `SUM` gives every rank the sum of the local results. -/
def evecsOccupationMpi (size : ℕ) (loc : ℕ → NdArr) (up dw : List ℕ) (n : ℕ) (coeffs : Option (List ℝ)) :
    Except PyErr ((ℕ → ℕ → ℝ) × (ℕ → ℕ → ℝ)) := do
  let dl := dw.length / size
  forM' (fun (st : (ℕ → ℕ → ℝ) × (ℕ → ℕ → ℝ)) r => do
    let (u, w, _) ← evecsOccupation (loc r) up ((dw.drop (r * dl)).take dl) n coeffs
    pure ((fun k j => st.1 k j + u k j), (fun k j => st.2 k j + w k j))) (List.range size) ((fun _ _ => 0), (fun _ _ => 0))

end Edpyt
