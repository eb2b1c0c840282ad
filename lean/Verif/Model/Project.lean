import Verif.Model.Espace
/-!
Model of the projections of `edpyt/gf_exact.py` and `edpyt/gf_lanczos.py`. A two-dimensional array of known shape is a
function of its indices.
-/
namespace Edpyt

/-- The ladder operator passed as `op`. Source: `edpyt/operators.py:45-82`. -/
inductive Ladder
  | c
  | cdg
  deriving DecidableEq

/-- `op(s, pos, n)`. Source: `edpyt/operators.py:45-82`. -/
def Ladder.apply : Ladder → ℕ → ℕ → ℕ → Except PyErr (ℤ × ℕ)
  | .c => Edpyt.c
  | .cdg => Edpyt.cdg

/-- `check_occupation = check_full if op is c else check_empty`, `edpyt/gf_exact.py:53`. -/
def Ladder.check : Ladder → ℕ → ℕ → ℕ
  | .c => checkFull
  | .cdg => checkEmpty

/-- Indices selected by the basic slice `[start:stop:step]` of an axis of length `len` (numpy): negative bounds count
from the end, bounds are clipped, step zero raises. Source: `edpyt/gf_exact.py:42-85`. -/
def pySlice (len : ℕ) (start : ℤ) (stop : Option ℤ) (step : ℕ) : Except PyErr (List ℕ) :=
  let norm := fun x : ℤ => max 0 (min (len : ℤ) (if x < 0 then x + len else x))
  let lo := norm start
  let hi := match stop with
    | some x => norm x
    | none => len
  if step = 0 then .error .valueError
  else .ok ((List.range len).filter fun k => decide (lo ≤ k ∧ (k : ℤ) < hi ∧ (k - lo) % step = 0))

/-- Rows of `eigvecs` with up index `i`: `eigvecs[i::states.up.size,:]`, `edpyt/gf_exact.py:60-61`. -/
def rowsUp (d dup : ℕ) (i : ℤ) : Except PyErr (List ℕ) := pySlice d i none dup

/-- Rows of `eigvecs` with down index `i`: `eigvecs[i*states.up.size:(i+1)*states.up.size,:]`,
`edpyt/gf_exact.py:83-84`. -/
def rowsDw (d dup : ℕ) (i : ℤ) : Except PyErr (List ℕ) := pySlice d (i * dup) (some ((i + 1) * dup)) 1

/-- Element of `A.T.dot(B)` for the row selections `RJ` of `vJ` and `RI` of `vI`. Source: `edpyt/gf_exact.py:42-85`. -/
noncomputable def rowsDot (vJ vI : List (ℕ → ℝ)) (RJ RI : List ℕ) (j k : ℕ) : ℝ :=
  ((RJ.zip RI).map fun p => (vJ[j]?.getD 0) p.1 * (vI[k]?.getD 0) p.2).sum

/-- One pass of the loop of `project_exact_up/dw`, `edpyt/gf_exact.py:54-61`. `v0 += ...` raises if the shapes differ
(numpy broadcasting of a single row or column is not modelled: sectors store as many vectors as values). -/
noncomputable def projectExactStep (rows : ℕ → ℕ → ℤ → Except PyErr (List ℕ)) (junk : ℕ) (op : Ladder) (pos n : ℕ) (sI sJ : List ℕ) (dupI dupJ : ℕ)
    (I J : Sct) (v0 : ℕ → ℕ → ℝ) (iI : ℕ) : Except PyErr (ℕ → ℕ → ℝ) := do
  let s ← getItem sI iI
  if op.check s pos ≠ 0 then
    let (sgn, t) ← op.apply s pos n
    let iJ := binsearch junk sJ t
    let RJ ← rows J.d dupJ iJ
    let RI ← rows I.d dupI iI
    if RJ.length ≠ RI.length then .error .valueError
    else if J.eigvecs.length ≠ J.eigvals.length ∨ I.eigvecs.length ≠ I.eigvals.length then .error .valueError
    else pure fun j k => v0 j k + (sgn : ℝ) * rowsDot J.eigvecs I.eigvecs RJ RI j k
  else pure v0

/-- `project_exact_up`, `edpyt/gf_exact.py:42-62`: array of shape `(J.eigvals.size, I.eigvals.size)`. -/
noncomputable def projectExactUp (junk pos n : ℕ) (op : Ladder) (I J : Sct) : Except PyErr (ℕ → ℕ → ℝ) :=
  match I.states, J.states with
  | .spin upI _, .spin upJ _ =>
    forM' (projectExactStep rowsUp junk op pos n upI upJ upI.length upJ.length I J) (List.range upI.length) (fun _ _ => 0)
  | _, _ => .error .attributeError

/-- `project_exact_dw`, `edpyt/gf_exact.py:65-85`. -/
noncomputable def projectExactDw (junk pos n : ℕ) (op : Ladder) (I J : Sct) : Except PyErr (ℕ → ℕ → ℝ) :=
  match I.states, J.states with
  | .spin upI dwI, .spin upJ dwJ =>
    forM' (projectExactStep rowsDw junk op pos n dwI dwJ upI.length upJ.length I J) (List.range dwI.length) (fun _ _ => 0)
  | _, _ => .error .attributeError

/-- One pass of the loop of `project_up/dw`, `edpyt/gf_lanczos.py:70-77`: the columns `RJ` of `v0` are assigned. -/
noncomputable def projectStep (rows : ℕ → ℕ → ℤ → Except PyErr (List ℕ)) (junk : ℕ) (op : Ladder) (pos n : ℕ) (sI sJ : List ℕ) (dupI dupJ : ℕ)
    (I J : Sct) (v0 : ℕ → ℕ → ℝ) (iI : ℕ) : Except PyErr (ℕ → ℕ → ℝ) := do
  let s ← getItem sI iI
  if op.check s pos ≠ 0 then
    let (sgn, t) ← op.apply s pos n
    let iJ := binsearch junk sJ t
    let RJ ← rows J.d dupJ iJ
    let RI ← rows I.d dupI iI
    if RJ.length ≠ RI.length then .error .valueError
    else if I.eigvecs.length ≠ I.eigvals.length then .error .valueError
    else pure fun k c => if c ∈ RJ then (sgn : ℝ) * (I.eigvecs[k]?.getD 0) (RI[RJ.idxOf c]?.getD 0) else v0 k c
  else pure v0

/-- `project_up`, `edpyt/gf_lanczos.py:55-77`: array of shape `(I.eigvals.size, J.d)`. -/
noncomputable def projectUp (junk pos n : ℕ) (op : Ladder) (I J : Sct) : Except PyErr (ℕ → ℕ → ℝ) :=
  match I.states, J.states with
  | .spin upI _, .spin upJ _ =>
    forM' (projectStep rowsUp junk op pos n upI upJ upI.length upJ.length I J) (List.range upI.length) (fun _ _ => 0)
  | _, _ => .error .attributeError

/-- `project_dw`, `edpyt/gf_lanczos.py:80-93`. -/
noncomputable def projectDw (junk pos n : ℕ) (op : Ladder) (I J : Sct) : Except PyErr (ℕ → ℕ → ℝ) :=
  match I.states, J.states with
  | .spin upI dwI, .spin upJ dwJ =>
    forM' (projectStep rowsDw junk op pos n dwI dwJ upI.length upJ.length I J) (List.range dwI.length) (fun _ _ => 0)
  | _, _ => .error .attributeError

end Edpyt
