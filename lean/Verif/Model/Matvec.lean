import Verif.Model.Hopping
import Verif.Model.NonLocal
import Verif.Model.Local
/-!
Model of the sparse kernels (`edpyt/psparse.pyx`, `edpyt/cs_gaxpy.c`), of the operator objects, of
`edpyt/matvec_product.py` (without MPI) and of `edpyt/build_mb_ham.py`. Scalars are a field instead of
`float64`.
-/
namespace Edpyt

variable {K : Type} [Field K]

/-- One inner statement of the kernels: `result[loc] += val * W[src]`. Addresses are C integers. Source: `edpyt/cs_gaxpy.c:14,30` and `edpyt/psparse.pyx:124-127`. -/
structure KOp (K : Type) where
  loc : ℕ
  val : K
  src : ℤ

/-- The statement as an operation on the result array, with `W` only read. Source: `edpyt/cs_gaxpy.c:14,30`. -/
def KOp.toMem (W : List K) (o : KOp K) : MemOp K := ⟨o.loc, fun v => v + o.val * (W[o.src.toNat]?.getD 0)⟩

/-- Positions `Ap[i] ≤ p < Ap[i+1]` of row `i` (raw C reads, defaults outside the arrays). Source: `edpyt/cs_gaxpy.c:12,26`. -/
def Csr.rowRange (m : Csr K) (i : ℕ) : List ℤ := pyRange (m.indptr[i]?.getD 0) (m.indptr[i + 1]?.getD 0)

/-- `csr_gaxpy(A, &W[off], &result[off])`, `edpyt/cs_gaxpy.c:4-18`. -/
def csrGaxpy (m : Csr K) (off : ℕ) : List (KOp K) :=
  (List.range m.rows).flatMap fun i => (m.rowRange i).map fun p =>
    ⟨off + i, m.data[p.toNat]?.getD 0, off + m.indices[p.toNat]?.getD (-1)⟩

/-- `csr_saxpy(A, W, result, i, n)`, `edpyt/cs_gaxpy.c:20-34`. -/
def csrSaxpy (m : Csr K) (i n : ℕ) : List (KOp K) :=
  (m.rowRange i).flatMap fun p => (List.range n).map fun s =>
    ⟨i * n + s, m.data[p.toNat]?.getD 0, m.indices[p.toNat]?.getD (-1) * n + s⟩

/-- `UPmultiply`, `edpyt/psparse.pyx:37-64`: the statements of each `prange` iteration;
`ndw = W.size // nup`. -/
def upMultiplyOps (m : Csr K) (wsize : ℕ) : List (List (KOp K)) :=
  (List.range (wsize / m.rows)).map fun i => csrGaxpy m (i * m.rows)

/-- `DWmultiply`, `edpyt/psparse.pyx:67-96`; `nup = W.size // ndw`. -/
def dwMultiplyOps (m : Csr K) (wsize : ℕ) : List (List (KOp K)) :=
  (List.range m.rows).map fun i => csrSaxpy m i (wsize / m.rows)

/-- `Multiply`, `edpyt/psparse.pyx:99-127`. -/
def multiplyOps (m : Csr K) : List (List (KOp K)) :=
  (List.range m.rows).map fun i => (m.rowRange i).map fun p =>
    ⟨i, m.data[p.toNat]?.getD 0, m.indices[p.toNat]?.getD (-1)⟩

/-- A parallel run of kernel statements on `res`: some interleaving of the iterations. Source: `edpyt/psparse.pyx:62-64,94-96,124-127`. -/
def KRun (ops : List (List (KOp K))) (W res res' : List K) : Prop :=
  ∃ out, Interleaving (ops.map fun l => l.map (KOp.toMem W)) out ∧ res' = runOps out res

/-- The operator objects: `Local` (`edpyt/ham_local.py:144-150`), `UpHopping` and `DwHopping`
(`edpyt/ham_hopping.py:166-189`), `NonLocal` (`edpyt/ham_non_local.py:255-261`). -/
inductive Op (K : Type)
  | loc (diag : List K)
  | up (A : Csr K) (dwn : ℕ)
  | dw (A : Csr K) (dup : ℕ)
  | non (A : Csr K)

/-- `op.matvec(vec, out=out)`: `Local` overwrites `out` with `diag * vec`, the others accumulate. Source: `edpyt/ham_local.py:146-147` and `edpyt/ham_hopping.py:175-176,188-189`. -/
def Op.Matvec : Op K → List K → List K → List K → Prop
  | .loc d, vec, _, out' => out' = List.zipWith (· * ·) d vec
  | .up A _, vec, out, out' => KRun (upMultiplyOps A vec.length) vec out out'
  | .dw A _, vec, out, out' => KRun (dwMultiplyOps A vec.length) vec out out'
  | .non A, vec, out, out' => KRun (multiplyOps A) vec out out'

/-- The loop `for op in operators: op.matvec(vec, out=out)`, `edpyt/matvec_product.py:39-40`. -/
inductive OpsRun (vec : List K) : List (Op K) → List K → List K → Prop
  | nil (out) : OpsRun vec [] out out
  | cons (op ops out out1 out2) (h : op.Matvec vec out out1) (t : OpsRun vec ops out1 out2) :
      OpsRun vec (op :: ops) out out2

/-- `matvec(vec)` of `_matvec_operator`, `edpyt/matvec_product.py:29-42`, with the default `res=None`:
`out` starts as `np.empty_like(vec)`, i.e. with arbitrary content. -/
def MatvecOperator (ops : List (Op K)) (vec result : List K) : Prop :=
  ∃ junk : List K, junk.length = vec.length ∧ OpsRun vec ops junk result

/-- A square dense array. Source: `edpyt/matvec_product.py:75-95`. -/
structure Dense (K : Type) where
  size : ℕ
  val : ℕ → ℕ → K

/-- `op.todense()` of the two-dimensional operators; `none` for `Local`. `UpHopping.todense` is `np.kron(np.eye(dwn), A)` and `DwHopping.todense` `np.kron(A, np.eye(dup))`,
`edpyt/ham_hopping.py:172-173,185-186`. -/
def Op.dense2 : Op K → Option (Dense K)
  | .loc _ => none
  | .up A dwn => some ⟨dwn * A.rows, fun i j => (if i / A.rows = j / A.rows then 1 else 0) * A.dense (i % A.rows) (j % A.rows)⟩
  | .dw A dup => some ⟨A.rows * dup, fun i j => A.dense (i / dup) (j / dup) * (if i % dup = j % dup then 1 else 0)⟩
  | .non A => some ⟨A.rows, A.dense⟩

/-- `out += op.todense()`; different shapes do not broadcast (`ValueError`; the broadcasting of
1×1 arrays is not modelled). Source: `edpyt/matvec_product.py:75-95`. -/
def addDense (out b : Dense K) : Except PyErr (Dense K) :=
  if out.size = b.size then .ok ⟨out.size, fun i j => out.val i j + b.val i j⟩ else .error .valueError

/-- `out.flat[::n+1] += dop`, `edpyt/matvec_product.py:93-94`. -/
def addDiag (out : Dense K) (d : List K) : Except PyErr (Dense K) :=
  if out.size = d.length then .ok ⟨out.size, fun i j => out.val i j + if i = j then d[i]?.getD 0 else 0⟩
  else .error .valueError

/-- The operators with `ndim < 2`. Source: `edpyt/matvec_product.py:75-95`. -/
def Op.diag1 : Op K → Option (List K)
  | .loc d => some d
  | _ => none

/-- `todense`, `edpyt/matvec_product.py:75-95`: `ops.pop()` takes the last two-dimensional operator
(`IndexError` if there is none), the others are added, then the diagonals. -/
def todense (operators : List (Op K)) : Except PyErr (Dense K) := do
  let ops := operators.filterMap Op.dense2
  match ops.getLast? with
  | none => .error .indexError
  | some out => do
    let out ← forM' addDense ops.dropLast out
    forM' addDiag (operators.filterMap Op.diag1) out

/-- The interaction argument `V` of `build_mb_ham`: an array or a dict. Source: `edpyt/build_mb_ham.py:44-51`. -/
structure VArg (K : Type) where
  U : Option (ℕ → ℕ → K)
  Jx : Option (ℕ → ℕ → K)
  Jp : Option (ℕ → ℕ → K)

/-- `V` given as an array. Source: `edpyt/build_mb_ham.py:44-47`. -/
def VArg.array (V : ℕ → ℕ → K) : VArg K := ⟨some V, none, none⟩

/-- The states of a sector: a pair of spin state lists or one list (fixed `N`). Source: `edpyt/espace.py:29-32,44-53`. -/
inductive SectorStates
  | spin (up dw : List ℕ)
  | total (states : List ℕ)

section
variable [LinearOrder K]

/-- `edpyt/build_mb_ham.py:65-72` after the local part `diag` was built, spin-resolved sector:
hoppings if `len(U) > 1`, non-local part if requested (it updates `operators[0]` in place). -/
def mbHamSpin (jk : Junk K) (bj n : ℕ) (H : ℕ → ℕ → ℕ → K) (V : VArg K) (up dw : List ℕ) (diag : List K) :
    Except PyErr (List (Op K)) := do
  let hop ← if n > 1 then (do
      let (a, b) ← buildHamHopping jk bj n H up dw
      pure [Op.up a dw.length, Op.dw b up.length])
    else pure []
  if V.Jx.isSome ∨ V.Jp.isSome then
    let (_, m, diag') ← buildNonLocal jk bj n V.Jx V.Jp up dw diag
    pure ([Op.loc diag'] ++ hop ++ [Op.non m])
  else pure ([Op.loc diag] ++ hop)

/-- The same for a sector of fixed `N`: hoppings are discarded with a warning. Source: `edpyt/build_mb_ham.py:66-72`. -/
def mbHamTotal (jk : Junk K) (bj n : ℕ) (V : VArg K) (states : List ℕ) (diag : List K) : Except PyErr (List (Op K)) := do
  if V.Jx.isSome ∨ V.Jp.isSome then
    let m ← nBuildNonLocal jk bj n V.Jx V.Jp states
    pure [Op.loc diag, Op.non m]
  else pure [Op.loc diag]

/-- `build_mb_ham`, `edpyt/build_mb_ham.py:24-76`, as a relation (the local part is a parallel loop).
`H` is the `(2,n,n)` array after broadcasting, `hf`, `mu`, `z` are `params['hfmode']`, `params['mu']`,
`params['z']`. Without `U` the compiled local builder rejects its argument (`TypeError`). The flag
`H.flags.writeable` is not modelled. -/
def BuildMbHam (jk : Junk K) (bj n : ℕ) (H : ℕ → ℕ → ℕ → K) (V : VArg K) (z : Option (ℕ → K)) (hf : Bool) (mu : K)
    (sct : SectorStates) (res : Except PyErr (List (Op K))) : Prop :=
  match V.U, sct with
  | none, _ => res = .error .typeError
  | some U, .spin up dw => ∃ diag, BuildHamLocal n H U z hf mu up dw diag ∧ res = mbHamSpin jk bj n H V up dw diag
  | some U, .total states => ∃ diag, NBuildHamLocal n H U z hf mu states diag ∧ res = mbHamTotal jk bj n V states diag

end
end Edpyt
