import Verif.Model.Par
import Mathlib.Algebra.Field.Basic
/-!
Model of `edpyt/ham_local.py`. Scalars are a field instead of `float64`. `H` is indexed
`H spin i j`; `V` is `n`×`n`; `z` has `n` entries.
-/
namespace Edpyt

variable {K : Type} [Field K]

/-- `np.float64((s>>i)&uone)`, `edpyt/ham_local.py:44,50`. -/
def occNum (K : Type) [Field K] (s i : ℕ) : K := (((s >>> i) &&& 1 : ℕ) : K)

/-- `for i in range(n): acc += f(i)`. Source: `edpyt/ham_local.py:44-67`. -/
def loopAdd (n : ℕ) (f : ℕ → K) (acc : K) : K := (List.range n).foldl (fun a i => a + f i) acc

/-- The interaction loops, `edpyt/ham_local.py:53-67` and `112-125` (the same statements):
`Vij` is `V` with its diagonal subtracted (`29-35`). -/
def coulombLoop (n : ℕ) (V : ℕ → ℕ → K) (z : ℕ → K) (hfmode : Bool) (nup ndw : ℕ → K) (res : K) : K :=
  let Vij : ℕ → ℕ → K := fun i j => if i = j then V i j - V i i else V i j
  (List.range n).foldl (fun res i =>
    let res := if hfmode then res + (nup i - 1 / 2) * (ndw i - 1 / 2) * V i i else res + nup i * ndw i * V i i
    let tmp := loopAdd n (fun j => Vij i j * (nup j + ndw j - z j)) 0
    res + 1 / 2 * (nup i + ndw i - z i) * tmp) res

/-- Value stored for the pair `(sup, sdw)`, `edpyt/ham_local.py:41-68`. -/
def localEntry (n : ℕ) (H : ℕ → ℕ → ℕ → K) (V : ℕ → ℕ → K) (z : ℕ → K) (hfmode : Bool) (mu : K)
    (sup sdw : ℕ) : K :=
  let edw := loopAdd n (fun i => (H 1 i i + mu) * occNum K sdw i) 0
  let res := loopAdd n (fun i => occNum K sup i * (H 0 i i + mu)) edw
  coulombLoop n V z hfmode (occNum K sup) (occNum K sdw) res

/-- `_build_ham_local`, `edpyt/ham_local.py:19-68`: the operation sequence of each iteration of
`for idw in prange(dwn)`; the only shared cells written are `vec_diag[iup+idw*dup]` (the arrays `nup`,
`ndw` are private to an iteration). -/
def localOps (n : ℕ) (H : ℕ → ℕ → ℕ → K) (V : ℕ → ℕ → K) (z : ℕ → K) (hfmode : Bool) (mu : K)
    (statesUp statesDw : List ℕ) : List (List (MemOp K)) :=
  statesDw.zipIdx.map fun (sdw, idw) => statesUp.zipIdx.map fun (sup, iup) =>
    { loc := iup + idw * statesUp.length, f := fun _ => localEntry n H V z hfmode mu sup sdw }

/-- Value stored for the combined state `sdu`, `edpyt/ham_local.py:100-126`. Line 110 uses `edwdiag`
for both spins. The masks are `uint32((1<<n)-1)` and its shift by `n` (promoted to 64 bit). -/
def nLocalEntry (n : ℕ) (H : ℕ → ℕ → ℕ → K) (V : ℕ → ℕ → K) (z : ℕ → K) (hfmode : Bool) (mu : K)
    (sdu : ℕ) : K :=
  let maskUp := ((1 <<< n) - 1) % 2 ^ 32
  let maskDw := maskUp <<< n
  let sdw := (sdu &&& maskDw) >>> n
  let sup := sdu &&& maskUp
  let res := loopAdd n (fun i => (H 1 i i + mu) * (occNum K sdw i + occNum K sup i)) 0
  coulombLoop n V z hfmode (occNum K sup) (occNum K sdw) res

/-- `_N_build_ham_local`, `edpyt/ham_local.py:79-126`, operations per iteration. -/
def nLocalOps (n : ℕ) (H : ℕ → ℕ → ℕ → K) (V : ℕ → ℕ → K) (z : ℕ → K) (hfmode : Bool) (mu : K)
    (states : List ℕ) : List (List (MemOp K)) :=
  states.zipIdx.map fun (sdu, idu) => [{ loc := idu, f := fun _ => nLocalEntry n H V z hfmode mu sdu }]

/-- Default reference occupations, `edpyt/ham_local.py:130-134`. -/
def defaultZ (hfmode : Bool) (z : Option (ℕ → K)) : ℕ → K :=
  match z with
  | some z => z
  | none => if hfmode then fun _ => 1 else fun _ => 0

/-- `build_ham_local`, `edpyt/ham_local.py:129-141` for spin-resolved sectors, as a relation because
the order of the parallel iterations is open: `vec_diag = np.zeros(d)` filled by some interleaving. -/
def BuildHamLocal (n : ℕ) (H : ℕ → ℕ → ℕ → K) (V : ℕ → ℕ → K) (z : Option (ℕ → K)) (hfmode : Bool) (mu : K)
    (statesUp statesDw : List ℕ) (result : List K) : Prop :=
  ∃ out, Interleaving (localOps n H V (defaultZ hfmode z) hfmode mu statesUp statesDw) out ∧
    result = runOps out (List.replicate (statesUp.length * statesDw.length) 0)

/-- `build_ham_local` for sectors of fixed total particle number. Source: `edpyt/ham_local.py:79-141`. -/
def NBuildHamLocal (n : ℕ) (H : ℕ → ℕ → ℕ → K) (V : ℕ → ℕ → K) (z : Option (ℕ → K)) (hfmode : Bool) (mu : K)
    (states : List ℕ) (result : List K) : Prop :=
  ∃ out, Interleaving (nLocalOps n H V (defaultZ hfmode z) hfmode mu states) out ∧
    result = runOps out (List.replicate states.length 0)

end Edpyt
