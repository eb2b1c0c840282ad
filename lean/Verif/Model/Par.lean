import Mathlib.Data.Nat.Notation
import Mathlib.Data.List.Basic
/-!
Semantics of parallel loops (numba `prange`, Cython `prange`/OpenMP): every iteration is a sequence of
read-modify-write operations on single memory cells; a parallel execution is any interleaving of these
sequences.
-/
namespace Edpyt

/-- One memory operation `mem[loc] = f(mem[loc])` (a plain store has constant `f`). Source: `edpyt/ham_local.py:68` and `edpyt/cs_gaxpy.c:14,30`. -/
structure MemOp (V : Type) where
  loc : ℕ
  f : V → V

/-- Executes operations in the given order; writes outside the array are ignored here, that they do
not occur is stated where the loops are modelled. Source: `edpyt/ham_local.py:38-68`. -/
def runOps {V : Type} (ops : List (MemOp V)) (mem : List V) : List V :=
  ops.foldl (fun m o => m.modify o.loc o.f) mem

/-- `Interleaving ls out`: `out` is a merge of the sequences in `ls` that keeps the order inside each
sequence (one sequence per loop iteration, any scheduling of the iterations on any number of threads). Source: `edpyt/ham_local.py:38,99` and `edpyt/psparse.pyx:62,94,124`. -/
inductive Interleaving {α : Type} : List (List α) → List α → Prop
  | done (ls : List (List α)) (h : ∀ l ∈ ls, l = []) : Interleaving ls []
  | step (ls : List (List α)) (k : ℕ) (x : α) (rest out : List α) (h : ls[k]? = some (x :: rest))
      (t : Interleaving (ls.set k rest) out) : Interleaving ls (x :: out)

end Edpyt
