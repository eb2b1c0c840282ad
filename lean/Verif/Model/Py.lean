import Verif.Model.Err
import Mathlib.Data.Int.Notation
import Mathlib.Data.Nat.Notation
/-!
Python/numpy sequence access used by the models: an index may be negative (counted from the end),
everything else raises `IndexError`.
-/
namespace Edpyt

/-- Position addressed by the Python index `i` in a sequence of length `len`. Source: `edpyt/espace.py:157`. -/
def pyIndex (len : ℕ) (i : ℤ) : Except PyErr ℕ :=
  if 0 ≤ i then (if i < len then .ok i.toNat else .error .indexError)
  else (if 0 ≤ i + len then .ok (i + len).toNat else .error .indexError)

/-- `l[i]`. Source: `edpyt/espace.py:157`. -/
def getItem {α : Type*} (l : List α) (i : ℤ) : Except PyErr α :=
  match pyIndex l.length i with
  | .ok k => match l[k]? with
    | some x => .ok x
    | none => .error .indexError
  | .error e => .error e

/-- `l[i] = v`. Source: `edpyt/espace.py:242-251`. -/
def setItem {α : Type*} (l : List α) (i : ℤ) (v : α) : Except PyErr (List α) :=
  match pyIndex l.length i with
  | .ok k => .ok (l.set k v)
  | .error e => .error e

/-- `for x in xs: st = body(st, x)` where the body may raise. Source: `edpyt/espace.py:156-169`. -/
def forM' {α σ : Type*} (body : σ → α → Except PyErr σ) : List α → σ → Except PyErr σ
  | [], st => .ok st
  | x :: xs, st => match body st x with
    | .ok st' => forM' body xs st'
    | .error e => .error e

/-- `np.ndindex(a, b)`: all pairs in row-major order. Source: `edpyt/cotunneling.py:76,112,332-333`. -/
def ndindex2 (a b : ℕ) : List (ℕ × ℕ) :=
  (List.range a).flatMap fun i => (List.range b).map fun j => (i, j)

end Edpyt
