import Verif.Model.Err
import Mathlib.Data.Int.Notation
import Mathlib.Data.Nat.Notation
/-!
Model of `edpyt/operators.py`. States are `uint32` words, modelled by natural numbers.
-/
namespace Edpyt

/-- `flip`, `edpyt/operators.py:10-17`; the declared result type `uint32` truncates to 32 bits. -/
def flip (s pos : ℕ) : ℕ := ((1 <<< pos) ^^^ s) % 2 ^ 32

/-- The bit counting loop `for k in range(lo, hi): bits += (s>>k)&1`
(`edpyt/operators.py:25-27` and `39-41`). -/
def countRange (s lo hi : ℕ) : ℕ :=
  (List.range' lo (hi - lo)).foldl (fun bits k => bits + ((s >>> k) &&& 1)) 0

/-- `fsgn`, `edpyt/operators.py:20-28`. -/
def fsgn (s pos n : ℕ) : ℤ := 1 - 2 * ((countRange s (pos + 1) n : ℤ) % 2)

/-- `get_parity`, `edpyt/operators.py:31-42`: `i, j = sorted((i, j))` first. -/
def getParity (s i j : ℕ) : ℤ := 1 - 2 * ((countRange s (min i j + 1) (max i j) : ℤ) % 2)

/-- `cdg`, `edpyt/operators.py:45-63`. -/
def cdg (s pos n : ℕ) : Except PyErr (ℤ × ℕ) :=
  let sOut := flip s pos
  let sg := fsgn s pos n
  if sOut > s then .ok (sg, sOut) else .error .assertionError

/-- `c`, `edpyt/operators.py:66-84`. -/
def c (s pos n : ℕ) : Except PyErr (ℤ × ℕ) :=
  let sOut := flip s pos
  let sg := fsgn s pos n
  if sOut < s then .ok (sg, sOut) else .error .assertionError

/-- `cdgc`, `edpyt/operators.py:87-92`; the result is stored as `uint32`. -/
def cdgc (s i j : ℕ) : ℤ × ℕ :=
  (getParity s i j, ((s ^^^ (1 <<< j)) ^^^ (1 <<< i)) % 2 ^ 32)

/-- `check_full` (`n_op`), `edpyt/operators.py:95-101`. -/
def checkFull (s pos : ℕ) : ℕ := (s >>> pos) &&& 1

/-- `check_empty` (`ndg_op`), `edpyt/operators.py:104-110`: `not check_full(s, pos)`. -/
def checkEmpty (s pos : ℕ) : ℕ := if checkFull s pos = 0 then 1 else 0

end Edpyt
