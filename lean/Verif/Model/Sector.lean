import Mathlib.Data.Nat.Choose.Basic
import Verif.Model.Err
/-!
Model of `edpyt/sector.py`.
-/
namespace Edpyt

/-- Two's complement negation of an unsigned machine word of width `w`
(numba's `-x` in `edpyt/sector.py:26`). -/
def negW (w x : ℕ) : ℕ := (2 ^ w - x) % 2 ^ w

/-- One pass through the loop body of `permutations`, `edpyt/sector.py:26-28`.
The compiled intermediate words have `w` bits (numba promotes `uint32`, so `w` is left open).
`(v^x)/u` is a float64 division in the code; it is modelled by the integer quotient, and
`C01_float_division_exact` shows that the float division is exact. The cast `unsiged_dt(..)`
is the reduction modulo 2^32. -/
def nextPerm (w x : ℕ) : ℕ :=
  let u := x &&& negW w x
  let v := (u + x) % 2 ^ w
  (v + (((v ^^^ x) / u) % 2 ^ 32) >>> 2) % 2 ^ w

/-- The loop of `permutations` (`edpyt/sector.py:25-29`): writes `k` further states after `x`;
storing into the `uint32` array reduces modulo 2^32. -/
def permLoop (w : ℕ) : ℕ → ℕ → List ℕ
  | 0, _ => []
  | k + 1, x =>
    let x' := nextPerm w x
    (x' % 2 ^ 32) :: permLoop w k x'

/-- `scipy.special.binom(n, p)` for integer arguments (`edpyt/sector.py:37,44`). -/
def binom (n : ℕ) (p : ℤ) : ℕ := if p < 0 then 0 else n.choose p.toNat

/-- `generate_states`, `edpyt/sector.py:40-49` including the call of `permutations` (18-29).
`1 << p` raises `ValueError` for negative `p`; `states[0] = ..` raises `IndexError` on an empty
array. -/
def generateStates (w n : ℕ) (p : ℤ) : Except PyErr (List ℕ) :=
  let numStates := binom n p
  if p < 0 then .error .valueError
  else
    let initial := (1 <<< p.toNat - 1) % 2 ^ 32
    if numStates = 0 then .error .indexError
    else .ok (initial :: permLoop w (numStates - 1) initial)

/-- `get_sector_dim`, `edpyt/sector.py:32-37`. -/
def getSectorDim (n : ℕ) (nup ndw : ℤ) : ℕ := binom n nup * binom n ndw

/-- `get_cdg_sector`, `edpyt/sector.py:52-70`. -/
def getCdgSector (n nup ndw ispin : ℤ) : Except PyErr (ℤ × ℤ) :=
  if ispin = 0 then
    if nup + 1 > n then .error .outOfHilbert else .ok (nup + 1, ndw)
  else if ispin = 1 then
    if ndw + 1 > n then .error .outOfHilbert else .ok (nup, ndw + 1)
  else .error .runtimeError

/-- `get_c_sector`, `edpyt/sector.py:73-89`. -/
def getCSector (nup ndw ispin : ℤ) : Except PyErr (ℤ × ℤ) :=
  if ispin = 0 then
    if nup - 1 < 0 then .error .outOfHilbert else .ok (nup - 1, ndw)
  else if ispin = 1 then
    if ndw - 1 < 0 then .error .outOfHilbert else .ok (nup, ndw - 1)
  else .error .runtimeError

end Edpyt
