import Verif.Model.Err
import Mathlib.Data.Nat.Bits
import Mathlib.Data.Nat.Bitwise
/-!
Model of `edpyt/lookup.py`.
-/
namespace Edpyt

/-- `count_bits`, `edpyt/lookup.py:11-18`: the accumulation loop over `range(n)`. -/
def countBits (s n : ℕ) : ℕ :=
  (List.range n).foldl (fun bits i => bits + ((s >>> i) &&& 1)) 0

/-- `np.binary_repr(i, n)` for non-negative `i` (numpy), most significant digit first:
the digits of `i`, padded with zeros on the left up to width `n`; longer than `n` if `i` needs more
digits. Source: `edpyt/lookup.py:28`. -/
def binaryRepr (i n : ℕ) : List Bool :=
  let d := (Nat.bits i).reverse
  let d := if d.isEmpty then [false] else d
  List.replicate (n - d.length) false ++ d

/-- `binrep`, `edpyt/lookup.py:21-38`. Both formats hold the digits of `np.binary_repr` reversed
(`[::-1]`), as characters ("str") or as an array of 0/1 ("array"); the digit list is the same. -/
def binrep (i n : ℕ) : List Bool := (binaryRepr i n).reverse

/-- `intrep` on an array, `edpyt/lookup.py:45-49`: `enumerate(arr_repr[::-1])`, adding `1<<shift`
for each true digit (uint32 arithmetic: reduction modulo 2^32). -/
def intrepArr (a : List Bool) : ℕ :=
  (a.reverse.zipIdx.foldl (fun i (jb : Bool × ℕ) => if jb.1 then (i + 1 <<< jb.2) % 2 ^ 32 else i) 0)

/-- `intrep` on a string, `edpyt/lookup.py:43-44`: `np.uint32(int(arr_repr, base=2))`. -/
def intrepStr (a : List Bool) : ℕ :=
  (a.foldl (fun acc b => 2 * acc + b.toNat) 0) % 2 ^ 32

/-- `get_spin_indices`, `edpyt/lookup.py:54-61`. -/
def getSpinIndices (i dup : ℕ) : ℕ × ℕ := (i % dup, i / dup)

/-- `get_state_index`, `edpyt/lookup.py:64-69`. -/
def getStateIndex (iup idw dup : ℕ) : ℕ := iup + idw * dup

/-- The while loop of `binsearch`, `edpyt/lookup.py:79-84`. `m = (lo+hi)>>1` is the arithmetic
shift. numba does not check bounds; an index outside `a` would read arbitrary memory, modelled by
the arbitrary default `junk` (`C03_binsearch_in_bounds` shows it is never used). -/
def binsearchLoop (junk : ℕ) (a : List ℕ) (s : ℕ) (lo hi : ℤ) : ℤ :=
  if _h : hi - lo > 1 then
    let m := (lo + hi) >>> 1
    if (a[m.toNat]?.getD junk) ≤ s then binsearchLoop junk a s m hi
    else binsearchLoop junk a s lo m
  else lo
termination_by (hi - lo).toNat
decreasing_by
  all_goals
    simp only [Int.shiftRight_eq_div_pow]
    omega

/-- `binsearch`, `edpyt/lookup.py:74-88`. -/
def binsearch (junk : ℕ) (a : List ℕ) (s : ℕ) : ℤ :=
  let lo := binsearchLoop junk a s (-1) a.length
  if lo = -1 ∨ (a[lo.toNat]?.getD junk) ≠ s then -1 else lo

/-- `get_num_spins`, `edpyt/lookup.py:92-96`: `np.unravel_index(isct, (n+1, n+1))`, which raises
`ValueError` if the index is out of range. -/
def getNumSpins (isct : ℤ) (n : ℕ) : Except PyErr (ℤ × ℤ) :=
  if isct < 0 ∨ isct ≥ (n + 1) * (n + 1) then .error .valueError
  else .ok (isct / (n + 1), isct % (n + 1))

/-- `get_sector_index`, `edpyt/lookup.py:99-104`: `np.ravel_multi_index((nup, ndw), (n+1, n+1))`,
which raises `ValueError` if an index is out of range. -/
def getSectorIndex (n : ℕ) (nup ndw : ℤ) : Except PyErr ℤ :=
  if nup < 0 ∨ nup > n ∨ ndw < 0 ∨ ndw > n then .error .valueError
  else .ok (nup * (n + 1) + ndw)

end Edpyt
