import Verif.Model.Py
import Mathlib.Data.Real.Basic
import Mathlib.Algebra.Order.Floor.Ring
import Mathlib.Data.Real.Archimedean
import Mathlib.Data.List.Sort
/-!
Model of `cumsum` and `RandomSampler`, `edpyt/dedlib.py:31-68`. Floating-point rounding is not modelled.
-/
namespace Edpyt

/-- `cumsum(a)`, `edpyt/dedlib.py:31-34`: new content of the array. -/
noncomputable def cumsum (a : List ℝ) : List ℝ :=
  (List.range' 1 (a.length - 1)).foldl (fun a i => a.set i (a[i]?.getD 0 + a[i - 1]?.getD 0)) a

/-- `int(x)` of a float: rounds towards zero. Source: `edpyt/dedlib.py:52`. -/
noncomputable def pyInt (x : ℝ) : ℤ := if 0 ≤ x then ⌊x⌋ else ⌈x⌉

/-- `np.linspace(a, b, num, endpoint=True)`: a negative number of points raises. Source: `edpyt/dedlib.py:52-53`. -/
noncomputable def linspace (a b : ℝ) (num : ℤ) : Except PyErr (List ℝ) :=
  if num < 0 then .error .valueError
  else .ok ((List.range num.toNat).map fun k : ℕ => a + (k : ℝ) * ((b - a) / ((num.toNat : ℝ) - 1)))

/-- `np.searchsorted(a, v)` of a sorted array: the number of elements smaller than `v`. Source: `edpyt/dedlib.py:67`. -/
noncomputable def searchsorted (a : List ℝ) (v : ℝ) : ℕ := a.countP fun x => x < v

/-- The attributes `eners` and `cdf` of a `RandomSampler`. Source: `edpyt/dedlib.py:39-59`. -/
structure RandomSampler where
  eners : List ℝ
  cdf : List ℝ

/-- `RandomSampler.__init__`, `edpyt/dedlib.py:42-58`, for a distribution `p` that acts element by element. -/
noncomputable def RandomSampler.init (p : ℝ → ℝ) (l0 l1 nsamples : ℝ) : Except PyErr RandomSampler := do
  let eners ← linspace l0 l1 (pyInt ((l1 - l0) * nsamples + 1))
  let cdf := eners.map p
  let s := cdf.sum
  pure ⟨eners, cumsum (cdf.map fun x => x / s)⟩

/-- One draw, `edpyt/dedlib.py:67`, with the random number `u`. -/
noncomputable def RandomSampler.draw (r : RandomSampler) (u : ℝ) : Except PyErr ℝ := getItem r.eners (searchsorted r.cdf u : ℕ)

/-- `RandomSampler.__call__`, `edpyt/dedlib.py:61-68`: new content of `poles` for the random numbers `us`. -/
noncomputable def RandomSampler.call (r : RandomSampler) (us : List ℝ) : Except PyErr (List ℝ) := do
  let ps ← us.mapM r.draw
  pure (ps.insertionSort (· ≤ ·))

end Edpyt
