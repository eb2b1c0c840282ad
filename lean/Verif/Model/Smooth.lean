import Mathlib.Analysis.Fourier.ZMod
import Verif.Model.Err
/-!
Model of `smooth`, `edpyt/dedlib.py:401-427` (and its copy `edpyt/dedlib_dev.py:446-472`), over the real numbers. `scipy.fftpack.fft` and `ifft` are the discrete Fourier transform and its
inverse, `ZMod.dft` in Mathlib.
-/
namespace Edpyt
open ZMod

/-- `scipy.interpolate.interp1d(x, y)(p)` for points in ascending order, linear; `none` if `p` is outside. The first interval whose right end is not below `p` counts. Source: `edpyt/dedlib.py:410,426`. -/
noncomputable def interpLin : List (ℝ × ℂ) → ℝ → Option ℂ
  | a :: b :: l, p => if p ≤ b.1 then (if a.1 ≤ p then some (a.2 + ((p - a.1) / (b.1 - a.1) : ℝ) * (b.2 - a.2)) else none) else interpLin (b :: l) p
  | _, _ => none

/-- `fftpack.fftfreq(M, d)[k]`. Source: `edpyt/dedlib.py:415`. -/
noncomputable def fftfreq (M : ℕ) (d : ℝ) (k : ZMod M) : ℝ := (if k.val < (M - 1) / 2 + 1 then (k.val : ℝ) else (k.val : ℝ) - M) / (M * d)

/-- `f = fft(x); f[np.abs(freq) > cutoff] = 0; ifft(f).real`, `edpyt/dedlib.py:416-418` and `:420-422`, for a real signal. -/
noncomputable def lowPass (M : ℕ) [NeZero M] (d cutoff : ℝ) (x : ZMod M → ℝ) : ZMod M → ℝ := fun j =>
  (ZMod.dft.symm (fun k => if cutoff < |fftfreq M d k| then 0 else ZMod.dft (fun j => (x j : ℂ)) k) j).re

/-- `edpyt/dedlib.py:415-424`: imaginary and real part are filtered one by one. -/
noncomputable def smoothMesh (M : ℕ) [NeZero M] (d cutoff : ℝ) (s : ZMod M → ℂ) : ZMod M → ℂ := fun j =>
  (lowPass M d cutoff (fun j => (s j).re) j : ℂ) + Complex.I * (lowPass M d cutoff (fun j => (s j).im) j : ℂ)

/-- `int((energies.max()-energies.min())/1e-2 + 1)`, `edpyt/dedlib.py:411-412`. -/
noncomputable def meshSize (lo hi : ℝ) : ℕ := ⌊(hi - lo) / (1 / 100) + 1⌋₊

/-- `np.linspace(lo, hi, M, endpoint=True)[j]`. Source: `edpyt/dedlib.py:401-427`. -/
noncomputable def meshPoint (lo hi : ℝ) (M j : ℕ) : ℝ := lo + j * ((hi - lo) / (M - 1))

/-- `interp1d` without `bounds_error=False` raises outside. Source: `edpyt/dedlib.py:410`. -/
def inBounds : Option ℂ → Except PyErr ℂ
  | some v => .ok v
  | none => .error .valueError

/-- `smooth(energies, sigma, cutoff)`, `edpyt/dedlib.py:401-427`, for points in ascending order from `lo` to `hi`, at least two. A mesh of one point has no `energies_interp[1]`. The result is
zero outside. -/
noncomputable def smooth (pts : List (ℝ × ℂ)) (cutoff : ℝ) : Except PyErr (ℝ → ℂ) :=
  let lo := (pts.head?.map Prod.fst).getD 0
  let hi := (pts.getLast?.map Prod.fst).getD 0
  match meshSize lo hi with
  | 0 => .error .indexError
  | 1 => .error .indexError
  | m + 2 => do
    let s ← (List.range (m + 2)).mapM fun j => inBounds (interpLin pts (meshPoint lo hi (m + 2) j))
    let y := smoothMesh (m + 2) (meshPoint lo hi (m + 2) 1 - meshPoint lo hi (m + 2) 0) cutoff fun j => s[j.val]?.getD 0
    .ok fun e => (interpLin ((List.range (m + 2)).map fun j => (meshPoint lo hi (m + 2) j, y j)) e).getD 0

end Edpyt
