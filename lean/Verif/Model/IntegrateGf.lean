import Verif.Model.Py
import Mathlib.Analysis.SpecialFunctions.Exp
import Mathlib.Analysis.Complex.Basic
import Mathlib.Analysis.Real.Pi.Bounds
/-!
Model of `matsum_gf` of `edpyt/integrate_gf.py`.
-/
namespace Edpyt

/-- `z[i]` of `z = 1.j*(2*np.arange(nmats)+1)*np.pi/beta`, `edpyt/integrate_gf.py:119`. -/
noncomputable def msZ (beta : ℝ) (i : ℕ) : ℂ := Complex.I * (2 * i + 1) * Real.pi / beta

/-- `edpyt/integrate_gf.py:120-136` for one element of the leading axes of `gf_z`, as a function of its values at the frequencies. -/
noncomputable def msSum (nmats : ℕ) (beta : ℝ) (gfz : ℕ → ℂ) : ℝ :=
  let w2 := fun i => (msZ beta i).im ^ 2
  let mu := -(gfz (nmats - 1)).re * w2 (nmats - 1)
  let mu2 := mu ^ 2
  let s := (List.range nmats).foldl (fun s i =>
    let tail := -((mu : ℂ) + msZ beta i) / ((mu2 + w2 i : ℝ) : ℂ)
    s + (gfz i - tail).re) 0
  let At := -1 / (1 + Real.exp (-beta * mu))
  s * 2 / beta + At + 1

/-- `matsum_gf`, `edpyt/integrate_gf.py:114-138`, for one element of the leading axes of the array that `gf` returns. `gfMu` is the attribute
`gf.mu` before the call, and `call m z` is the value of `gf(z)` at each frequency when the attribute is `m`, or the exception of that call. The
result is the value or exception and the attribute `gf.mu` after the call. -/
noncomputable def matsumGf (call : ℝ → (ℕ → ℂ) → Except PyErr (ℕ → ℂ)) (gfMu mu : ℝ) (nmats : ℕ) (beta : ℝ) : Except PyErr ℝ × ℝ :=
  let muOld := gfMu
  match call mu (msZ beta) with
  | .error e => (.error e, mu)
  | .ok gfz =>
    if nmats = 0 then (.error .indexError, mu)
    else (.ok (msSum nmats beta gfz), muOld)

end Edpyt
