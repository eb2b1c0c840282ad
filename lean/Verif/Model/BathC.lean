import Verif.Model.LineSearch
import Mathlib.Analysis.SpecialFunctions.Pow.Real
import Mathlib.Analysis.Complex.Norm
import Mathlib.Analysis.Real.Pi.Bounds
/-!
Model of `edpyt_backend/bath.c`, `edpyt_backend/fit.c` and of the wrappers `edpyt_backend/fit_wrap.py` and `edpyt/fit_cffi.py`.
Arrays are functions of the index; the global variables `nbath`, `nmats`, `z`, `vals_true` are arguments. The files `fit.h` and `bath.h` hold
the declarations; `init_bath` is in `Verif.Model.Bath`.
-/
namespace Edpyt

/-- `eval_delta`, `edpyt_backend/bath.c:54-69`: the element of `delta` for the frequency `z`. -/
noncomputable def cDelta (nb : ℕ) (x : ℕ → ℝ) (z : ℂ) : ℂ :=
  (List.range nb).foldl (fun acc j => acc + ((x (nb + j) ^ 2 : ℝ) : ℂ) / (z - (x j : ℂ))) 0

/-- `eval_ddelta`, `edpyt_backend/bath.c:72-88`: the element `k` of the row of `ddelta` for the frequency `z`. -/
noncomputable def cDDelta (nb : ℕ) (x : ℕ → ℝ) (z : ℂ) (k : ℕ) : ℂ :=
  if k < nb then ((x (nb + k) ^ 2 : ℝ) : ℂ) / (z - (x k : ℂ)) ^ 2
  else (2 : ℂ) * (x (nb + (k - nb)) : ℂ) / (z - (x (k - nb) : ℂ))

/-- `eval_chi2`, `edpyt_backend/bath.c:91-99`. -/
noncomputable def cChi2 (nb m : ℕ) (z vals : ℕ → ℂ) (x : ℕ → ℝ) : ℝ :=
  (List.range m).foldl (fun chi2 i => chi2 + ‖vals i - cDelta nb x (z i)‖ ^ 2) 0 / m

/-- `eval_dchi2`, `edpyt_backend/bath.c:102-120`: the element `k` of `dx`. -/
noncomputable def cDChi2 (nb m : ℕ) (z vals : ℕ → ℂ) (x : ℕ → ℝ) (k : ℕ) : ℝ :=
  -2 * (List.range m).foldl (fun dx i => dx + ((cDDelta nb x (z i) k).re * (vals i - cDelta nb x (z i)).re +
    (cDDelta nb x (z i) k).im * (vals i - cDelta nb x (z i)).im)) 0 / m

/-- The frequencies of `fit`, `edpyt_backend/fit.c:26-28`. -/
noncomputable def cMats (beta : ℝ) (i : ℕ) : ℂ := ((2 * i + 1) * (Real.pi / beta) : ℝ) * Complex.I

/-- An array of `N` numbers, read at any index. Source: `edpyt_backend/bath.c:54-69`. -/
def carr {N : ℕ} (p : Fin N → ℝ) : ℕ → ℝ := fun k => if h : k < N then p ⟨k, h⟩ else 0

/-- `fit`, `edpyt_backend/fit.c:11-34`: result `(x, iter, fret)` from the start `x`. The call of `init_bath` is commented out. -/
def CFit {nb : ℕ} (junk : ℝ) (m : ℕ) (vals : ℕ → ℂ) (beta : ℝ) (x : Fin (nb + nb) → ℝ) (r : Except PyErr ((Fin (nb + nb) → ℝ) × ℕ × ℝ)) : Prop :=
  Frprmn junk (fun p => cChi2 nb m (cMats beta) vals (carr p)) (fun p k => cDChi2 nb m (cMats beta) vals (carr p) k) (1 / 10 ^ 10) x r

/-- `fit_hybrid(nbath, nmats, delta, beta)`, `edpyt_backend/fit_wrap.py:18-26`: the start `x = np.empty(2*nbath)` is what is found in memory. -/
def WrapFitHybrid {nb : ℕ} (mem : Fin (nb + nb) → ℝ) (junk : ℝ) (m : ℕ) (vals : ℕ → ℂ) (beta : ℝ) (r : Except PyErr (Fin (nb + nb) → ℝ)) : Prop :=
  ∃ r', CFit junk m vals beta mem r' ∧ r = r'.map Prod.fst

end Edpyt
