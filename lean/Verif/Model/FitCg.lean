import Mathlib.Analysis.Real.Pi.Bounds
import Verif.Model.Dmft
/-!
Model of the least-squares objective of `edpyt/fit_cg.py` and its gradient, exact arithmetic. The parameter array `p` of size
`2 * nb` holds the bath energies, then the couplings.
-/
namespace Edpyt

/-- `ek` and `vk` of `_delta` and `_ddelta`, `edpyt/fit_cg.py:11-12,28-29`. -/
def fitEk (p : ℕ → ℝ) : ℕ → ℝ := fun j => p j
/-- See `fitEk`. Source: `edpyt/fit_cg.py:67-73`. -/
def fitVk (nb : ℕ) (p : ℕ → ℝ) : ℕ → ℝ := fun j => p (nb + j)

/-- `Delta(z)(p)` at one frequency, `edpyt/fit_cg.py:9-22`. -/
noncomputable def fitDelta (nb : ℕ) (p : ℕ → ℝ) (z : ℂ) : ℂ := deltaEval nb (fitEk p) (fitVk nb p) z

/-- Element `out[i, k]` of `_ddelta` for frequency `z`, `edpyt/fit_cg.py:25-35`. -/
noncomputable def fitDDelta (nb : ℕ) (p : ℕ → ℝ) (z : ℂ) (k : ℕ) : ℂ :=
  if k < nb then ((fitVk nb p k : ℂ) ^ 2) / (z - fitEk p k) ^ 2
  else 2 * (fitVk nb p (k - nb) : ℂ) / (z - fitEk p (k - nb))

/-- `Chi2(delta, vals_true)(p)`, `edpyt/fit_cg.py:45-56`; `m` is the number of frequencies. -/
noncomputable def fitChi2 (nb m : ℕ) (z vals : ℕ → ℂ) (p : ℕ → ℝ) : ℝ :=
  (List.range m).foldl (fun res i => res + (((vals i).re - (fitDelta nb p (z i)).re) ^ 2 + ((vals i).im - (fitDelta nb p (z i)).im) ^ 2)) 0 / m

/-- Element `k` of `dChi2(delta, ddelta, vals_true)(p)`, `edpyt/fit_cg.py:58-64`. -/
noncomputable def fitDChi2 (nb m : ℕ) (z vals : ℕ → ℂ) (p : ℕ → ℝ) (k : ℕ) : ℝ :=
  -2 * ((List.range m).foldl (fun s i => s + (vals i - fitDelta nb p (z i)).re * (fitDDelta nb p (z i) k).re) 0
    + (List.range m).foldl (fun s i => s + (vals i - fitDelta nb p (z i)).im * (fitDDelta nb p (z i) k).im) 0) / m

/-- The frequencies of `fit_hybrid`, `edpyt/fit_cg.py:68`. -/
noncomputable def fitMats (beta : ℝ) (i : ℕ) : ℂ := Complex.I * (((2 * i + 1) * Real.pi / beta : ℝ) : ℂ)

/-- The iterates of `scipy.optimize.fmin_cg` (not part of the repository): the next point lies on the search line, the next direction is minus the gradient there plus a multiple of the old direction.
The step lengths `a` and the factors `b` are free: every line search, every choice of the factor and every stopping rule is allowed. Source: `edpyt/fit_cg.py:67-73`. -/
inductive CgPath {N : ℕ} (grad : (Fin N → ℝ) → Fin N → ℝ) (x0 : Fin N → ℝ) : (Fin N → ℝ) → (Fin N → ℝ) → Prop
  | start : CgPath grad x0 x0 (fun j => -grad x0 j)
  | next {x d : Fin N → ℝ} (a b : ℝ) (h : CgPath grad x0 x d) : CgPath grad x0 (fun j => x j + a * d j) (fun j => -grad (fun j => x j + a * d j) j + b * d j)

/-- An array of `N` numbers, read at any index. Source: `edpyt/fit_cg.py:10-16`. -/
def parr {N : ℕ} (p : Fin N → ℝ) : ℕ → ℝ := fun k => if h : k < N then p ⟨k, h⟩ else 0

/-- `fit_hybrid(p, nmats, vals_true, beta)`, `edpyt/fit_cg.py:67-73`: `p` is overwritten by what the minimiser returns. `DDelta`, `edpyt/fit_cg.py:37-41`, and `Delta` return the array they were given, each call overwrites it
completely, so that no value of an earlier call is left. -/
def FitHybrid {nb : ℕ} (m : ℕ) (vals : ℕ → ℂ) (beta : ℝ) (p p' : Fin (nb + nb) → ℝ) : Prop :=
  ∃ d, CgPath (fun q k => fitDChi2 nb m (fitMats beta) vals (parr q) k) p p' d

end Edpyt
