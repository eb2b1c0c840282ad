import Mathlib.Analysis.SpecialFunctions.Exp
/-!
Specification of rate matrices (column convention: `W f i` is the rate from `i` to `f`).
-/
namespace Edpyt.Spec

/-- A generator of a Markov process on `sz` states: non-negative rates, and every column sums to zero. -/
structure IsRateMatrix (sz : ℕ) (W : ℕ → ℕ → ℝ) : Prop where
  nonneg : ∀ f i, f < sz → i < sz → f ≠ i → 0 ≤ W f i
  conserve : ∀ i, i < sz → ∑ f ∈ Finset.range sz, W f i = 0

/-- `p` is stationary: `W p = 0`. -/
def IsStationary (sz : ℕ) (W : ℕ → ℕ → ℝ) (p : ℕ → ℝ) : Prop := ∀ f, f < sz → ∑ i ∈ Finset.range sz, W f i * p i = 0

end Edpyt.Spec
