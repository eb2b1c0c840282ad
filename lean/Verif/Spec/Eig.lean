import Mathlib.Analysis.Complex.Norm
/-!
Contract of `np.linalg.eig` for a real matrix of size `sz`.
-/
namespace Edpyt.Spec

/-- `W x = μ x` with `x ≠ 0`. -/
def IsEigenpair (sz : ℕ) (W : ℕ → ℕ → ℝ) (μ : ℂ) (x : ℕ → ℂ) : Prop :=
  (∃ i, i < sz ∧ x i ≠ 0) ∧ ∀ f, f < sz → ∑ i ∈ Finset.range sz, (W f i : ℂ) * x i = μ * x f

/-- `w` lists all eigenvalues, column `k` of `v` is an eigenvector for the `k`-th one, and it is real if the eigenvalue is real. -/
structure IsEig (sz : ℕ) (W : ℕ → ℕ → ℝ) (w : List ℂ) (v : ℕ → ℕ → ℂ) : Prop where
  len : w.length = sz
  pair : ∀ k, (h : k < w.length) → IsEigenpair sz W w[k] fun i => v i k
  real : ∀ k, (h : k < w.length) → w[k].im = 0 → ∀ i, i < sz → (v i k).im = 0
  all : ∀ μ x, IsEigenpair sz W μ x → μ ∈ w

end Edpyt.Spec
