import Verif.Model.Py
import Mathlib.Analysis.Complex.Norm
/-!
Model of `edpyt/rates.py`. `np.linalg.eig` is a parameter that gives the eigenvalues `w` and the eigenvectors as the columns of `v`.
-/
namespace Edpyt

/-- `np.argmin`: the first index of the smallest element; an empty array raises. Source: `edpyt/rates.py:14`. -/
noncomputable def argmin : List ℝ → Except PyErr ℕ
  | [] => .error .valueError
  | x :: l => .ok ((x :: l).idxOf (l.foldl min x))

/-- `stationary_solution`, `edpyt/rates.py:4-17`, for a matrix of size `sz`. The result `none` stands for the array of `nan` and `inf`
that the division by a vanishing sum gives. -/
noncomputable def stationarySolution (eig : ℕ → (ℕ → ℕ → ℝ) → List ℂ × (ℕ → ℕ → ℂ)) (sz : ℕ) (W : ℕ → ℕ → ℝ) : Except PyErr (Option (ℕ → ℝ)) := do
  let r := eig sz W
  let j ← argmin (r.1.map fun w => ‖w - 1‖)
  let p : ℕ → ℝ := fun i => (r.2 i j).re
  let s := ∑ i ∈ Finset.range sz, p i
  pure (if s = 0 then none else some fun i => p i / s)

end Edpyt
