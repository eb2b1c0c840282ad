import Mathlib.Analysis.SpecialFunctions.Pow.Real
import Mathlib.Analysis.RCLike.Basic
/-!
Model of `gram_schmidt_rows` of `edpyt/lanczos.py`.
-/
namespace Edpyt

variable {𝕜 : Type} [RCLike 𝕜] {m : ℕ}

/-- `np.linalg.norm(Y, axis=1)` for one row. Source: `edpyt/lanczos.py:193,196`. -/
noncomputable def rowNorm (y : Fin m → 𝕜) : ℝ := Real.sqrt (∑ j, ‖y j‖ ^ 2)

/-- One pass of the loop, `edpyt/lanczos.py:194-195`. `X[i,:].dot(Y.T)` does not conjugate. -/
noncomputable def gsStep (Y : List (Fin m → 𝕜)) (x : Fin m → 𝕜) : List (Fin m → 𝕜) :=
  let proj := Y.map fun y j => (∑ i, x i * y i) / ((rowNorm y ^ 2 : ℝ) : 𝕜) * y j
  Y ++ [fun j => x j - (proj.map fun p => p j).sum]

/-- `gram_schmidt_rows(X, norm=…)`, `edpyt/lanczos.py:185-201`, from the list of vectors `X[0], X[1], …` (the rows, or the columns if
`row_vecs` is false, where `X` and the result are transposed). -/
noncomputable def gramSchmidtRows (X : List (Fin m → 𝕜)) (norm : Bool) : List (Fin m → 𝕜) :=
  let Y := (X.drop 1).foldl gsStep (X.take 1)
  if norm then Y.map fun y j => 1 / ((rowNorm y : ℝ) : 𝕜) * y j else Y

end Edpyt
