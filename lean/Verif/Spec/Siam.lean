import Verif.Spec.Resolvent
import Mathlib.Analysis.Complex.Basic
/-!
Specification: the one-body Hamiltonian of a single impurity coupled to a bath.
-/
namespace Edpyt.Spec

/-- Impurity level `e0`, bath levels `e k`, couplings `v k`:
```
| e0 v0 v1 … |
| v0 ε0      |
| v1    ε1   |
```
-/
noncomputable def siam {nb : ℕ} (e0 : ℝ) (e v : Fin nb → ℝ) : Matrix (Fin (nb + 1)) (Fin (nb + 1)) ℝ := Matrix.of fun i j =>
  Fin.cases (Fin.cases e0 (fun k => v k) j) (fun k => Fin.cases (v k) (fun l => if k = l then e k else 0) j) i

/-- The hybridisation function `Σ_k v_k² / (z - ε_k)`. -/
noncomputable def hybridisation {nb : ℕ} (e v : Fin nb → ℝ) (z : ℂ) : ℂ := ∑ k, (v k : ℂ) ^ 2 / (z - e k)

/-- The Green function of the impurity site, the `(0,0)` element of `(z - H)⁻¹`. -/
noncomputable def impurityGreen {nb : ℕ} (H : Matrix (Fin (nb + 1)) (Fin (nb + 1)) ℝ) (z : ℂ) : ℂ := resolvent z H 0 0

end Edpyt.Spec
