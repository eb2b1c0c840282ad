import Verif.Spec.Resolvent
import Mathlib.Data.Matrix.Basis
/-!
Dyson's equation with a self-energy on one site.
-/
namespace Edpyt.Spec
open Matrix

/-- `G` solves Dyson's equation of the one-body matrix `h` with the self-energy `σ` on the site `i0` and none elsewhere. -/
def LocalDyson {ι : Type} [Fintype ι] [DecidableEq ι] (h : Matrix ι ι ℝ) (i0 : ι) (z σ : ℂ) (G : Matrix ι ι ℂ) : Prop :=
  (z • 1 - h.map Complex.ofReal - Matrix.single i0 i0 σ) * G = 1

/-- The self-energy matrix `z - h - G⁻¹` of a Green function matrix `G` with the one-body matrix `h`. -/
noncomputable def selfEnergyMatrix {ι : Type} [Fintype ι] [DecidableEq ι] (h : Matrix ι ι ℝ) (z : ℂ) (G : Matrix ι ι ℂ) : Matrix ι ι ℂ := z • 1 - h.map Complex.ofReal - G⁻¹

end Edpyt.Spec
