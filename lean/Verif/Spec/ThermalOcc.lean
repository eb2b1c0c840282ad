import Verif.Spec.Thermal
import Verif.Spec.TwoSpin
/-!
Thermal occupations.
-/
namespace Edpyt.Spec

/-- The average of the number operator of site `k` and spin `s` in the thermal state of `H`. -/
noncomputable def thermalOcc (β : ℝ) {n : ℕ} (H : Matrix (Finset (Fin (n + n))) (Finset (Fin (n + n))) ℝ) (s : Bool) (k : Fin n) : ℂ :=
  thermal β H (cplx (num ℝ (orb s k)))

end Edpyt.Spec
