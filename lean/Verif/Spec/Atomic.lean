import Mathlib.Analysis.SpecialFunctions.Exp
import Mathlib.Data.Complex.Basic
/-!
A single level with two spins and a Coulomb repulsion, in thermal equilibrium.
-/
namespace Edpyt.Spec

/-- Occupation of spin `s` with level `e`; the other spin has level `e'`. The four states have energies `0, e, e', e + e' + U`. -/
noncomputable def atomicOcc (β e e' U : ℝ) : ℝ :=
  (Real.exp (-β * e) + Real.exp (-β * (e + e' + U))) / (1 + Real.exp (-β * e) + Real.exp (-β * e') + Real.exp (-β * (e + e' + U)))

/-- Its Green function: poles at `e` and `e + U` with the probabilities that the other spin is empty and occupied. -/
noncomputable def atomicGreen (β e e' U : ℝ) (z : ℂ) : ℂ :=
  (1 - (atomicOcc β e' e U : ℂ)) / (z - e) + (atomicOcc β e' e U : ℂ) / (z - e - U)

end Edpyt.Spec
