import Mathlib.Analysis.SpecialFunctions.Log.Basic
/-!
Statistical entropy of a spectrum, independent of the code.
-/
namespace Edpyt.Spec

/-- Boltzmann weights of a list of energies: `exp(-β e) / Σ exp(-β e')`. -/
noncomputable def boltzmann (β : ℝ) (l : List ℝ) : List ℝ :=
  l.map fun e => Real.exp (-(β * e)) / (l.map fun e' => Real.exp (-(β * e'))).sum

/-- `-Σ p ln p`. -/
noncomputable def shannon (p : List ℝ) : ℝ := (p.map fun x => -(x * Real.log x)).sum

/-- Fermi occupation of a level. -/
noncomputable def fermiOcc (β e : ℝ) : ℝ := 1 / (Real.exp (β * e) + 1)

/-- Entropy of one level of occupation `f`, per spin: `-f ln f - (1-f) ln (1-f)`. -/
noncomputable def levelEntropy (f : ℝ) : ℝ := -(f * Real.log f) - (1 - f) * Real.log (1 - f)

end Edpyt.Spec
