import Mathlib.MeasureTheory.Integral.IntegralEqImproper
import Mathlib.Analysis.SpecialFunctions.Exp
/-!
Phase space of a process that moves an electron between two reservoirs.
-/
namespace Edpyt.Spec
open MeasureTheory

/-- The Fermi distribution. -/
noncomputable def fermiDirac (β μ E : ℝ) : ℝ := 1 / (Real.exp (β * (E - μ)) + 1)

/-- Weight of taking an electron of energy `E + dE` from a reservoir with chemical potential `μe` and putting one of energy `E` into a
reservoir with chemical potential `μi`. -/
noncomputable def phaseSpace (β μe μi dE : ℝ) : ℝ := ∫ E, fermiDirac β μe (E + dE) * (1 - fermiDirac β μi E)

end Edpyt.Spec
