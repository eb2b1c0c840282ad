import Verif.Spec.Thermal
/-!
The electron-addition and electron-removal parts of a thermal Green function.
-/
namespace Edpyt.Spec
open Matrix
variable {ι : Type} [Fintype ι] [DecidableEq ι]

/-- `ge` and `gh` are the two parts of the thermal Green function of `A` and `B`: `ge = ⟨X B⟩` and `gh = ⟨B X⟩` for the solution `X` of the
equation of motion `z X - [X, H] = A`. For `A = c` and `B = c†` these are the Lehmann sums over the states with one electron more and with
one electron less. Their sum is the Green function (`IsGreen`). -/
def IsGreenParts (β : ℝ) (H A B : Matrix ι ι ℝ) (z ge gh : ℂ) : Prop :=
  ∃ X : Matrix ι ι ℂ, z • X - (X * cplx H - cplx H * X) = cplx A ∧ ge = thermal β H (X * cplx B) ∧ gh = thermal β H (cplx B * X)

end Edpyt.Spec
