import Mathlib.Analysis.Normed.Algebra.MatrixExponential
import Mathlib.Analysis.Complex.Basic
import Mathlib.LinearAlgebra.Matrix.Trace
/-!
Thermal averages and thermal Green functions of a Hamiltonian matrix, without reference to eigenstates.
-/
namespace Edpyt.Spec
open Matrix
variable {ι : Type} [Fintype ι] [DecidableEq ι]

/-- A real matrix as a complex one. -/
def cplx {κ : Type} (A : Matrix ι κ ℝ) : Matrix ι κ ℂ := A.map Complex.ofReal

/-- The Boltzmann operator `e^{-βH}`. -/
noncomputable def gibbsOp (β : ℝ) (H : Matrix ι ι ℝ) : Matrix ι ι ℝ := NormedSpace.exp (-β • H)

/-- The thermal average `tr(e^{-βH} A) / tr e^{-βH}`. -/
noncomputable def thermal (β : ℝ) (H : Matrix ι ι ℝ) (A : Matrix ι ι ℂ) : ℂ :=
  trace (cplx (gibbsOp β H) * A) / trace (cplx (gibbsOp β H))

/-- `g` is the value at `z` of the thermal Green function of `A` and `B`: `g = ⟨{X, B}⟩` where `X` solves the equation of motion
`z X - [X, H] = A`. (For `Im z > 0`, `X = -i ∫₀^∞ e^{izt} A(t) dt` with `A(t) = e^{iHt} A e^{-iHt}`, so this is the retarded Green function
`-i ∫₀^∞ e^{izt} ⟨{A(t), B}⟩ dt`.) -/
def IsGreen (β : ℝ) (H A B : Matrix ι ι ℝ) (z g : ℂ) : Prop :=
  ∃ X : Matrix ι ι ℂ, z • X - (X * cplx H - cplx H * X) = cplx A ∧ g = thermal β H (X * cplx B + cplx B * X)

end Edpyt.Spec
