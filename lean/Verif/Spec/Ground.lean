import Verif.Spec.Thermal
/-!
Averages over the ground states of a Hamiltonian matrix.
-/
namespace Edpyt.Spec
open Matrix
variable {ι : Type} [Fintype ι] [DecidableEq ι]

/-- `P` is the orthogonal projector on the eigenvectors of `H` with the eigenvalue `E`. -/
structure LevelProj (H : Matrix ι ι ℝ) (E : ℝ) (P : Matrix ι ι ℝ) : Prop where
  symm : Pᵀ = P
  range : H * P = E • P
  fixes : ∀ x, H *ᵥ x = E • x → P *ᵥ x = x

/-- The average over the level: `tr (P A) / tr P`. -/
noncomputable def levelAvg (P : Matrix ι ι ℝ) (A : Matrix ι ι ℂ) : ℂ := trace (cplx P * A) / trace (cplx P)

/-- `g` is the value at `z` of the Green function of `A` and `B` in the level with projector `P`: as `IsGreen`, with the average over the level in the
place of the thermal one. -/
def IsLevelGreen (P H A B : Matrix ι ι ℝ) (z g : ℂ) : Prop :=
  ∃ X : Matrix ι ι ℂ, z • X - (X * cplx H - cplx H * X) = cplx A ∧ g = levelAvg P (X * cplx B + cplx B * X)

end Edpyt.Spec
