import Verif.Props.Matvec
import Verif.Proof.Eigen
/-!
Specification of a solved sector.
-/
namespace Edpyt
open Spec

/-- Admissible input of `build_espace`: `2 ≤ n ≤ 32` sites, an interaction with `U`, symmetric real
parameters, and an exchange matrix whenever there is pair hopping. -/
structure HamArgs.Valid (a : HamArgs) : Prop where
  two_le : 2 ≤ a.n
  le : a.n ≤ 32
  hU : a.V.U.isSome
  symmH : ∀ s i j, i < a.n → j < a.n → a.H s i j = a.H s j i
  symmX : ∀ A ∈ a.V.Jx, ∀ i j, i < a.n → j < a.n → A i j = A j i
  symmP : ∀ A ∈ a.V.Jp, ∀ i j, i < a.n → j < a.n → A i j = A j i
  hJ : a.V.Jx = none → a.V.Jp = none

/-- The many-body Hamiltonian on the `2n`-mode Fock space: the extended Hubbard Hamiltonian plus the code's
exchange terms (zero without `Jx`, `Jp`), see C27. -/
noncomputable def HamArgs.ham (a : HamArgs) : Matrix (Finset (Fin (a.n + a.n))) (Finset (Fin (a.n + a.n))) ℝ :=
  hubbard a.hf (fun s => kept (n := a.n) a.mu (a.H (if s then 1 else 0)))
    (fun i => (a.z.getD (fun _ => if a.hf then 1 else 0)) i) (fun i j => a.V.U.getD 0 i j) + codeExchange a.V.Jx a.V.Jp

/-- `D` is the Hamiltonian restricted to the product basis `up × dw` (up index fastest). -/
structure IsSectorHam (a : HamArgs) (up dw : List ℕ) (D : Dense ℝ) : Prop where
  size : D.size = up.length * dw.length
  val : ∀ (iu id ju jd : ℕ) (_ : iu < up.length) (_ : id < dw.length) (_ : ju < up.length) (_ : jd < dw.length),
    D.val (iu + up.length * id) (ju + up.length * jd) = a.ham (occ2 a.n up[iu] dw[id]) (occ2 a.n up[ju] dw[jd])

/-- The first `k` eigenpairs of the sector's Hamiltonian: the first `k` pairs of some complete ascending
orthonormal eigen-decomposition. -/
def LowestPairs (a : HamArgs) (up dw : List ℕ) (k : ℕ) (w : List ℝ) (v : List (ℕ → ℝ)) : Prop :=
  ∃ D w' v', IsSectorHam a up dw D ∧ Eigh D w' v' ∧ w = w'.take k ∧ v = v'.take k

end Edpyt
