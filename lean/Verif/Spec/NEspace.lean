import Verif.Model.Espace
import Verif.Spec.KetN
import Verif.Proof.Hubbard
/-!
What `build_espace(H, V, symmetry='N')` diagonalises, stated with Fock space operators.
-/
namespace Edpyt
open Spec

/-- Arguments for which the particle-number conserving construction works: at most 16 sites, a dict `V` with `U` and at least one of
`Jx`, `Jp`, both symmetric. Nothing is asked of the one-body part `H`. -/
structure HamArgs.NValid (a : HamArgs) : Prop where
  le : a.n + a.n ≤ 32
  hU : a.V.U.isSome
  hJ : a.V.Jx.isSome ∨ a.V.Jp.isSome
  symmX : ∀ A ∈ a.V.Jx, ∀ i j, i < a.n → j < a.n → A i j = A j i
  symmP : ∀ A ∈ a.V.Jp, ∀ i j, i < a.n → j < a.n → A i j = A j i

/-- The Hamiltonian that is diagonalised: for both spins only the on-site energies `H[1][i][i]` of spin down, no hopping; the Coulomb
terms; spin exchange and pair hopping with the couplings above `1e-7`. -/
noncomputable def HamArgs.hamN (a : HamArgs) : Matrix (Finset (Fin (a.n + a.n))) (Finset (Fin (a.n + a.n))) ℝ :=
  hubbard a.hf (fun _ i j => if i = j then a.H 1 i i + a.mu else 0) (fun i => (a.z.getD (fun _ => if a.hf then 1 else 0)) i)
      (fun i j => a.V.U.getD 0 i j) +
    (spinExchange (offdiag (n := a.n) (optMat a.V.Jx)) + pairHopping (offdiag (n := a.n) (optMat a.V.Jp)))

/-- `D` is that Hamiltonian restricted to the basis states `L`. -/
structure IsSectorHamN (a : HamArgs) (L : List ℕ) (D : Dense ℝ) : Prop where
  size : D.size = L.length
  val : ∀ (r c : ℕ) (_ : r < L.length) (_ : c < L.length), D.val r c = a.hamN (occF (a.n + a.n) L[r]) (occF (a.n + a.n) L[c])

/-- The first `k` pairs of a complete ascending orthonormal eigen-decomposition of the sector's Hamiltonian. -/
def LowestPairsN (a : HamArgs) (L : List ℕ) (k : ℕ) (w : List ℝ) (v : List (ℕ → ℝ)) : Prop :=
  ∃ D w' v', IsSectorHamN a L D ∧ Eigh D w' v' ∧ w = w'.take k ∧ v = v'.take k

end Edpyt
