import Verif.Spec.TwoSpin
/-!
Specification of the one-body matrix and the exchange terms that the program keeps.
-/
namespace Edpyt
open Spec

variable {K : Type} [Field K] [LinearOrder K] {n : ℕ}

/-- One-body matrix of the code: diagonal shifted by `mu`, off-diagonal elements above threshold. -/
def kept (mu : K) (A : ℕ → ℕ → K) (i j : Fin n) : K := (if i = j then A i i + mu else 0) + offdiag (n := n) A i j

/-- The optional coupling matrix, zero if absent. -/
def optMat (J : Option (ℕ → ℕ → K)) : ℕ → ℕ → K := J.getD fun _ _ => 0

/-- The exchange part the code adds to the Hubbard Hamiltonian: with the sign of the opposite spin
term as in the code (see C22). -/
def codeExchange (Jx Jp : Option (ℕ → ℕ → K)) : Matrix (Finset (Fin (n + n))) (Finset (Fin (n + n))) K :=
  exchangeSame (offdiag (n := n) (optMat Jx)) - exchangeFlip (offdiag (n := n) (optMat Jx)) +
    pairHopping (offdiag (n := n) (optMat Jp))

end Edpyt
