import Mathlib.Algebra.BigOperators.Fin
import Mathlib.Algebra.Field.Basic
/-!
Closed formula for the diagonal (local) energy of a Fock state of `n` sites.
-/
namespace Edpyt.Spec

variable {K : Type} [Field K]

/-- Occupation (0 or 1) of site `i` in the bit pattern `s`. -/
def bitNum (K : Type) [Field K] (s i : ℕ) : K := if s.testBit i then 1 else 0

/-- `Σ_i (e↑_i+μ) n↑_i + (e↓_i+μ) n↓_i + Σ_i V_ii n↑_i n↓_i + ½ Σ_{i≠j} (n_i - z_i) V_ij (n_j - z_j)`,
with `(n↑_i-½)(n↓_i-½)` in place of `n↑_i n↓_i` in half-filling mode. -/
def localEnergy (n : ℕ) (eup edw : ℕ → K) (V : ℕ → ℕ → K) (z : ℕ → K) (hfmode : Bool) (mu : K)
    (sup sdw : ℕ) : K :=
  (∑ i : Fin n, ((eup i + mu) * bitNum K sup i + (edw i + mu) * bitNum K sdw i)) +
  (∑ i : Fin n, if hfmode then V i i * (bitNum K sup i - 1 / 2) * (bitNum K sdw i - 1 / 2)
    else V i i * bitNum K sup i * bitNum K sdw i) +
  1 / 2 * ∑ i : Fin n, ∑ j : Fin n, if i ≠ j then
    (bitNum K sup i + bitNum K sdw i - z i) * V i j * (bitNum K sup j + bitNum K sdw j - z j) else 0

end Edpyt.Spec
