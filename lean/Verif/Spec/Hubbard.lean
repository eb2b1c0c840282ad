import Verif.Spec.TwoSpin
/-!
The extended Hubbard Hamiltonian on `n` sites, as an operator on the Fock space of `n + n` modes with
one global order.
-/
namespace Edpyt.Spec
variable {K : Type} [Field K] {n : ℕ}

/-- `Σ_s Σ_ij t^s_ij c†_is c_js`. -/
def kinetic (t : Bool → Fin n → Fin n → K) : Matrix (Finset (Fin (n + n))) (Finset (Fin (n + n))) K :=
  ∑ s : Bool, ∑ i, ∑ j, t s i j • (cre K (orb s i) * ann K (orb s j))

/-- `Σ_i V_ii n_i↑ n_i↓`, with `n - ½` in place of `n` in half-filling mode. -/
def onsiteU (hf : Bool) (V : Fin n → Fin n → K) : Matrix (Finset (Fin (n + n))) (Finset (Fin (n + n))) K :=
  ∑ i, V i i • ((num K (orb false i) - (if hf then 1 / 2 else 0 : K) • 1) *
    (num K (orb true i) - (if hf then 1 / 2 else 0 : K) • 1))

/-- `½ Σ_{i≠j} V_ij (n_i - z_i) (n_j - z_j)`, `n_i = n_i↑ + n_i↓`. -/
def interSite (z : Fin n → K) (V : Fin n → Fin n → K) : Matrix (Finset (Fin (n + n))) (Finset (Fin (n + n))) K :=
  (1 / 2 : K) • ∑ i, ∑ j, (if i ≠ j then V i j else 0) •
    ((num K (orb false i) + num K (orb true i) - z i • 1) * (num K (orb false j) + num K (orb true j) - z j • 1))

/-- The extended Hubbard Hamiltonian with one-body matrix `t` (per spin), interaction `V`, reference
occupations `z`. -/
def hubbard (hf : Bool) (t : Bool → Fin n → Fin n → K) (z : Fin n → K) (V : Fin n → Fin n → K) :
    Matrix (Finset (Fin (n + n))) (Finset (Fin (n + n))) K :=
  kinetic t + onsiteU hf V + interSite z V

end Edpyt.Spec
