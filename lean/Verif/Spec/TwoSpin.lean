import Verif.Spec.Hopping
/-!
Specification with both spin species: `n` sites, `n + n` modes in one global order, first the up
modes `0..n-1`, then the down modes `n..2n-1`.
-/
namespace Edpyt.Spec

/-- Mode of site `i` with spin up (`false`) or down (`true`). -/
def orb {n : ℕ} (s : Bool) (i : Fin n) : Fin (n + n) := if s then Fin.natAdd n i else Fin.castAdd n i

/-- Occupied modes of the product state `|sup⟩|sdw⟩`. -/
def occ2 (n sup sdw : ℕ) : Finset (Fin (n + n)) := occF (n + n) (sup + 2 ^ n * sdw)

section
variable {K : Type} [Field K] {n : ℕ}

/-- `½ Σ_ij Σ_ss' J_ij c†_is c†_js' c_is' c_js` (direct spin exchange). -/
def spinExchange (J : Fin n → Fin n → K) : Matrix (Finset (Fin (n + n))) (Finset (Fin (n + n))) K :=
  (1 / 2 : K) • ∑ i, ∑ j, J i j • ∑ s : Bool, ∑ s' : Bool,
    (cre K (orb s i) * cre K (orb s' j) * ann K (orb s' i) * ann K (orb s j))

/-- The part of `spinExchange` with `s = s'`. -/
def exchangeSame (J : Fin n → Fin n → K) : Matrix (Finset (Fin (n + n))) (Finset (Fin (n + n))) K :=
  (1 / 2 : K) • ∑ i, ∑ j, J i j • ∑ s : Bool,
    (cre K (orb s i) * cre K (orb s j) * ann K (orb s i) * ann K (orb s j))

/-- The part of `spinExchange` with `s ≠ s'`. -/
def exchangeFlip (J : Fin n → Fin n → K) : Matrix (Finset (Fin (n + n))) (Finset (Fin (n + n))) K :=
  (1 / 2 : K) • ∑ i, ∑ j, J i j • ∑ s : Bool,
    (cre K (orb s i) * cre K (orb (!s) j) * ann K (orb (!s) i) * ann K (orb s j))

/-- `½ Σ_ij Σ_s J_ij c†_is c†_i-s c_j-s c_js` (pair hopping). -/
def pairHopping (J : Fin n → Fin n → K) : Matrix (Finset (Fin (n + n))) (Finset (Fin (n + n))) K :=
  (1 / 2 : K) • ∑ i, ∑ j, J i j • ∑ s : Bool,
    (cre K (orb s i) * cre K (orb (!s) i) * ann K (orb (!s) j) * ann K (orb s j))

end
end Edpyt.Spec
