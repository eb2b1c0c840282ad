import Verif.Model.Espace
import Verif.Model.Observs
import Verif.Spec.Sector
import Verif.Spec.Ket
/-!
Specification of the dictionary of solved sectors that `build_espace` returns and the other functions take.
-/
namespace Edpyt
open Spec Matrix

/-- A well-formed spin sector: the states are those of the two spin sectors, and there are as many vectors as values. -/
structure SctOk (n nup ndw : ℕ) (s : Sct) (up dw : List ℕ) : Prop where
  states : s.states = .spin up dw
  hup : SectorList n nup up
  hdw : SectorList n ndw dw
  d : s.d = up.length * dw.length
  len : s.eigvecs.length = s.eigvals.length

/-- Complete orthonormal set of coefficient arrays. -/
structure Complete (d : ℕ) (v : List (ℕ → ℝ)) : Prop where
  len : v.length = d
  orth : ∀ i j, i < d → j < d → ∑ r ∈ Finset.range d, (v[i]?.getD 0) r * (v[j]?.getD 0) r = if i = j then 1 else 0

/-- A complete espace: every pair `(nup, ndw)` is a key exactly once, every sector holds a complete orthonormal set of
eigenvectors and as many eigenvalues. -/
structure CompleteEspace (n : ℕ) (es : Espace (ℕ × ℕ)) : Prop where
  keys : (es.map Prod.fst).Perm (ndindex2 (n + 1) (n + 1))
  ok : ∀ p ∈ es, ∃ up dw, SctOk n p.1.1 p.1.2 p.2 up dw ∧ Complete p.2.d p.2.eigvecs

/-- Up states of a sector. -/
def SectorStates.ups : SectorStates → List ℕ
  | .spin up _ => up
  | .total _ => []

/-- Down states of a sector. -/
def SectorStates.dws : SectorStates → List ℕ
  | .spin _ dw => dw
  | .total _ => []

/-- The `k`-th eigenvector of a sector as a vector of the Fock space. -/
def Sct.ket (n : ℕ) (s : Sct) (k : ℕ) : Finset (Fin (n + n)) → ℝ := Spec.ket n s.states.ups s.states.dws (s.eigvecs[k]?.getD 0)

/-- A complete espace whose vectors are eigenvectors of `H`. -/
structure EigenEspace (n : ℕ) (H : Matrix (Finset (Fin (n + n))) (Finset (Fin (n + n))) ℝ) (es : Espace (ℕ × ℕ)) : Prop extends CompleteEspace n es where
  eig : ∀ p ∈ es, ∀ k, k < p.2.eigvals.length → H *ᵥ p.2.ket n k = (p.2.eigvals[k]?.getD 0) • p.2.ket n k

/-- The sector as `get_occupation` sees it: the same eigenvalues and bit patterns, and an array with the eigenvectors in its columns, in either memory
order. -/
structure OccView (p : (ℕ × ℕ) × Sct) (s : OccSct) : Prop where
  vals : s.eigvals = p.2.eigvals
  up : s.up = p.2.states.ups
  dw : s.dw = p.2.states.dws
  shape : s.eigvecs.shape = [p.2.d, p.2.eigvals.length]
  lay : s.eigvecs.lay ≠ .strided
  elem : ∀ r < p.2.d, ∀ k < p.2.eigvals.length, s.eigvecs.elem p.2.d p.2.eigvals.length r k = (p.2.eigvecs[k]?.getD 0) r

end Edpyt
