import Verif.Spec.Espace
/-!
Specification: the Hamiltonian of `n` sites without chemical potential and without the shift to half filling, with the same one-body part for both spins.
-/
namespace Edpyt.Spec

/-- `∑ H[i,j] c†c` for either spin (hoppings below `1e-7` are dropped, see `kept`), plus the interaction. -/
noncomputable def plainHam (n : ℕ) (H : ℕ → ℕ → ℝ) (V : VArg ℝ) : Matrix (Finset (Fin (n + n))) (Finset (Fin (n + n))) ℝ :=
  hubbard false (fun _ => kept (n := n) 0 H) (fun _ => 0) (fun i j => V.U.getD 0 i j) + codeExchange V.Jx V.Jp

/-- An interaction between the first `m` sites only. -/
def amongFirst (m : ℕ) (V : VArg ℝ) : VArg ℝ :=
  ⟨V.U.map fun A i j => if i < m ∧ j < m then A i j else 0, V.Jx.map fun A i j => if i < m ∧ j < m then A i j else 0, V.Jp.map fun A i j => if i < m ∧ j < m then A i j else 0⟩

/-- No interaction. -/
def noV : VArg ℝ := ⟨some fun _ _ => 0, none, none⟩

end Edpyt.Spec
