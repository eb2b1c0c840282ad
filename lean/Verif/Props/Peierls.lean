import Verif.Props.KyFan
import Verif.Props.Response
import Verif.Proof.Slater
/-!
C215: the diagonal elements of the Hamiltonian bound the free energy, so hopping never raises it.
-/
namespace Edpyt
open Spec Matrix

/-! ## Specification -/

/-- The input with all hopping removed. -/
def Spec.unhop (a : HamArgs) : HamArgs := { a with H := fun s i j => if i = j then a.H s i i else 0 }

variable {a : HamArgs} {w w' : ℕ} {beta : ℝ} {es es' : Espace (ℕ × ℕ)} {egs egs' : WithTop ℝ}

/-! ## Helpers -/

theorem peierls {ι κ : Type} [Fintype ι] [DecidableEq ι] [Fintype κ] [DecidableEq κ] {H : Matrix ι ι ℝ} {u : κ → ι → ℝ} {E : κ → ℝ} (h : EigBasis H u E) {m : ℕ} {v : Fin m → ι → ℝ}
    (hv : ∀ i j, v i ⬝ᵥ v j = if i = j then 1 else 0) (beta : ℝ) : ∑ i, Real.exp (-beta * (v i ⬝ᵥ H *ᵥ v i)) ≤ ∑ y, Real.exp (-beta * E y) := by
  have h1 : ∀ i, Real.exp (-beta * (v i ⬝ᵥ H *ᵥ v i)) ≤ ∑ y, (u y ⬝ᵥ v i) ^ 2 * Real.exp (-beta * E y) := fun i => by
    have := convexOn_exp.map_sum_le (t := Finset.univ) (w := fun y => (u y ⬝ᵥ v i) ^ 2) (p := fun y => -beta * E y) (fun y _ => sq_nonneg _)
      (by rw [← (h.quad _).2, hv, if_pos rfl]) (fun _ _ => Set.mem_univ _)
    simp only [smul_eq_mul] at this
    rw [(h.quad _).1, Finset.mul_sum]
    refine le_trans (le_of_eq ?_) this
    congr 1
    exact Finset.sum_congr rfl fun y _ => by ring
  refine (Finset.sum_le_sum fun i _ => h1 i).trans ?_
  rw [Finset.sum_comm]
  refine Finset.sum_le_sum fun y _ => ?_
  rw [← Finset.sum_mul]
  exact mul_le_of_le_one_left (Real.exp_pos _).le (bessel_frame hv (by rw [h.orth, if_pos rfl]))

theorem hop_no_diag {M : Type} [Fintype M] [LinearOrder M] {i j : M} (hij : i ≠ j) (S : Finset M) : (cre ℝ i * ann ℝ j) S S = 0 := by
  rw [Matrix.mul_apply]
  refine Finset.sum_eq_zero fun T _ => ?_
  unfold cre ann
  rw [Matrix.transpose_apply, Matrix.of_apply, Matrix.of_apply]
  split_ifs with h1 h2
  · exfalso
    have : i ∈ T := by rw [h2.2]; exact Finset.mem_erase.mpr ⟨hij, h1.1⟩
    rw [h1.2] at this
    exact Finset.notMem_erase i S this
  · simp
  · simp
  · simp

theorem kinetic_entry {n : ℕ} (t : Bool → Fin n → Fin n → ℝ) (S : Finset (Fin (n + n))) : kinetic t S S = kinetic (fun s i j => if i = j then t s i i else 0) S S := by
  unfold kinetic
  simp only [Matrix.sum_apply, Matrix.smul_apply]
  refine Finset.sum_congr rfl fun s _ => Finset.sum_congr rfl fun i _ => Finset.sum_congr rfl fun j _ => ?_
  by_cases hij : i = j
  · subst hij; rw [if_pos rfl]
  · rw [if_neg hij, hop_no_diag fun e => hij (orb_inj.mp e).2, smul_zero, smul_zero]

theorem unhop_valid (ha : a.Valid) : (unhop a).Valid :=
  ⟨ha.two_le, ha.le, ha.hU, fun s i j _ _ => by
    by_cases hij : i = j
    · subst hij; rfl
    · simp only [unhop, if_neg hij, if_neg (Ne.symm hij)], ha.symmX, ha.symmP, ha.hJ⟩

/-- The Hamiltonian without the hopping. -/
noncomputable def HamArgs.hamUnhop (a : HamArgs) : Matrix (Finset (Fin (a.n + a.n))) (Finset (Fin (a.n + a.n))) ℝ := (unhop a).ham

theorem unhop_exchange {n : ℕ} : codeExchange (n := n) (K := ℝ) none none = 0 := by
  unfold codeExchange exchangeSame exchangeFlip pairHopping
  have : ∀ i j : Fin n, offdiag (n := n) (optMat (K := ℝ) none) i j = 0 := fun i j => by simp [offdiag, optMat]
  simp [this]

theorem unhop_ham (hx : a.V.Jx = none) (hp : a.V.Jp = none) : a.hamUnhop = Matrix.diagonal fun S => a.ham S S := by
  have e0 : ∀ s : Bool, kept (n := a.n) a.mu ((unhop a).H (if s then 1 else 0)) = fun i j => if i = j then kept (n := a.n) a.mu (a.H (if s then 1 else 0)) i i else 0 := fun s => by
    funext i j
    by_cases hij : i = j
    · subst hij; simp [kept, offdiag, unhop]
    · have : (i : ℕ) ≠ j := fun e => hij (Fin.ext e)
      simp [kept, offdiag, unhop, hij, this]
  have e1 : a.hamUnhop = kinetic (fun s i j => if i = j then kept (n := a.n) a.mu (a.H (if s then 1 else 0)) i i else 0) +
      Matrix.diagonal (interE a fun i j => a.V.U.getD 0 i j) := by
    unfold HamArgs.hamUnhop HamArgs.ham hubbard
    have e3 : (unhop a).V.Jx = none := hx
    have e4 : (unhop a).V.Jp = none := hp
    rw [onsiteU_diagonal, interSite_diagonal, e3, e4, unhop_exchange, add_zero, add_assoc, Matrix.diagonal_add]
    have e5 : (fun s : Bool => kept (n := a.n) a.mu ((unhop a).H (if s then 1 else 0))) = fun s i j => if i = j then kept (n := a.n) a.mu (a.H (if s then 1 else 0)) i i else 0 := funext e0
    exact congrArg (fun k : Bool → Fin a.n → Fin a.n → ℝ => kinetic (n := a.n) k + Matrix.diagonal (interE a fun i j => a.V.U.getD 0 i j)) e5
  have e2 : a.ham = kinetic (fun s => kept (n := a.n) a.mu (a.H (if s then 1 else 0))) + Matrix.diagonal (interE a fun i j => a.V.U.getD 0 i j) := by
    unfold HamArgs.ham hubbard
    rw [onsiteU_diagonal, interSite_diagonal, hx, hp, unhop_exchange, add_zero, add_assoc, Matrix.diagonal_add]
    rfl
  ext S T
  by_cases hST : S = T
  · subst hST
    rw [e1, e2, Matrix.diagonal_apply_eq, Matrix.add_apply, Matrix.add_apply, kinetic_entry fun s => kept (n := a.n) a.mu (a.H (if s then 1 else 0))]
  · rw [Matrix.diagonal_apply_ne _ hST, e1, Matrix.add_apply, Matrix.diagonal_apply_ne _ hST, add_zero, kinetic_diag fun s i => kept (n := a.n) a.mu (a.H (if s then 1 else 0)) i i]
    simp only [num_diagonal, Matrix.sum_apply, Matrix.smul_apply, Matrix.diagonal_apply_ne _ hST, smul_zero, Finset.sum_const_zero]

/-! ## C215 -/

/-- **C215** Any orthonormal vectors of the Fock space, with their mean energies in place of eigenvalues, give an upper bound of the free energy (Peierls). -/
theorem C215_peierls (ha : a.Valid) (hw : a.n ≤ w) (hb : 0 < beta) (h : BuildEspace w a none (.ok (es, egs))) {m : ℕ} (hm : 0 < m) {v : Fin m → Finset (Fin (a.n + a.n)) → ℝ}
    (hv : ∀ i j, v i ⬝ᵥ v j = if i = j then 1 else 0) : freeEnergy beta es ≤ -Real.log (∑ i, Real.exp (-beta * (v i ⬝ᵥ a.ham *ᵥ v i))) / beta := by
  have hes := buildEspace_eigen ha hw h
  have : Nonempty (Fin m) := ⟨⟨0, hm⟩⟩
  rw [freeEnergy_eq hes.toCompleteEspace]
  refine div_le_div_of_nonneg_right (neg_le_neg (Real.log_le_log (Finset.sum_pos (fun _ _ => Real.exp_pos _) Finset.univ_nonempty) (peierls hes.basis hv beta))) hb.le

/-- **C215** Without exchange terms, hopping never raises the free energy. -/
theorem C215_hopping (ha : a.Valid) (hw : a.n ≤ w) (hw' : a.n ≤ w') (hb : 0 < beta) (hx : a.V.Jx = none) (hp : a.V.Jp = none) (h : BuildEspace w a none (.ok (es, egs)))
    (h' : BuildEspace w' (unhop a) none (.ok (es', egs'))) : freeEnergy beta es ≤ freeEnergy beta es' := by
  have hes' : EigenEspace a.n a.hamUnhop es' := buildEspace_eigen (unhop_valid ha) hw' h'
  rw [unhop_ham hx hp] at hes'
  have hc : 0 < Fintype.card (Finset (Fin (a.n + a.n))) := Fintype.card_pos
  let e := Fintype.equivFin (Finset (Fin (a.n + a.n)))
  have key := C215_peierls ha hw hb h hc (v := fun i => Pi.single (e.symm i) 1) (fun i j => by
    beta_reduce
    rw [single_dotProduct, one_mul, Pi.single_apply]
    exact if_congr e.symm.injective.eq_iff rfl rfl)
  refine key.trans (le_of_eq ?_)
  rw [freeEnergy_eq hes'.toCompleteEspace]
  congr 3
  have hd : EigBasis (Matrix.diagonal fun S => a.ham S S) (fun S : Finset (Fin (a.n + a.n)) => Pi.single S 1) (fun S => a.ham S S) := by
    refine ⟨rfl, fun S T => ?_, fun S => ?_⟩
    · rw [single_dotProduct, one_mul, Pi.single_apply]
    · funext T
      rw [Matrix.mulVec_diagonal, Pi.smul_apply, smul_eq_mul]
      by_cases hT : T = S
      · subst hT; rfl
      · rw [Pi.single_eq_of_ne hT, mul_zero, mul_zero]
  have hsum := EigBasis.sum_eq (by rw [Matrix.diagonal_transpose]) hd hes'.basis (fun _ => ()) (fun _ => ()) (fun _ _ hne => absurd rfl hne) (fun _ E => Real.exp (-beta * E))
  rw [← hsum, ← Equiv.sum_comp e.symm]
  refine Finset.sum_congr rfl fun i _ => ?_
  rw [single_dotProduct, one_mul, Matrix.mulVec_single_one, Matrix.col_apply]

/-- Two sites with hopping 1 and an interaction. -/
noncomputable def dimerHopArgs : HamArgs := { weakArgs with H := fun _ i j => if i = j then 0 else 1 }

theorem dimerHopArgs_valid : dimerHopArgs.Valid :=
  ⟨weakArgs_valid.two_le, weakArgs_valid.le, rfl, fun s i j _ _ => if_congr eq_comm rfl rfl, weakArgs_valid.symmX, weakArgs_valid.symmP, weakArgs_valid.hJ⟩

example : dimerHopArgs.Valid ∧ dimerHopArgs.V.Jx = none ∧ dimerHopArgs.V.Jp = none ∧ offdiag (n := 2) (dimerHopArgs.H 0) 0 1 = 1 ∧ offdiag (n := 2) ((unhop dimerHopArgs).H 0) 0 1 = 0 ∧
    (∃ es egs, BuildEspace 64 dimerHopArgs none (.ok (es, egs))) ∧ ∃ es egs, BuildEspace 64 (unhop dimerHopArgs) none (.ok (es, egs)) := by
  have hn : dimerHopArgs.n = 2 := rfl
  have hn' : (unhop dimerHopArgs).n = 2 := rfl
  obtain ⟨⟨⟨es, egs⟩, h⟩, -⟩ := buildEspace_none_ok dimerHopArgs_valid (w := 64) (by omega)
  obtain ⟨⟨⟨es', egs'⟩, h'⟩, -⟩ := buildEspace_none_ok (unhop_valid dimerHopArgs_valid) (w := 64) (by omega)
  refine ⟨dimerHopArgs_valid, rfl, rfl, ?_, ?_, ⟨es, egs, h⟩, es', egs', h'⟩
  · norm_num [offdiag, dimerHopArgs]
  · norm_num [offdiag, unhop]

end Edpyt
