import Verif.Proof.RotateHam
import Verif.Spec.Signs
/-!
Changes of sign of orbitals act on the Fock space.
-/
namespace Edpyt
open Edpyt.Spec Matrix
variable {n : ℕ}

theorem reflect_single (i : Fin n) : (Matrix.of fun k l => (if k = l then 1 else 0) - 2 * ((Pi.single i 1 : Fin n → ℝ) k * (Pi.single i 1 : Fin n → ℝ) l)) = Matrix.diagonal fun k => if k = i then (-1 : ℝ) else 1 := by
  ext k l
  rw [Matrix.of_apply, Matrix.diagonal_apply]
  by_cases h : k = l
  · subst h
    rw [if_pos rfl, if_pos rfl, Pi.single_apply]
    by_cases hk : k = i
    · rw [if_pos hk, if_pos hk]; norm_num
    · rw [if_neg hk, if_neg hk]; norm_num
  · rw [if_neg h, if_neg h, Pi.single_apply, Pi.single_apply]
    by_cases hk : k = i
    · rw [if_neg (show ¬ l = i from fun e => h (hk.trans e.symm))]; simp
    · rw [if_neg hk]; simp

/-- The signs of a set of orbitals of one spin. -/
theorem implements_flip (s : Bool) (F : Finset (Fin n)) : ∃ P, Implements P fun s' => if s' = s then Matrix.diagonal fun k => if k ∈ F then (-1 : ℝ) else 1 else 1 := by
  induction F using Finset.induction_on with
  | empty =>
    refine ⟨1, ?_⟩
    simp only [Finset.notMem_empty, if_false, Matrix.diagonal_one, ite_self]
    exact Implements.one
  | insert i F hi ih =>
    obtain ⟨P, hP⟩ := ih
    have hr := Implements.reflect s (u := (Pi.single i 1 : Fin n → ℝ)) (by simp)
    refine ⟨P * (1 - (2 : ℝ) • ((orbAnn s (Pi.single i 1 : Fin n → ℝ))ᵀ * orbAnn s (Pi.single i 1 : Fin n → ℝ))), ?_⟩
    have := hP.mul hr
    rw [reflect_single] at this
    convert this using 2 with s'
    by_cases h : s' = s
    · rw [if_pos h, if_pos h, if_pos h, Matrix.diagonal_mul_diagonal]
      congr 1
      funext k
      by_cases hk : k = i
      · subst hk; simp [hi]
      · simp [hk]
    · rw [if_neg h, if_neg h, if_neg h, Matrix.one_mul]

theorem implements_signs {ε : Bool → Fin n → ℝ} (hε : ∀ s i, ε s i = 1 ∨ ε s i = -1) : ∃ P, Implements P fun s => Matrix.diagonal (ε s) := by
  classical
  obtain ⟨P0, h0⟩ := implements_flip false (Finset.univ.filter fun k => ε false k = -1)
  obtain ⟨P1, h1⟩ := implements_flip true (Finset.univ.filter fun k => ε true k = -1)
  have key : ∀ s, (fun k => if k ∈ (Finset.univ.filter fun k => ε s k = -1) then (-1 : ℝ) else 1) = ε s := fun s => by
    funext k
    rcases hε s k with h | h <;> simp [h]
    norm_num
  refine ⟨P0 * P1, ?_⟩
  have := h0.mul h1
  rw [key, key] at this
  convert this using 2 with s
  cases s <;> simp

section
variable {P : FockMat n} {ε : Bool → Fin n → ℝ}

theorem orbAnn_diagonal (s : Bool) (d : Fin n → ℝ) (j : Fin n) : orbAnn s (Matrix.diagonal d j) = d j • ann ℝ (orb s j) := by
  unfold orbAnn
  rw [Finset.sum_eq_single j]
  · rw [Matrix.diagonal_apply_eq]
  · intro i _ hi; rw [Matrix.diagonal_apply_ne _ hi.symm, zero_smul]
  · intro h; exact absurd (Finset.mem_univ _) h

theorem Implements.sign_ann (h : Implements P fun s => Matrix.diagonal (ε s)) (s : Bool) (j : Fin n) : P * Spec.ann ℝ (orb s j) * Pᵀ = ε s j • Spec.ann ℝ (orb s j) := by
  rw [h.conj_ann, orbAnn_diagonal]

theorem Implements.sign_cre (h : Implements P fun s => Matrix.diagonal (ε s)) (s : Bool) (j : Fin n) : P * cre ℝ (orb s j) * Pᵀ = ε s j • cre ℝ (orb s j) := by
  rw [h.conj_cre, orbAnn_diagonal, Matrix.transpose_smul]; rfl

theorem Implements.sign_num (h : Implements P fun s => Matrix.diagonal (ε s)) (hε : ∀ s i, ε s i = 1 ∨ ε s i = -1) (s : Bool) (j : Fin n) : P * num ℝ (orb s j) * Pᵀ = num ℝ (orb s j) := by
  rw [show num ℝ (orb s j) = cre ℝ (orb s j) * Spec.ann ℝ (orb s j) from rfl, h.conj_mul, h.sign_ann, h.sign_cre, smul_mul_assoc, mul_smul_comm, smul_smul]
  rcases hε s j with e | e <;> rw [e] <;> norm_num

theorem conj_sum {ι : Type} (t : Finset ι) (X : ι → FockMat n) : P * (∑ i ∈ t, X i) * Pᵀ = ∑ i ∈ t, P * X i * Pᵀ := by rw [Finset.mul_sum, Finset.sum_mul]

theorem conj_smul' (c : ℝ) (X : FockMat n) : P * (c • X) * Pᵀ = c • (P * X * Pᵀ) := by rw [Matrix.mul_smul, Matrix.smul_mul]

theorem Implements.sign_quad (h : Implements P fun s => Matrix.diagonal (ε s)) (s1 s2 s3 s4 : Bool) (i j k l : Fin n) :
    P * (cre ℝ (orb s1 i) * cre ℝ (orb s2 j) * Spec.ann ℝ (orb s3 k) * Spec.ann ℝ (orb s4 l)) * Pᵀ =
      (ε s1 i * ε s2 j * ε s3 k * ε s4 l) • (cre ℝ (orb s1 i) * cre ℝ (orb s2 j) * Spec.ann ℝ (orb s3 k) * Spec.ann ℝ (orb s4 l)) := by
  rw [h.conj_mul, h.conj_mul, h.conj_mul, h.sign_ann, h.sign_ann, h.sign_cre, h.sign_cre]
  simp only [smul_mul_assoc, mul_smul_comm, smul_smul]
  congr 1; ring

theorem Implements.sign_ham (h : Implements P fun s => Matrix.diagonal (ε s)) (hε : ∀ s i, ε s i = 1 ∨ ε s i = -1) (hf : Bool) (t : Bool → Fin n → Fin n → ℝ) (z : Fin n → ℝ) (V Jx Jp : Fin n → Fin n → ℝ)
    (hx : (∀ i, ε false i = ε true i) ∨ ((∀ i j, Jx i j = 0) ∧ ∀ i j, Jp i j = 0)) :
    P * genHam hf t z V Jx Jp * Pᵀ = genHam hf (fun s i j => ε s i * ε s j * t s i j) z V Jx Jp := by
  have hsq : ∀ s i, ε s i * ε s i = 1 := fun s i => by rcases hε s i with e | e <;> rw [e] <;> norm_num
  have h1 : P * kinetic t * Pᵀ = kinetic fun s i j => ε s i * ε s j * t s i j := by
    unfold kinetic
    simp only [conj_sum, conj_smul']
    refine Finset.sum_congr rfl fun s _ => Finset.sum_congr rfl fun i _ => Finset.sum_congr rfl fun j _ => ?_
    rw [h.conj_mul, h.sign_ann, h.sign_cre, smul_mul_assoc, mul_smul_comm, smul_smul, smul_smul]
    congr 1; ring
  have hone : ∀ c : ℝ, P * (c • (1 : FockMat n)) * Pᵀ = c • 1 := fun c => by rw [conj_smul', Matrix.mul_one, h.orth']
  have h2 : P * onsiteU hf V * Pᵀ = onsiteU hf V := by
    unfold onsiteU
    simp only [conj_sum, conj_smul', h.conj_mul, Matrix.mul_sub, Matrix.sub_mul, h.sign_num hε, hone]
  have h3 : P * interSite z V * Pᵀ = interSite z V := by
    unfold interSite
    simp only [conj_sum, conj_smul', h.conj_mul, Matrix.mul_sub, Matrix.sub_mul, Matrix.mul_add, Matrix.add_mul, h.sign_num hε, hone]
  have h4 : P * exchangeSame Jx * Pᵀ = exchangeSame Jx := by
    unfold exchangeSame
    simp only [conj_sum, conj_smul', h.sign_quad]
    refine congrArg _ (Finset.sum_congr rfl fun i _ => Finset.sum_congr rfl fun j _ => congrArg _ (Finset.sum_congr rfl fun s _ => ?_))
    rw [show ε s i * ε s j * ε s i * ε s j = (ε s i * ε s i) * (ε s j * ε s j) by ring, hsq, hsq, one_mul, one_smul]
  have hs : (∀ i, ε false i = ε true i) → ∀ s i, ε (!s) i = ε s i := fun e s i => by cases s <;> simp [e]
  have h5 : P * exchangeFlip Jx * Pᵀ = exchangeFlip Jx := by
    unfold exchangeFlip
    simp only [conj_sum, conj_smul', h.sign_quad]
    refine congrArg _ (Finset.sum_congr rfl fun i _ => Finset.sum_congr rfl fun j _ => ?_)
    rcases hx with hx | ⟨hx, -⟩
    · refine congrArg _ (Finset.sum_congr rfl fun s _ => ?_)
      rw [hs hx, hs hx, show ε s i * ε s j * ε s i * ε s j = (ε s i * ε s i) * (ε s j * ε s j) by ring, hsq, hsq, one_mul, one_smul]
    · rw [hx, zero_smul, zero_smul]
  have h6 : P * pairHopping Jp * Pᵀ = pairHopping Jp := by
    unfold pairHopping
    simp only [conj_sum, conj_smul', h.sign_quad]
    refine congrArg _ (Finset.sum_congr rfl fun i _ => Finset.sum_congr rfl fun j _ => ?_)
    rcases hx with hx | ⟨-, hx⟩
    · refine congrArg _ (Finset.sum_congr rfl fun s _ => ?_)
      rw [hs hx, hs hx, show ε s i * ε s i * ε s j * ε s j = (ε s i * ε s i) * (ε s j * ε s j) by ring, hsq, hsq, one_mul, one_smul]
    · rw [hx, zero_smul, zero_smul]
  unfold genHam hubbard
  simp only [Matrix.mul_add, Matrix.add_mul, Matrix.mul_sub, Matrix.sub_mul, h1, h2, h3, h4, h5, h6]

end

section
variable {a : HamArgs} {ε : Bool → ℕ → ℝ}

/-- The Hamiltonian of the input with other signs, on the Fock space of the original. -/
noncomputable def signedHam (a : HamArgs) (ε : Bool → ℕ → ℝ) : FockMat a.n := (signed a ε).ham

theorem Spec.IsSigns.valid (ha : a.Valid) (h : IsSigns a ε) : (signed a ε).Valid :=
  ⟨ha.two_le, ha.le, ha.hU, fun s i j hi hj => by simp only [signed]; rw [ha.symmH s i j hi hj]; ring, ha.symmX, ha.symmP, ha.hJ⟩

theorem Spec.IsSigns.ham (h : IsSigns a ε) : ∃ P, Implements P (fun s => Matrix.diagonal fun i : Fin a.n => ε s i) ∧ P * a.ham = signedHam a ε * P := by
  have hε : ∀ s (i : Fin a.n), ε s i = 1 ∨ ε s i = -1 := fun s i => h.sign s i i.2
  obtain ⟨P, hP⟩ := implements_signs hε
  have hx : (∀ i : Fin a.n, ε false i = ε true i) ∨ ((∀ i j, offdiag (n := a.n) (optMat a.V.Jx) i j = 0) ∧ ∀ i j, offdiag (n := a.n) (optMat a.V.Jp) i j = 0) := by
    rcases h.spin with e | ⟨e1, e2⟩
    · exact .inl fun i => e i i.2
    · refine .inr ⟨fun i j => ?_, fun i j => ?_⟩
      · rw [e1]; simp [offdiag, optMat]
      · rw [e2]; simp [offdiag, optMat]
  have hH := hP.sign_ham hε a.hf (fun s => kept (n := a.n) a.mu (a.H (if s then 1 else 0))) (fun i => (a.z.getD fun _ => if a.hf then 1 else 0) i) (fun i j => a.V.U.getD 0 i j) _ _ hx
  refine ⟨P, hP, ?_⟩
  have hk : (fun s (i j : Fin a.n) => ε s i * ε s j * kept (n := a.n) a.mu (a.H (if s then 1 else 0)) i j) = fun s => kept (n := a.n) a.mu ((signed a ε).H (if s then 1 else 0)) := by
    funext s i j
    have hs : (((if s then 1 else 0 : ℕ) == 1) : Bool) = s := by cases s <;> rfl
    rw [kept_apply, kept_apply]
    simp only [signed, hs]
    by_cases hij : i = j
    · subst hij
      rw [if_pos rfl, if_pos rfl]
      rcases hε s i with e | e <;> rw [e] <;> ring
    · rw [if_neg hij, if_neg hij]
      have habs : |ε s i * ε s j * a.H (if s then 1 else 0) i j| = |a.H (if s then 1 else 0) i j| := by
        rw [abs_mul, abs_mul]
        rcases hε s i with e | e <;> rcases hε s j with e' | e' <;> rw [e, e'] <;> norm_num
      rw [habs]
      by_cases hc : |a.H (if s then 1 else 0) i j| > 1 / 10 ^ 7
      · rw [if_pos hc, if_pos hc]
      · rw [if_neg hc, if_neg hc, mul_zero]
  rw [hk] at hH
  have e1 : a.ham = genHam a.hf (fun s => kept (n := a.n) a.mu (a.H (if s then 1 else 0))) (fun i => (a.z.getD fun _ => if a.hf then 1 else 0) i) (fun i j => a.V.U.getD 0 i j)
      (offdiag (n := a.n) (optMat a.V.Jx)) (offdiag (n := a.n) (optMat a.V.Jp)) := rfl
  have e2 : signedHam a ε = genHam a.hf (fun s => kept (n := a.n) a.mu ((signed a ε).H (if s then 1 else 0))) (fun i => (a.z.getD fun _ => if a.hf then 1 else 0) i) (fun i j => a.V.U.getD 0 i j)
      (offdiag (n := a.n) (optMat a.V.Jx)) (offdiag (n := a.n) (optMat a.V.Jp)) := rfl
  rw [e2, ← hH, ← e1, Matrix.mul_assoc, Matrix.mul_assoc, hP.orth, Matrix.mul_one]

end
end Edpyt
