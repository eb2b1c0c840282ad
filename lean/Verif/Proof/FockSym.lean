import Verif.Proof.Eom
/-!
Permutations of the modes act on Fock space by orthogonal matrices; operators and thermal quantities of an invariant Hamiltonian are invariant.
-/
namespace Edpyt
open Matrix Spec

section perm
variable {M : Type} [Fintype M] [LinearOrder M]

/-- `-1` if `l, m` are in order and their images are not. -/
def invSign (π : Equiv.Perm M) (l m : M) : ℤ := if l < m ∧ π m < π l then -1 else 1

/-- Sign of the reordering of the modes of `S`. -/
def permSign (π : Equiv.Perm M) (S : Finset M) : ℤ := ∏ l ∈ S, ∏ m ∈ S, invSign π l m

theorem sgn_prod (k : M) (S : Finset M) : sgn k S = ∏ l ∈ S, if k < l then (-1 : ℤ) else 1 := by
  unfold sgn
  rw [Finset.prod_ite, Finset.prod_const, Finset.prod_const_one, mul_one]

theorem permSign_erase (π : Equiv.Perm M) {k : M} {S : Finset M} (hk : k ∈ S) :
    permSign π (S.erase k) * sgn k S = sgn (π k) (S.map π.toEmbedding) * permSign π S := by
  have h1 : permSign π S = (∏ m ∈ S, invSign π k m) * ((∏ l ∈ S.erase k, invSign π l k) * permSign π (S.erase k)) := by
    unfold permSign
    rw [← Finset.mul_prod_erase S _ hk]
    congr 1
    rw [← Finset.prod_mul_distrib]
    refine Finset.prod_congr rfl fun l _ => ?_
    rw [Finset.mul_prod_erase S _ hk]
  have h2 : (∏ l ∈ S.erase k, invSign π l k) = ∏ l ∈ S, invSign π l k := by
    rw [← Finset.mul_prod_erase S _ hk]
    have : invSign π k k = 1 := by simp [invSign]
    rw [this, one_mul]
  have h3 : sgn k S = sgn (π k) (S.map π.toEmbedding) * ((∏ m ∈ S, invSign π k m) * ∏ l ∈ S, invSign π l k) := by
    rw [sgn_prod, sgn_prod, Finset.prod_map, ← Finset.prod_mul_distrib, ← Finset.prod_mul_distrib]
    refine Finset.prod_congr rfl fun l _ => ?_
    simp only [invSign, Equiv.coe_toEmbedding]
    rcases lt_trichotomy k l with h | h | h
    · have h' : ¬ l < k := not_lt.mpr h.le
      have hne : π k ≠ π l := fun e => h.ne (π.injective e)
      by_cases h4 : π k < π l
      · have h5 : ¬ π l < π k := not_lt.mpr h4.le
        simp [h, h', h4, h5]
      · have h5 : π l < π k := lt_of_le_of_ne (not_lt.mp h4) hne.symm
        simp [h, h', h4, h5]
    · subst h; simp
    · have h' : ¬ k < l := not_lt.mpr h.le
      by_cases h4 : π k < π l
      · simp [h, h', h4]
      · simp [h', h4]
  rw [h3, h1, h2]; ring

theorem permSign_sq (π : Equiv.Perm M) (S : Finset M) : permSign π S * permSign π S = 1 := by
  unfold permSign
  rw [← Finset.prod_mul_distrib]
  refine Finset.prod_eq_one fun l _ => ?_
  rw [← Finset.prod_mul_distrib]
  refine Finset.prod_eq_one fun m _ => ?_
  unfold invSign
  split_ifs <;> norm_num

variable (R : Type) [CommRing R]

/-- The action of a permutation of the modes on Fock space. -/
def permOp (π : Equiv.Perm M) : Matrix (Finset M) (Finset M) R :=
  Matrix.of fun T S => if T = S.map π.toEmbedding then ((permSign π S : ℤ) : R) else 0

theorem permOp_orth (π : Equiv.Perm M) : (permOp R π)ᵀ * permOp R π = 1 := by
  ext S S'
  rw [Matrix.mul_apply, Matrix.one_apply]
  simp only [Matrix.transpose_apply, permOp, Matrix.of_apply, ite_mul, zero_mul, Finset.sum_ite_eq', Finset.mem_univ, if_true]
  simp only [Finset.map_inj]
  split_ifs with h
  · rw [h, ← Int.cast_mul, permSign_sq, Int.cast_one]
  · rw [mul_zero]

theorem permOp_orth' (π : Equiv.Perm M) : permOp R π * (permOp R π)ᵀ = 1 := _root_.mul_eq_one_comm.mp (permOp_orth R π)

theorem permOp_ann (π : Equiv.Perm M) (k : M) : permOp R π * ann R k = ann R (π k) * permOp R π := by
  ext T S
  rw [Matrix.mul_apply, Matrix.mul_apply]
  simp only [permOp, Matrix.of_apply, ann_apply, mul_ite, mul_zero]
  rw [Finset.sum_ite_eq']
  simp only [Finset.mem_univ, if_true, Finset.mem_map', Equiv.coe_toEmbedding, Finset.mem_map_equiv, Equiv.symm_apply_apply]
  by_cases hk : k ∈ S
  · simp only [hk, if_true]
    rw [Finset.sum_ite_eq']
    simp only [Finset.mem_univ, if_true]
    have : (S.erase k).map π.toEmbedding = (S.map π.toEmbedding).erase (π k) := by
      rw [Finset.map_erase]; rfl
    rw [this]
    split_ifs with h
    · rw [← Int.cast_mul, ← Int.cast_mul, permSign_erase π hk]
    · simp
  · simp only [hk, if_false]
    simp

/-- Conjugation with the action of a permutation. -/
def permConj (π : Equiv.Perm M) (A : Matrix (Finset M) (Finset M) R) : Matrix (Finset M) (Finset M) R := permOp R π * A * (permOp R π)ᵀ

variable {R}

theorem permConj_mul (π : Equiv.Perm M) (A B : Matrix (Finset M) (Finset M) R) : permConj R π (A * B) = permConj R π A * permConj R π B := by
  unfold permConj
  have : permOp R π * A * (permOp R π)ᵀ * (permOp R π * B * (permOp R π)ᵀ) = permOp R π * A * ((permOp R π)ᵀ * permOp R π) * B * (permOp R π)ᵀ := by
    simp only [Matrix.mul_assoc]
  rw [this, permOp_orth, Matrix.mul_one]
  simp only [Matrix.mul_assoc]

theorem permConj_one (π : Equiv.Perm M) : permConj R π 1 = 1 := by
  unfold permConj; rw [Matrix.mul_one, permOp_orth']

theorem permConj_add (π : Equiv.Perm M) (A B : Matrix (Finset M) (Finset M) R) : permConj R π (A + B) = permConj R π A + permConj R π B := by
  unfold permConj; rw [Matrix.mul_add, Matrix.add_mul]

theorem permConj_sub (π : Equiv.Perm M) (A B : Matrix (Finset M) (Finset M) R) : permConj R π (A - B) = permConj R π A - permConj R π B := by
  unfold permConj; rw [Matrix.mul_sub, Matrix.sub_mul]

theorem permConj_smul (π : Equiv.Perm M) (c : R) (A : Matrix (Finset M) (Finset M) R) : permConj R π (c • A) = c • permConj R π A := by
  unfold permConj; rw [Matrix.mul_smul, Matrix.smul_mul]

theorem permConj_sum (π : Equiv.Perm M) {α : Type} (s : Finset α) (f : α → Matrix (Finset M) (Finset M) R) :
    permConj R π (∑ x ∈ s, f x) = ∑ x ∈ s, permConj R π (f x) := by
  unfold permConj; rw [Matrix.mul_sum, Matrix.sum_mul]

theorem permConj_ann (π : Equiv.Perm M) (k : M) : permConj R π (ann R k) = ann R (π k) := by
  unfold permConj
  rw [permOp_ann, Matrix.mul_assoc, permOp_orth', Matrix.mul_one]

theorem permConj_transpose (π : Equiv.Perm M) (A : Matrix (Finset M) (Finset M) R) : permConj R π Aᵀ = (permConj R π A)ᵀ := by
  unfold permConj
  rw [Matrix.transpose_mul, Matrix.transpose_mul, Matrix.transpose_transpose, Matrix.mul_assoc]

theorem permConj_cre (π : Equiv.Perm M) (k : M) : permConj R π (cre R k) = cre R (π k) := by
  unfold cre; rw [permConj_transpose, permConj_ann]

theorem permConj_num (π : Equiv.Perm M) (k : M) : permConj R π (num R k) = num R (π k) := by
  unfold num; rw [permConj_mul, permConj_ann, permConj_cre]

end perm

section thermal
variable {ι : Type} [Fintype ι] [DecidableEq ι]

theorem cplx_one' : cplx (1 : Matrix ι ι ℝ) = 1 := by
  ext i j
  simp only [cplx, Matrix.map_apply, Matrix.one_apply]
  split_ifs <;> simp

/-- Thermal averages are invariant under a symmetry `P` of the Hamiltonian. -/
theorem thermal_conj {P H : Matrix ι ι ℝ} (hP : Pᵀ * P = 1) (hH : P * H = H * P) (β : ℝ) (A : Matrix ι ι ℂ) :
    thermal β H (cplx P * A * cplx Pᵀ) = thermal β H A := by
  have hρ : P * gibbsOp β H = gibbsOp β H * P := by
    have hc : Commute P (-β • H) := (Commute.smul_right hH (-β) : Commute P ((-β) • H))
    exact (hc.exp_right).eq
  unfold thermal
  congr 1
  have h1 : cplx (gibbsOp β H) * (cplx P * A * cplx Pᵀ) = cplx P * (cplx (gibbsOp β H) * A * cplx Pᵀ) := by
    simp only [← Matrix.mul_assoc]
    rw [← cplx_mul', ← cplx_mul', hρ]
  rw [h1, Matrix.trace_mul_comm, Matrix.mul_assoc, ← cplx_mul', hP, cplx_one', Matrix.mul_one]

/-- Green functions are invariant under a symmetry `P` of the Hamiltonian. -/
theorem isGreen_conj {P H A B : Matrix ι ι ℝ} (hP : Pᵀ * P = 1) (hH : P * H = H * P) {β : ℝ} {z g : ℂ} (h : IsGreen β H A B z g) :
    IsGreen β H (P * A * Pᵀ) (P * B * Pᵀ) z g := by
  obtain ⟨X, hX, hg⟩ := h
  have hP' : cplx Pᵀ * cplx P = 1 := by rw [← cplx_mul', hP, cplx_one']
  have hHT : Pᵀ * H = H * Pᵀ := by
    have h2 : P * Pᵀ = 1 := _root_.mul_eq_one_comm.mp hP
    calc Pᵀ * H = Pᵀ * (H * (P * Pᵀ)) := by rw [h2, Matrix.mul_one]
      _ = Pᵀ * (P * H) * Pᵀ := by rw [hH]; simp only [Matrix.mul_assoc]
      _ = H * Pᵀ := by rw [← Matrix.mul_assoc, hP, Matrix.one_mul]
  have c1 : cplx P * cplx H = cplx H * cplx P := by rw [← cplx_mul', ← cplx_mul', hH]
  have c2 : cplx Pᵀ * cplx H = cplx H * cplx Pᵀ := by rw [← cplx_mul', ← cplx_mul', hHT]
  refine ⟨cplx P * X * cplx Pᵀ, ?_, ?_⟩
  · rw [cplx_mul', cplx_mul', ← hX]
    have e1 : cplx P * X * cplx Pᵀ * cplx H = cplx P * (X * cplx H) * cplx Pᵀ := by
      simp only [Matrix.mul_assoc, c2]
    have e2 : cplx H * (cplx P * X * cplx Pᵀ) = cplx P * (cplx H * X) * cplx Pᵀ := by
      simp only [← Matrix.mul_assoc, c1]
    rw [e1, e2, Matrix.mul_sub, Matrix.sub_mul, Matrix.mul_sub, Matrix.sub_mul, Matrix.mul_smul, Matrix.smul_mul]
  · have e3 : ∀ C D : Matrix ι ι ℂ, cplx P * C * cplx Pᵀ * (cplx P * D * cplx Pᵀ) = cplx P * (C * D) * cplx Pᵀ := by
      intro C D
      have : cplx P * C * cplx Pᵀ * (cplx P * D * cplx Pᵀ) = cplx P * C * (cplx Pᵀ * cplx P) * D * cplx Pᵀ := by simp only [Matrix.mul_assoc]
      rw [this, hP', Matrix.mul_one]
      simp only [Matrix.mul_assoc]
    rw [cplx_mul' _ Pᵀ, cplx_mul', e3, e3, ← Matrix.add_mul, ← Matrix.mul_add, thermal_conj hP hH, hg]

end thermal
end Edpyt
