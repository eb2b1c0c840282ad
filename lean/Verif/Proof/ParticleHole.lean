import Verif.Proof.FockSym
import Verif.Props.Symmetry
/-!
The particle-hole transformation `c_k → η_k c†_k` on Fock space.
-/
namespace Edpyt
open Matrix Spec

section
variable {M : Type} [Fintype M] [LinearOrder M]

/-- Sign of the particle-hole transformation on the basis state `S`. -/
def phSign (η : M → ℤ) (S : Finset M) : ℤ := ∏ k ∈ S, η k * sgn k Finset.univ

/-- The particle-hole transformation: exchanges occupied and empty modes. -/
def phOp (η : M → ℤ) : Matrix (Finset M) (Finset M) ℝ := Matrix.of fun T S => if T = Sᶜ then ((phSign η S : ℤ) : ℝ) else 0

theorem phSign_sq {η : M → ℤ} (hη : ∀ k, η k * η k = 1) (S : Finset M) : phSign η S * phSign η S = 1 := by
  unfold phSign
  rw [← Finset.prod_mul_distrib]
  refine Finset.prod_eq_one fun k _ => ?_
  have h1 := hη k
  have h2 := sgn_mul_self k (Finset.univ : Finset M)
  calc η k * sgn k Finset.univ * (η k * sgn k Finset.univ) = (η k * η k) * (sgn k Finset.univ * sgn k Finset.univ) := by ring
    _ = 1 := by rw [h1, h2, one_mul]

theorem phOp_orth {η : M → ℤ} (hη : ∀ k, η k * η k = 1) : (phOp η)ᵀ * phOp η = 1 := by
  ext S S'
  rw [Matrix.mul_apply, Matrix.one_apply]
  simp only [Matrix.transpose_apply, phOp, Matrix.of_apply, ite_mul, zero_mul, Finset.sum_ite_eq', Finset.mem_univ, if_true, compl_inj_iff]
  split_ifs with h
  · rw [h, ← Int.cast_mul, phSign_sq hη, Int.cast_one]
  · rw [mul_zero]

theorem sgn_compl (k : M) (S : Finset M) : sgn k S * sgn k Sᶜ = sgn k Finset.univ := by
  rw [sgn_prod, sgn_prod, sgn_prod]
  exact Finset.prod_mul_prod_compl S _

/-- `P c_k = η_k c†_k P`. -/
theorem phOp_ann {η : M → ℤ} (hη : ∀ k, η k * η k = 1) (k : M) : phOp η * ann ℝ k = ((η k : ℤ) : ℝ) • (cre ℝ k * phOp η) := by
  ext T S
  rw [Matrix.smul_apply, Matrix.mul_apply, Matrix.mul_apply]
  simp only [phOp, Matrix.of_apply, ann_apply, cre, Matrix.transpose_apply, mul_ite, mul_zero]
  rw [Finset.sum_ite_eq']
  simp only [Finset.mem_univ, if_true]
  by_cases hk : k ∈ S
  · simp only [hk, if_true]
    rw [Finset.sum_ite_eq']
    simp only [Finset.mem_univ, if_true]
    by_cases hT : T = (S.erase k)ᶜ
    · have hkT : k ∈ T := by rw [hT]; simp
      have hS : Sᶜ = T.erase k := by
        rw [hT]; ext x
        simp only [Finset.mem_compl, Finset.mem_erase]
        constructor
        · intro hx
          exact ⟨fun h => hx (h ▸ hk), fun h => hx h.2⟩
        · rintro ⟨h1, h2⟩ hx
          exact h2 ⟨h1, hx⟩
      rw [if_pos hT, if_pos hkT, if_pos hS, smul_eq_mul, ← Int.cast_mul, ← Int.cast_mul, ← Int.cast_mul]
      congr 1
      have h1 : phSign η S = η k * sgn k Finset.univ * phSign η (S.erase k) := by
        unfold phSign; exact (Finset.mul_prod_erase S (fun k => η k * sgn k Finset.univ) hk).symm
      have h2 : sgn k T = sgn k Sᶜ := by
        rw [hS, sgn_erase_of_not_gt (lt_irrefl k)]
      have h3 := sgn_compl k S
      have h4 := sgn_mul_self k Sᶜ
      have h5 := hη k
      rw [h1, h2, ← h3]
      calc phSign η (S.erase k) * sgn k S = phSign η (S.erase k) * sgn k S * 1 * 1 := by ring
        _ = phSign η (S.erase k) * sgn k S * (η k * η k) * (sgn k Sᶜ * sgn k Sᶜ) := by rw [h4, h5]
        _ = _ := by ring
    · rw [if_neg hT]
      have : ¬(k ∈ T ∧ Sᶜ = T.erase k) := by
        rintro ⟨h1, h2⟩
        apply hT
        ext x
        have := congrArg (x ∈ ·) h2
        simp only [Finset.mem_compl, Finset.mem_erase, eq_iff_iff] at this
        simp only [Finset.mem_compl, Finset.mem_erase, not_and_or, not_not]
        by_cases hx : x = k
        · subst hx; simp [h1]
        · simp only [hx, not_false_eq_true, true_and, false_or] at this ⊢
          exact ⟨fun h => this.mpr ⟨hx, h⟩, fun h => (this.mp h).2⟩
      by_cases h1 : k ∈ T
      · rw [if_pos h1, if_neg (fun h2 => this ⟨h1, h2⟩)]; simp
      · rw [if_neg h1]; simp
  · simp only [hk, if_false]
    have : ¬(k ∈ T ∧ Sᶜ = T.erase k) := by
      rintro ⟨h1, h2⟩
      have : k ∈ Sᶜ := by simpa using hk
      rw [h2] at this
      simp at this
    by_cases h1 : k ∈ T
    · rw [if_pos h1, if_neg (fun h2 => this ⟨h1, h2⟩)]; simp
    · rw [if_neg h1]; simp

/-- Conjugation with the particle-hole transformation. -/
def phConj (η : M → ℤ) (A : Matrix (Finset M) (Finset M) ℝ) : Matrix (Finset M) (Finset M) ℝ := phOp η * A * (phOp η)ᵀ

variable {η : M → ℤ} (hη : ∀ k, η k * η k = 1)
include hη

theorem phOp_orth' : phOp η * (phOp η)ᵀ = 1 := _root_.mul_eq_one_comm.mp (phOp_orth hη)

theorem phConj_mul (A B : Matrix (Finset M) (Finset M) ℝ) : phConj η (A * B) = phConj η A * phConj η B := by
  unfold phConj
  have : phOp η * A * (phOp η)ᵀ * (phOp η * B * (phOp η)ᵀ) = phOp η * A * ((phOp η)ᵀ * phOp η) * B * (phOp η)ᵀ := by
    simp only [Matrix.mul_assoc]
  rw [this, phOp_orth hη, Matrix.mul_one]
  simp only [Matrix.mul_assoc]

theorem phConj_one : phConj η 1 = 1 := by
  unfold phConj; rw [Matrix.mul_one, phOp_orth' hη]

theorem phConj_ann (k : M) : phConj η (ann ℝ k) = ((η k : ℤ) : ℝ) • cre ℝ k := by
  unfold phConj
  rw [phOp_ann hη, Matrix.smul_mul, Matrix.mul_assoc, phOp_orth' hη, Matrix.mul_one]

omit hη in
theorem phConj_transpose (A : Matrix (Finset M) (Finset M) ℝ) : phConj η Aᵀ = (phConj η A)ᵀ := by
  unfold phConj
  rw [Matrix.transpose_mul, Matrix.transpose_mul, Matrix.transpose_transpose, Matrix.mul_assoc]

theorem phConj_cre (k : M) : phConj η (cre ℝ k) = ((η k : ℤ) : ℝ) • ann ℝ k := by
  conv_lhs => unfold cre
  rw [phConj_transpose, phConj_ann hη, Matrix.transpose_smul]; rfl

theorem phConj_num (k : M) : phConj η (num ℝ k) = 1 - num ℝ k := by
  unfold num
  rw [phConj_mul hη, phConj_ann hη, phConj_cre hη, Matrix.smul_mul, Matrix.mul_smul, smul_smul, ← Int.cast_mul, hη, Int.cast_one, one_smul]
  have := ann_cre_anticomm (R := ℝ) k k
  rw [if_pos rfl] at this
  rw [← this]; abel

end

section
variable {ι : Type} [Fintype ι] [DecidableEq ι]

theorem gibbsOp_symm {H : Matrix ι ι ℝ} (hH : H.IsSymm) (β : ℝ) : (gibbsOp β H)ᵀ = gibbsOp β H := by
  unfold gibbsOp
  rw [← Matrix.exp_transpose, Matrix.transpose_smul, hH]

theorem cplx_transpose (A : Matrix ι ι ℝ) : (cplx A)ᵀ = cplx Aᵀ := rfl

theorem thermal_transpose {H : Matrix ι ι ℝ} (hH : H.IsSymm) (β : ℝ) (A : Matrix ι ι ℂ) : thermal β H Aᵀ = thermal β H A := by
  unfold thermal
  congr 1
  conv_rhs => rw [← Matrix.trace_transpose, Matrix.transpose_mul, cplx_transpose, gibbsOp_symm hH, Matrix.trace_mul_comm]

/-- The Green function of the transposed operators at `-z`. -/
theorem isGreen_neg {H A B : Matrix ι ι ℝ} (hH : H.IsSymm) {β : ℝ} {z g : ℂ} (h : IsGreen β H A B z g) : IsGreen β H Aᵀ Bᵀ (-z) (-g) := by
  obtain ⟨X, hX, hg⟩ := h
  refine ⟨-Xᵀ, ?_, ?_⟩
  · have := congrArg Matrix.transpose hX
    rw [Matrix.transpose_sub, Matrix.transpose_sub, Matrix.transpose_mul, Matrix.transpose_mul, Matrix.transpose_smul, cplx_transpose, cplx_transpose, hH] at this
    rw [← this, Matrix.neg_mul, Matrix.mul_neg, smul_neg, neg_smul]
    abel
  · have e : -Xᵀ * cplx Bᵀ + cplx Bᵀ * -Xᵀ = ((-1 : ℂ) • (X * cplx B + cplx B * X))ᵀ := by
      rw [Matrix.transpose_smul, Matrix.transpose_add, Matrix.transpose_mul, Matrix.transpose_mul, cplx_transpose, Matrix.neg_mul, Matrix.mul_neg, neg_smul, one_smul]
      abel
    rw [e, thermal_transpose hH, thermal_smul, hg]; ring

theorem isGreen_smul {H A B : Matrix ι ι ℝ} {β : ℝ} {z g : ℂ} (a b : ℝ) (h : IsGreen β H A B z g) : IsGreen β H (a • A) (b • B) z (a * b * g) := by
  obtain ⟨X, hX, hg⟩ := h
  refine ⟨(a : ℂ) • X, ?_, ?_⟩
  · rw [cplx_smul, ← hX, Matrix.smul_mul, Matrix.mul_smul, smul_sub, smul_sub, smul_comm z]
  · have : (a : ℂ) • X * cplx (b • B) + cplx (b • B) * (a : ℂ) • X = ((a : ℂ) * b) • (X * cplx B + cplx B * X) := by
      rw [cplx_smul, Matrix.smul_mul, Matrix.mul_smul, Matrix.smul_mul, Matrix.mul_smul, smul_smul, smul_smul, smul_add, mul_comm (b : ℂ)]
    rw [this, thermal_smul, hg]

end
end Edpyt
