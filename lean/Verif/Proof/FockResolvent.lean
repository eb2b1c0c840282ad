import Verif.Proof.Lehmann
import Verif.Proof.Amplitude
import Verif.Proof.LanczosGf
import Verif.Props.Lanczos
/-!
Resolvents of the many-body Hamiltonian: between the coordinates of a sector and the Fock space, in an eigenbasis, and as traces.
-/
namespace Edpyt
open Spec Matrix

section generic
variable {ι κ : Type} [Fintype ι] [DecidableEq ι] [Fintype κ] [DecidableEq κ]

theorem resolvent_solve {H : Matrix ι ι ℝ} (hH : H.IsSymm) {z : ℂ} (hz : z.im ≠ 0) (y : ι → ℂ) (i : ι) :
    z * (resolvent z H *ᵥ y) i - ∑ j, (H i j : ℂ) * (resolvent z H *ᵥ y) j = y i := by
  rw [← shifted_mulVec, Matrix.mulVec_mulVec, Spec.resolvent, Matrix.mul_nonsing_inv _ (isUnit_shifted hH hz), Matrix.one_mulVec]

/-- An isometry that intertwines two symmetric matrices intertwines their resolvents. -/
theorem resElem_intertwine {H : Matrix ι ι ℝ} {A : Matrix κ κ ℝ} (hH : H.IsSymm) (hA : A.IsSymm) (J : Matrix ι κ ℝ) (hJ : Jᵀ * J = 1)
    (hHJ : H * J = J * A) {z : ℂ} (hz : z.im ≠ 0) (x y : κ → ℝ) :
    resElem z H (J *ᵥ x) (J *ᵥ y) = resElem z A x y := by
  set w := resolvent z A *ᵥ fun i => (y i : ℂ) with hw
  have h1 : ∀ c, z * w c - ∑ c', (A c c' : ℂ) * w c' = (y c : ℂ) := fun c => resolvent_solve hA hz _ c
  have e : ∀ i c, ∑ k, (H i k : ℂ) * (J k c : ℂ) = ∑ c', (J i c' : ℂ) * (A c' c : ℂ) := by
    intro i c
    have := congrFun (congrFun hHJ i) c
    rw [Matrix.mul_apply, Matrix.mul_apply] at this
    exact_mod_cast this
  have h2 : resolvent z H *ᵥ (fun i => ((J *ᵥ y) i : ℂ)) = fun i => ∑ c, (J i c : ℂ) * w c := by
    apply resolvent_mulVec hH hz
    intro i
    have s1 : ∑ k, (H i k : ℂ) * ∑ c, (J k c : ℂ) * w c = ∑ c', (J i c' : ℂ) * ∑ c, (A c' c : ℂ) * w c := by
      simp only [Finset.mul_sum]
      rw [Finset.sum_comm]
      conv_rhs => rw [Finset.sum_comm]
      apply Finset.sum_congr rfl; intro c _
      simp only [← mul_assoc, ← Finset.sum_mul]
      rw [e i c]
    rw [s1, Finset.mul_sum, ← Finset.sum_sub_distrib]
    simp only [Matrix.mulVec, dotProduct]
    push_cast
    apply Finset.sum_congr rfl; intro c _
    rw [← h1 c]; ring
  unfold resElem
  rw [h2, ← hw]
  simp only [dotProduct, Matrix.mulVec]
  push_cast
  have hJ' : ∀ c c', ∑ i, (J i c : ℂ) * (J i c' : ℂ) = if c = c' then 1 else 0 := by
    intro c c'
    have := congrFun (congrFun hJ c) c'
    rw [Matrix.mul_apply, Matrix.one_apply] at this
    simp only [Matrix.transpose_apply] at this
    have h := congrArg Complex.ofReal this
    push_cast at h
    rw [h]
    split <;> simp
  calc ∑ i, (∑ c, (J i c : ℂ) * (x c : ℂ)) * ∑ c', (J i c' : ℂ) * w c'
      = ∑ i, ∑ c, ∑ c', ((J i c : ℂ) * (J i c' : ℂ)) * ((x c : ℂ) * w c') := by
        apply Finset.sum_congr rfl; intro i _
        rw [Finset.sum_mul]
        apply Finset.sum_congr rfl; intro c _
        rw [Finset.mul_sum]
        apply Finset.sum_congr rfl; intro c' _
        ring
    _ = ∑ c, ∑ c', (∑ i, (J i c : ℂ) * (J i c' : ℂ)) * ((x c : ℂ) * w c') := by
        rw [Finset.sum_comm]
        apply Finset.sum_congr rfl; intro c _
        rw [Finset.sum_comm]
        apply Finset.sum_congr rfl; intro c' _
        rw [Finset.sum_mul]
    _ = ∑ c, (x c : ℂ) * w c := by
        apply Finset.sum_congr rfl; intro c _
        simp only [hJ', ite_mul, one_mul, zero_mul, Finset.sum_ite_eq, Finset.mem_univ, if_true]

theorem intertwine_shift {H : Matrix ι ι ℝ} {A : Matrix κ κ ℝ} {J : Matrix ι κ ℝ} (h : H * J = J * A) (s E : ℝ) :
    (s • (H - E • (1 : Matrix ι ι ℝ))) * J = J * (s • (A - E • (1 : Matrix κ κ ℝ))) := by
  rw [Matrix.smul_mul, Matrix.mul_smul, Matrix.sub_mul, Matrix.mul_sub, h, Matrix.smul_mul, Matrix.one_mul, Matrix.mul_smul, Matrix.mul_one]

theorem symm_shift {H : Matrix ι ι ℝ} (h : H.IsSymm) (s E : ℝ) : (s • (H - E • (1 : Matrix ι ι ℝ))).IsSymm := by
  unfold Matrix.IsSymm
  rw [Matrix.transpose_smul, Matrix.transpose_sub, h, Matrix.transpose_smul, Matrix.transpose_one]

theorem EigBasis.symm {H : Matrix ι ι ℝ} {u : κ → ι → ℝ} {E : κ → ℝ} (h : EigBasis H u E) : H.IsSymm := by
  have e : ι ≃ κ := Fintype.equivOfCardEq h.card.symm
  rw [(h.diag e).diag]
  unfold Matrix.IsSymm
  rw [Matrix.transpose_mul, Matrix.transpose_mul, Matrix.transpose_transpose, Matrix.diagonal_transpose, Matrix.mul_assoc]

/-- The resolvent in an eigenbasis. -/
theorem EigBasis.resElem {H : Matrix ι ι ℝ} {u : κ → ι → ℝ} {E : κ → ℝ} (h : EigBasis H u E) {z : ℂ} (hz : z.im ≠ 0) (x y : ι → ℝ) :
    Edpyt.resElem z H x y = ∑ k, (z - (E k : ℂ))⁻¹ * (((u k ⬝ᵥ x) * (u k ⬝ᵥ y) : ℝ) : ℂ) := by
  have hne : ∀ k, z - (E k : ℂ) ≠ 0 := by
    intro k h0
    apply hz
    have := congrArg Complex.im h0
    simpa using this
  have h1 : resolvent z H *ᵥ (fun i => (y i : ℂ)) = fun i => ∑ k, (z - (E k : ℂ))⁻¹ * ((u k ⬝ᵥ y : ℝ) : ℂ) * (u k i : ℂ) := by
    apply resolvent_mulVec h.symm hz
    intro i
    have s1 : ∑ j, (H i j : ℂ) * ∑ k, (z - (E k : ℂ))⁻¹ * ((u k ⬝ᵥ y : ℝ) : ℂ) * (u k j : ℂ) =
        ∑ k, (z - (E k : ℂ))⁻¹ * ((u k ⬝ᵥ y : ℝ) : ℂ) * ((E k : ℂ) * (u k i : ℂ)) := by
      simp only [Finset.mul_sum]
      rw [Finset.sum_comm]
      apply Finset.sum_congr rfl; intro k _
      have := congrFun (h.eig k) i
      rw [Pi.smul_apply, smul_eq_mul] at this
      have h' := congrArg Complex.ofReal this
      simp only [Matrix.mulVec, dotProduct] at h'
      push_cast at h'
      rw [← h', Finset.mul_sum]
      apply Finset.sum_congr rfl; intro j _
      simp only [dotProduct]; push_cast
      ring
    rw [s1, Finset.mul_sum, ← Finset.sum_sub_distrib]
    have hy := congrFun (h.expand y) i
    rw [Finset.sum_apply] at hy
    rw [← hy]
    push_cast
    apply Finset.sum_congr rfl; intro k _
    simp only [Pi.smul_apply, smul_eq_mul]
    push_cast
    field_simp [hne k]
  unfold Edpyt.resElem
  rw [h1]
  simp only [dotProduct, Finset.mul_sum]
  rw [Finset.sum_comm]
  apply Finset.sum_congr rfl; intro k _
  have : ∀ i, (x i : ℂ) * ((z - (E k : ℂ))⁻¹ * (((∑ j, u k j * y j : ℝ)) : ℂ) * (u k i : ℂ)) =
      (z - (E k : ℂ))⁻¹ * (((u k i * x i) * ∑ j, u k j * y j : ℝ) : ℂ) := fun i => by
    push_cast; ring
  rw [Finset.sum_congr rfl fun i _ => this i, ← Finset.mul_sum, ← Complex.ofReal_sum, ← Finset.sum_mul, Finset.mul_sum]

/-- The quadratic form of a complex matrix in a real vector. -/
noncomputable def cform (x : ι → ℝ) (M : Matrix ι ι ℂ) : ℂ := (fun i => (x i : ℂ)) ⬝ᵥ (M *ᵥ fun i => (x i : ℂ))

variable {H B : Matrix ι ι ℝ} {z : ℂ} {X : Matrix ι ι ℂ} {x : ι → ℝ} {E : ℝ}

theorem im_shift (hz : z.im ≠ 0) (s E : ℝ) (hs : s ≠ 0) : ((s : ℂ) * z + (E : ℂ)).im ≠ 0 := by
  simpa [hs] using hz

/-- Removing an electron from an eigenstate: the resolvent is a matrix element of the solution of the equation of motion. -/
theorem eom_hole (hH : H.IsSymm) (hz : z.im ≠ 0) (hX : z • X - (X * cplx H - cplx H * X) = cplx Bᵀ) (hx : H *ᵥ x = E • x) :
    resElem z ((-1 : ℝ) • (H - E • (1 : Matrix ι ι ℝ))) (Bᵀ *ᵥ x) (Bᵀ *ᵥ x) = cform x (cplx B * X) := by
  have h1 : resolvent z ((-1 : ℝ) • (H - E • (1 : Matrix ι ι ℝ))) *ᵥ (fun i => ((Bᵀ *ᵥ x) i : ℂ)) = X *ᵥ (fun i => (x i : ℂ)) := by
    apply resolvent_mulVec (symm_shift hH _ _) hz
    intro i
    have := congrFun (congrArg (fun M => M *ᵥ (fun i => (x i : ℂ))) hX) i
    simp only [Matrix.sub_mulVec, Pi.sub_apply, Matrix.smul_mulVec, Pi.smul_apply, smul_eq_mul, ← Matrix.mulVec_mulVec] at this
    have hc : cplx H *ᵥ (fun i => (x i : ℂ)) = (E : ℂ) • (fun i => (x i : ℂ)) := by
      funext j
      have := congrArg Complex.ofReal (congrFun hx j)
      simp only [Matrix.mulVec, dotProduct, Pi.smul_apply, smul_eq_mul] at this
      push_cast at this
      simpa [Matrix.mulVec, dotProduct, cplx] using this
    rw [hc, Matrix.mulVec_smul, Pi.smul_apply, smul_eq_mul] at this
    have e1 : ((cplx Bᵀ) *ᵥ (fun i => (x i : ℂ))) i = ((Bᵀ *ᵥ x) i : ℂ) := by
      simp [Matrix.mulVec, dotProduct, cplx]
    rw [e1] at this
    rw [← this]
    have e2 : ∑ j, ((((-1 : ℝ) • (H - E • (1 : Matrix ι ι ℝ))) i j : ℝ) : ℂ) * (X *ᵥ fun i => (x i : ℂ)) j =
        - (cplx H *ᵥ (X *ᵥ fun i => (x i : ℂ))) i + (E : ℂ) * (X *ᵥ fun i => (x i : ℂ)) i := by
      have : ∀ j, ((((-1 : ℝ) • (H - E • (1 : Matrix ι ι ℝ))) i j : ℝ) : ℂ) * (X *ᵥ fun i => (x i : ℂ)) j =
          -((H i j : ℂ) * (X *ᵥ fun i => (x i : ℂ)) j) + (if i = j then (E : ℂ) * (X *ᵥ fun i => (x i : ℂ)) j else 0) := by
        intro j
        simp only [Matrix.smul_apply, Matrix.sub_apply, Matrix.one_apply, smul_eq_mul]
        split <;> push_cast <;> ring
      simp only [this, Finset.sum_add_distrib, Finset.sum_neg_distrib, Finset.sum_ite_eq, Finset.mem_univ, if_true]
      rfl
    rw [e2]; ring
  unfold resElem cform
  rw [h1, ← Matrix.mulVec_mulVec]
  have : (fun i => ((Bᵀ *ᵥ x) i : ℂ)) = (cplx B)ᵀ *ᵥ (fun i => (x i : ℂ)) := by
    funext i; simp [Matrix.mulVec, dotProduct, cplx]
  rw [this, Matrix.mulVec_transpose, ← Matrix.dotProduct_mulVec]

/-- Adding an electron to an eigenstate. -/
theorem eom_electron (hH : H.IsSymm) (hz : z.im ≠ 0) (hX : z • X - (X * cplx H - cplx H * X) = cplx Bᵀ) (hx : H *ᵥ x = E • x) :
    resElem z ((1 : ℝ) • (H - E • (1 : Matrix ι ι ℝ))) (B *ᵥ x) (B *ᵥ x) = cform x (X * cplx B) := by
  have hc : (fun i => (x i : ℂ)) ᵥ* cplx H = (E : ℂ) • (fun i => (x i : ℂ)) := by
    funext j
    have := congrArg Complex.ofReal (congrFun hx j)
    simp only [Matrix.mulVec, dotProduct, Pi.smul_apply, smul_eq_mul] at this
    push_cast at this
    simp only [Matrix.vecMul, dotProduct, cplx, Matrix.map_apply, Pi.smul_apply, smul_eq_mul]
    rw [← this]
    apply Finset.sum_congr rfl; intro i _
    rw [← hH.apply i j]; ring
  set w := resolvent z ((1 : ℝ) • (H - E • (1 : Matrix ι ι ℝ))) *ᵥ (fun i => ((B *ᵥ x) i : ℂ)) with hw
  have h1 : (fun i => (x i : ℂ)) ᵥ* cplx Bᵀ = (fun i => ((B *ᵥ x) i : ℂ)) := by
    funext i
    simp only [Matrix.vecMul, Matrix.mulVec, dotProduct, cplx, Matrix.map_apply, Matrix.transpose_apply]
    push_cast
    exact Finset.sum_congr rfl fun j _ => mul_comm _ _
  have hs := symm_shift (E := E) (s := 1) hH
  -- the row vector x X solves the transposed equation
  have h2 : w = (fun i => (x i : ℂ)) ᵥ* X := by
    rw [hw]
    apply resolvent_mulVec hs hz
    intro i
    have := congrFun (congrArg (fun M => (fun i => (x i : ℂ)) ᵥ* M) hX) i
    simp only [Matrix.vecMul_sub, Pi.sub_apply, Matrix.vecMul_smul, Pi.smul_apply, smul_eq_mul, ← Matrix.vecMul_vecMul] at this
    rw [hc, Matrix.smul_vecMul, Pi.smul_apply, smul_eq_mul, h1] at this
    refine Eq.trans ?_ this
    have e2 : ∑ j, ((((1 : ℝ) • (H - E • (1 : Matrix ι ι ℝ))) i j : ℝ) : ℂ) * ((fun i => (x i : ℂ)) ᵥ* X) j =
        (((fun i => (x i : ℂ)) ᵥ* X) ᵥ* cplx H) i - (E : ℂ) * ((fun i => (x i : ℂ)) ᵥ* X) i := by
      have : ∀ j, ((((1 : ℝ) • (H - E • (1 : Matrix ι ι ℝ))) i j : ℝ) : ℂ) * ((fun i => (x i : ℂ)) ᵥ* X) j =
          ((fun i => (x i : ℂ)) ᵥ* X) j * (H j i : ℂ) - (if i = j then (E : ℂ) * ((fun i => (x i : ℂ)) ᵥ* X) j else 0) := by
        intro j
        simp only [Matrix.smul_apply, Matrix.sub_apply, Matrix.one_apply, smul_eq_mul]
        rw [hH.apply j i]
        split <;> push_cast <;> ring
      simp only [this, Finset.sum_sub_distrib, Finset.sum_ite_eq, Finset.mem_univ, if_true]
      rfl
    rw [e2]
  unfold resElem cform
  rw [← hw, h2, ← Matrix.mulVec_mulVec, Matrix.dotProduct_mulVec, dotProduct_comm]
  congr 1
  funext i
  simp [Matrix.mulVec, dotProduct, cplx]

end generic
end Edpyt
