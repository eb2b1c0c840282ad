import Verif.Proof.Gibbs
import Verif.Proof.Fock
import Mathlib.Analysis.CStarAlgebra.Matrix
/-!
Stability of thermal averages: the effect of a small change of the matrix.
-/
namespace Edpyt
open Matrix
open scoped Matrix.Norms.L2Operator

variable {ι κ κ' : Type} [Fintype ι] [DecidableEq ι] [Fintype κ] [DecidableEq κ] [Fintype κ'] [DecidableEq κ']
  {A B X : Matrix ι ι ℝ} {u : κ → ι → ℝ} {v : κ' → ι → ℝ} {a : κ → ℝ} {b : κ' → ℝ}

theorem opNorm_mulVec_sq (V : Matrix ι ι ℝ) (x : ι → ℝ) : (V *ᵥ x) ⬝ᵥ (V *ᵥ x) ≤ ‖V‖ ^ 2 * (x ⬝ᵥ x) := by
  have h := Matrix.l2_opNorm_mulVec V (WithLp.toLp 2 x)
  have e : ∀ y : ι → ℝ, ‖(WithLp.toLp 2 y : EuclideanSpace ℝ ι)‖ ^ 2 = y ⬝ᵥ y := fun y => by
    rw [EuclideanSpace.norm_sq_eq]
    unfold dotProduct
    exact Finset.sum_congr rfl fun i _ => by rw [Real.norm_eq_abs, sq_abs]; ring
  have h2 := pow_le_pow_left₀ (norm_nonneg _) h 2
  rw [mul_pow] at h2
  rw [← e x, ← e (V *ᵥ x)]
  exact h2

theorem opNorm_transpose (V : Matrix ι ι ℝ) : ‖Vᵀ‖ = ‖V‖ := by
  have := Matrix.l2_opNorm_conjTranspose V
  rwa [Matrix.conjTranspose_eq_transpose_of_trivial] at this

theorem opNorm_form (V : Matrix ι ι ℝ) (x : ι → ℝ) (hx : x ⬝ᵥ x = 1) : |x ⬝ᵥ V *ᵥ x| ≤ ‖V‖ := by
  have h := opNorm_mulVec_sq V x
  rw [hx, mul_one] at h
  have hcs : (x ⬝ᵥ V *ᵥ x) ^ 2 ≤ (x ⬝ᵥ x) * ((V *ᵥ x) ⬝ᵥ (V *ᵥ x)) := by
    have := Finset.sum_mul_sq_le_sq_mul_sq Finset.univ x (V *ᵥ x)
    unfold dotProduct
    refine this.trans (le_of_eq ?_)
    congr 1 <;> exact Finset.sum_congr rfl fun i _ => by ring
  rw [hx, one_mul] at hcs
  exact abs_le_of_sq_le_sq (hcs.trans h) (norm_nonneg _)

theorem exp_diff_le {β : ℝ} (hβ : 0 ≤ β) (x y : ℝ) : |Real.exp (-β * x) - Real.exp (-β * y)| ≤ β * |y - x| * (Real.exp (-β * x) + Real.exp (-β * y)) := by
  have key : ∀ x y : ℝ, x ≤ y → |Real.exp (-β * x) - Real.exp (-β * y)| ≤ β * |y - x| * (Real.exp (-β * x) + Real.exp (-β * y)) := fun x y hxy => by
    have h1 : Real.exp (-β * y) ≤ Real.exp (-β * x) := Real.exp_le_exp.mpr (by nlinarith)
    rw [abs_of_nonneg (sub_nonneg.mpr h1), abs_of_nonneg (sub_nonneg.mpr hxy)]
    have h2 := exp_gibbs (-β * x) (-β * y)
    have : Real.exp (-β * x) * (-β * x - -β * y) = β * (y - x) * Real.exp (-β * x) := by ring
    have h3 : 0 ≤ β * (y - x) * Real.exp (-β * y) := mul_nonneg (mul_nonneg hβ (sub_nonneg.mpr hxy)) (Real.exp_pos _).le
    nlinarith
  rcases le_total x y with h | h
  · exact key x y h
  · have := key y x h
    rwa [abs_sub_comm, abs_sub_comm x y, add_comm] at this

/-- The sum over one basis of the products of the elements of two matrices. -/
theorem sum_elem_le (hB : EigBasis B v b) (V X : Matrix ι ι ℝ) {δ : ℝ} (hδ : 0 < δ) (hV : ‖V‖ ≤ δ) (hX : ‖X‖ ≤ 1) (x : ι → ℝ) (hx : x ⬝ᵥ x = 1) :
    ∑ j, |x ⬝ᵥ V *ᵥ v j| * |x ⬝ᵥ X *ᵥ v j| ≤ δ := by
  have e : ∀ W : Matrix ι ι ℝ, ∑ j, (x ⬝ᵥ W *ᵥ v j) ^ 2 ≤ ‖W‖ ^ 2 := fun W => by
    have h1 : ∀ j, x ⬝ᵥ W *ᵥ v j = v j ⬝ᵥ (Wᵀ *ᵥ x) := fun j => by
      rw [Matrix.dotProduct_mulVec, dotProduct_comm, Matrix.mulVec_transpose]
    simp only [h1]
    rw [hB.norm]
    have := opNorm_mulVec_sq Wᵀ x
    rwa [hx, mul_one, opNorm_transpose] at this
  have h1 : ∑ j, |x ⬝ᵥ V *ᵥ v j| * |x ⬝ᵥ X *ᵥ v j| ≤ ∑ j, ((x ⬝ᵥ V *ᵥ v j) ^ 2 / δ + δ * (x ⬝ᵥ X *ᵥ v j) ^ 2) / 2 := by
    refine Finset.sum_le_sum fun j _ => ?_
    rw [← sq_abs (x ⬝ᵥ V *ᵥ v j), ← sq_abs (x ⬝ᵥ X *ᵥ v j)]
    generalize |x ⬝ᵥ V *ᵥ v j| = p
    generalize |x ⬝ᵥ X *ᵥ v j| = q
    have : (p ^ 2 / δ + δ * q ^ 2) / 2 - p * q = (p - δ * q) ^ 2 / (2 * δ) := by field_simp; ring
    have h2 : 0 ≤ (p - δ * q) ^ 2 / (2 * δ) := by positivity
    linarith
  refine h1.trans ?_
  rw [← Finset.sum_div, Finset.sum_add_distrib, ← Finset.sum_div, ← Finset.mul_sum]
  have hV2 : ‖V‖ ^ 2 ≤ δ ^ 2 := pow_le_pow_left₀ (norm_nonneg _) hV 2
  have hX2 : ‖X‖ ^ 2 ≤ 1 := by have := pow_le_pow_left₀ (norm_nonneg _) hX 2; rwa [one_pow] at this
  have h3 : (∑ j, (x ⬝ᵥ V *ᵥ v j) ^ 2) / δ ≤ δ := by
    rw [div_le_iff₀ hδ]
    nlinarith [e V]
  have h4 : δ * ∑ j, (x ⬝ᵥ X *ᵥ v j) ^ 2 ≤ δ := by nlinarith [e X]
  linarith

/-- The difference of two unnormalised averages. -/
theorem pert_trace (hA : EigBasis A u a) (hB : EigBasis B v b) {β δ : ℝ} (hβ : 0 ≤ β) (hδ : 0 < δ) (hV : ‖B - A‖ ≤ δ) (hX : ‖X‖ ≤ 1) :
    |∑ i, Real.exp (-β * a i) * (u i ⬝ᵥ X *ᵥ u i) - ∑ j, Real.exp (-β * b j) * (v j ⬝ᵥ X *ᵥ v j)| ≤ β * δ * (∑ i, Real.exp (-β * a i) + ∑ j, Real.exp (-β * b j)) := by
  have e1 : ∀ i, u i ⬝ᵥ X *ᵥ u i = ∑ j, (v j ⬝ᵥ u i) * (u i ⬝ᵥ X *ᵥ v j) := fun i => by
    conv_lhs => rw [← hB.expand (u i), Matrix.mulVec_sum, dotProduct_sum]
    refine Finset.sum_congr rfl fun j _ => ?_
    rw [Matrix.mulVec_smul, dotProduct_smul, hB.expand, smul_eq_mul]
  have e2 : ∀ j, v j ⬝ᵥ X *ᵥ v j = ∑ i, (v j ⬝ᵥ u i) * (u i ⬝ᵥ X *ᵥ v j) := fun j => by
    conv_lhs => enter [1]; rw [← hA.expand (v j)]
    rw [sum_dotProduct]
    refine Finset.sum_congr rfl fun i _ => ?_
    rw [smul_dotProduct, smul_eq_mul, dotProduct_comm (u i) (v j)]
  have e3 : ∀ i j, (b j - a i) * (v j ⬝ᵥ u i) = u i ⬝ᵥ (B - A) *ᵥ v j := fun i j => by
    rw [Matrix.sub_mulVec, dotProduct_sub, hB.eig, hA.apply, hA.coord fun k => a k * (u k ⬝ᵥ v j), dotProduct_smul, smul_eq_mul, dotProduct_comm (v j)]
    ring
  have e4 : ∑ i, Real.exp (-β * a i) * (u i ⬝ᵥ X *ᵥ u i) - ∑ j, Real.exp (-β * b j) * (v j ⬝ᵥ X *ᵥ v j) =
      ∑ i, ∑ j, (Real.exp (-β * a i) - Real.exp (-β * b j)) * (v j ⬝ᵥ u i) * (u i ⬝ᵥ X *ᵥ v j) := by
    have s1 : ∑ i, Real.exp (-β * a i) * (u i ⬝ᵥ X *ᵥ u i) = ∑ i, ∑ j, Real.exp (-β * a i) * ((v j ⬝ᵥ u i) * (u i ⬝ᵥ X *ᵥ v j)) :=
      Finset.sum_congr rfl fun i _ => by rw [e1, Finset.mul_sum]
    have s2 : ∑ j, Real.exp (-β * b j) * (v j ⬝ᵥ X *ᵥ v j) = ∑ i, ∑ j, Real.exp (-β * b j) * ((v j ⬝ᵥ u i) * (u i ⬝ᵥ X *ᵥ v j)) := by
      rw [Finset.sum_comm]
      exact Finset.sum_congr rfl fun j _ => by rw [e2, Finset.mul_sum]
    rw [s1, s2, ← Finset.sum_sub_distrib]
    refine Finset.sum_congr rfl fun i _ => ?_
    rw [← Finset.sum_sub_distrib]
    exact Finset.sum_congr rfl fun j _ => by ring
  have h1 : ∀ i j, |(Real.exp (-β * a i) - Real.exp (-β * b j)) * (v j ⬝ᵥ u i) * (u i ⬝ᵥ X *ᵥ v j)| ≤
      β * (Real.exp (-β * a i) * (|u i ⬝ᵥ (B - A) *ᵥ v j| * |u i ⬝ᵥ X *ᵥ v j|)) + β * (Real.exp (-β * b j) * (|u i ⬝ᵥ (B - A) *ᵥ v j| * |u i ⬝ᵥ X *ᵥ v j|)) := fun i j => by
    rw [abs_mul, abs_mul, ← e3, abs_mul]
    have h := exp_diff_le hβ (a i) (b j)
    have := mul_le_mul_of_nonneg_right (mul_le_mul_of_nonneg_right h (abs_nonneg (v j ⬝ᵥ u i))) (abs_nonneg (u i ⬝ᵥ X *ᵥ v j))
    refine this.trans (le_of_eq (by ring))
  rw [e4]
  refine (Finset.abs_sum_le_sum_abs _ _).trans ((Finset.sum_le_sum fun i _ => (Finset.abs_sum_le_sum_abs _ _).trans (Finset.sum_le_sum fun j _ => h1 i j)).trans ?_)
  simp only [Finset.sum_add_distrib]
  rw [mul_add]
  refine add_le_add ?_ ?_
  · rw [Finset.mul_sum]
    refine Finset.sum_le_sum fun i _ => ?_
    rw [← Finset.mul_sum, ← Finset.mul_sum, mul_assoc, mul_comm δ]
    refine mul_le_mul_of_nonneg_left (mul_le_mul_of_nonneg_left ?_ (Real.exp_pos _).le) hβ
    exact sum_elem_le hB _ _ hδ hV hX _ (by rw [hA.orth, if_pos rfl])
  · rw [Finset.sum_comm, Finset.mul_sum]
    refine Finset.sum_le_sum fun j _ => ?_
    rw [← Finset.mul_sum, ← Finset.mul_sum, mul_assoc, mul_comm δ]
    refine mul_le_mul_of_nonneg_left (mul_le_mul_of_nonneg_left ?_ (Real.exp_pos _).le) hβ
    have ht : ∀ (W : Matrix ι ι ℝ) i, u i ⬝ᵥ W *ᵥ v j = v j ⬝ᵥ Wᵀ *ᵥ u i := fun W i => by
      rw [Matrix.dotProduct_mulVec, dotProduct_comm, Matrix.mulVec_transpose]
    simp only [ht]
    exact sum_elem_le hA _ _ hδ (by rw [opNorm_transpose]; exact hV) (by rw [opNorm_transpose]; exact hX) _ (by rw [hB.orth, if_pos rfl])

/-- The free energies differ at most by the norm of the change. -/
theorem pert_log [Nonempty κ] [Nonempty κ'] (hA : EigBasis A u a) (hB : EigBasis B v b) {β δ : ℝ} (hβ : 0 ≤ β) (hV : ‖B - A‖ ≤ δ) :
    Real.log (∑ i, Real.exp (-β * a i)) - Real.log (∑ j, Real.exp (-β * b j)) ≤ β * δ := by
  refine (gibbs_le hA hB β).trans (mul_le_mul_of_nonneg_left ?_ hβ)
  have hpos : 0 < ∑ i, Real.exp (-β * a i) := Finset.sum_pos (fun i _ => Real.exp_pos _) Finset.univ_nonempty
  rw [div_le_iff₀ hpos, Finset.mul_sum]
  refine Finset.sum_le_sum fun i _ => ?_
  rw [mul_comm δ]
  exact mul_le_mul_of_nonneg_left ((le_abs_self _).trans ((opNorm_form _ _ (by rw [hA.orth, if_pos rfl])).trans hV)) (Real.exp_pos _).le

/-- The averages of an operator of norm at most one. -/
theorem pert_avg [Nonempty κ] [Nonempty κ'] (hA : EigBasis A u a) (hB : EigBasis B v b) {β δ : ℝ} (hβ : 0 ≤ β) (hδ : 0 ≤ δ) (hV : ‖B - A‖ ≤ δ) (hX : ‖X‖ ≤ 1) :
    |(∑ i, Real.exp (-β * a i) * (u i ⬝ᵥ X *ᵥ u i)) / (∑ i, Real.exp (-β * a i)) - (∑ j, Real.exp (-β * b j) * (v j ⬝ᵥ X *ᵥ v j)) / ∑ j, Real.exp (-β * b j)| ≤
      β * δ * (1 + Real.exp (β * δ)) + (Real.exp (β * δ) - 1) := by
  have hpA : 0 < ∑ i, Real.exp (-β * a i) := Finset.sum_pos (fun i _ => Real.exp_pos _) Finset.univ_nonempty
  have hpB : 0 < ∑ j, Real.exp (-β * b j) := Finset.sum_pos (fun i _ => Real.exp_pos _) Finset.univ_nonempty
  have hT : ∀ d, δ < d → |∑ i, Real.exp (-β * a i) * (u i ⬝ᵥ X *ᵥ u i) - ∑ j, Real.exp (-β * b j) * (v j ⬝ᵥ X *ᵥ v j)| ≤ β * d * (∑ i, Real.exp (-β * a i) + ∑ j, Real.exp (-β * b j)) :=
    fun d hd => pert_trace hA hB hβ (lt_of_le_of_lt hδ hd) (hV.trans hd.le) hX
  have hT : |∑ i, Real.exp (-β * a i) * (u i ⬝ᵥ X *ᵥ u i) - ∑ j, Real.exp (-β * b j) * (v j ⬝ᵥ X *ᵥ v j)| ≤ β * δ * (∑ i, Real.exp (-β * a i) + ∑ j, Real.exp (-β * b j)) := by
    refine le_of_forall_pos_le_add fun ε hε => ?_
    rcases hβ.eq_or_lt with rfl | hβ
    · have := hT (δ + 1) (by linarith)
      simp only [zero_mul] at this ⊢
      linarith
    · have hq : 0 < ε / (β * (∑ i, Real.exp (-β * a i) + ∑ j, Real.exp (-β * b j))) := by positivity
      have := hT (δ + ε / (β * (∑ i, Real.exp (-β * a i) + ∑ j, Real.exp (-β * b j)))) (by linarith)
      refine this.trans (le_of_eq ?_)
      field_simp
  have l1 := pert_log hA hB hβ hV
  have l2 := pert_log hB hA hβ (δ := δ) (by rw [← norm_neg, neg_sub]; exact hV)
  have hBq : |∑ j, Real.exp (-β * b j) * (v j ⬝ᵥ X *ᵥ v j)| ≤ ∑ j, Real.exp (-β * b j) := by
    refine (Finset.abs_sum_le_sum_abs _ _).trans (Finset.sum_le_sum fun j _ => ?_)
    rw [abs_mul, abs_of_pos (Real.exp_pos _)]
    exact mul_le_of_le_one_right (Real.exp_pos _).le ((opNorm_form _ _ (by rw [hB.orth, if_pos rfl])).trans hX)
  generalize (∑ i, Real.exp (-β * a i) * (u i ⬝ᵥ X *ᵥ u i)) = SA at *
  generalize (∑ j, Real.exp (-β * b j) * (v j ⬝ᵥ X *ᵥ v j)) = SB at *
  generalize (∑ i, Real.exp (-β * a i)) = ZA at *
  generalize (∑ j, Real.exp (-β * b j)) = ZB at *
  have r1 : ZB ≤ Real.exp (β * δ) * ZA := by
    rw [← Real.exp_log hpB, ← Real.exp_log hpA, ← Real.exp_add]
    exact Real.exp_le_exp.mpr (by linarith)
  have r2 : ZA ≤ Real.exp (β * δ) * ZB := by
    rw [← Real.exp_log hpB, ← Real.exp_log hpA, ← Real.exp_add]
    exact Real.exp_le_exp.mpr (by linarith)
  have hx1 : 1 ≤ Real.exp (β * δ) := Real.one_le_exp (by positivity)
  generalize Real.exp (β * δ) = x at *
  have hd : |ZB - ZA| ≤ (x - 1) * ZA := by
    rw [abs_le]
    constructor
    · nlinarith [mul_le_mul_of_nonneg_left r2 (by linarith : (0 : ℝ) ≤ x - 1), mul_nonneg (sub_nonneg.mpr hx1) (sub_nonneg.mpr hx1), sq_nonneg (x - 1)]
    · linarith
  have e : SA / ZA - SB / ZB = (SA - SB) / ZA + SB / ZB * ((ZB - ZA) / ZA) := by field_simp; ring
  rw [e]
  refine (abs_add_le _ _).trans (add_le_add ?_ ?_)
  · rw [abs_div, abs_of_pos hpA, div_le_iff₀ hpA]
    have : β * δ * ZB ≤ β * δ * (x * ZA) := mul_le_mul_of_nonneg_left r1 (by positivity)
    nlinarith
  · rw [abs_mul, abs_div, abs_of_pos hpB, abs_div, abs_of_pos hpA]
    have h1 : |SB| / ZB ≤ 1 := (div_le_one hpB).mpr hBq
    have h2 : |ZB - ZA| / ZA ≤ x - 1 := (div_le_iff₀ hpA).mpr hd
    have h3 : 0 ≤ |ZB - ZA| / ZA := by positivity
    nlinarith

end Edpyt
