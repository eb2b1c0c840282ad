import Verif.Spec.Siam
import Verif.Proof.Resolvent
import Mathlib.LinearAlgebra.Matrix.ToLin
import Mathlib.Tactic
/-!
The impurity element of the resolvent of the impurity Hamiltonian.
-/
namespace Edpyt
open Spec

theorem siam_mulVec_zero {nb : ℕ} (e0 : ℝ) (e v : Fin nb → ℝ) (z : ℂ) (x : Fin (nb + 1) → ℂ) :
    ((z • (1 : Matrix _ _ ℂ) - (siam e0 e v).map Complex.ofReal).mulVec x) 0 = (z - e0) * x 0 - ∑ k : Fin nb, (v k : ℂ) * x k.succ := by
  rw [shifted_mulVec, Fin.sum_univ_succ]
  simp only [siam, Matrix.of_apply, Fin.cases_zero, Fin.cases_succ]
  ring

theorem siam_mulVec_succ {nb : ℕ} (e0 : ℝ) (e v : Fin nb → ℝ) (z : ℂ) (x : Fin (nb + 1) → ℂ) (k : Fin nb) :
    ((z • (1 : Matrix _ _ ℂ) - (siam e0 e v).map Complex.ofReal).mulVec x) k.succ = (z - e k) * x k.succ - (v k : ℂ) * x 0 := by
  rw [shifted_mulVec, Fin.sum_univ_succ]
  simp only [siam, Matrix.of_apply, Fin.cases_zero, Fin.cases_succ]
  rw [Finset.sum_eq_single k]
  · rw [if_pos rfl]; ring
  · intro l _ hl; rw [if_neg (Ne.symm hl), Complex.ofReal_zero, zero_mul]
  · simp

theorem siam_isUnit {nb : ℕ} {e0 : ℝ} {e v : Fin nb → ℝ} {z : ℂ} (hz : ∀ k, z ≠ e k) (hD : z - e0 - hybridisation e v z ≠ 0) :
    IsUnit (z • (1 : Matrix _ _ ℂ) - (siam e0 e v).map Complex.ofReal) := by
  rw [← Matrix.mulVec_injective_iff_isUnit]
  rw [← Matrix.coe_mulVecLin]
  rw [injective_iff_map_eq_zero]
  intro x hx
  rw [Matrix.coe_mulVecLin] at hx
  have h0 := congrFun hx 0
  rw [siam_mulVec_zero, Pi.zero_apply] at h0
  have hk : ∀ k : Fin nb, x k.succ = (v k : ℂ) * x 0 / (z - e k) := by
    intro k
    have h1 := congrFun hx k.succ
    rw [siam_mulVec_succ, Pi.zero_apply] at h1
    rw [eq_div_iff (sub_ne_zero.mpr (hz k))]
    linear_combination h1
  simp only [hk] at h0
  have h2 : (z - e0 - hybridisation e v z) * x 0 = 0 := by
    rw [← h0]
    unfold hybridisation
    rw [sub_mul, Finset.sum_mul]
    congr 1
    exact Finset.sum_congr rfl fun k _ => by ring
  have hx0 : x 0 = 0 := (mul_eq_zero.mp h2).resolve_left hD
  funext i
  refine Fin.cases hx0 (fun k => ?_) i
  rw [hk, hx0]; simp

theorem siam_green {nb : ℕ} {e0 : ℝ} {e v : Fin nb → ℝ} {z : ℂ} (hz : ∀ k, z ≠ e k) (hD : z - e0 - hybridisation e v z ≠ 0) :
    impurityGreen (siam e0 e v) z = (z - e0 - hybridisation e v z)⁻¹ := by
  have hu := siam_isUnit hz hD
  set M := z • (1 : Matrix _ _ ℂ) - (siam e0 e v).map Complex.ofReal with hM
  have hx : (fun i => M⁻¹ i 0) = fun i => Fin.cases ((z - e0 - hybridisation e v z)⁻¹)
      (fun k => (v k : ℂ) * (z - e0 - hybridisation e v z)⁻¹ / (z - e k)) i := by
    have hinj := Matrix.mulVec_injective_iff_isUnit.mpr hu
    apply hinj
    have e1 : M.mulVec (fun i => M⁻¹ i 0) = fun i => if i = 0 then 1 else 0 := by
      have : M * M⁻¹ = 1 := Matrix.mul_nonsing_inv _ ((Matrix.isUnit_iff_isUnit_det _).mp hu)
      funext i
      have h := congrFun (congrFun this i) 0
      rw [Matrix.one_apply] at h
      exact h
    rw [e1]
    funext i
    refine Fin.cases ?_ (fun k => ?_) i
    · rw [hM, siam_mulVec_zero]
      simp only [Fin.cases_zero, Fin.cases_succ, if_true]
      have : ∑ k : Fin nb, (v k : ℂ) * ((v k : ℂ) * (z - e0 - hybridisation e v z)⁻¹ / (z - e k))
          = hybridisation e v z * (z - e0 - hybridisation e v z)⁻¹ := by
        generalize (z - e0 - hybridisation e v z)⁻¹ = w
        rw [hybridisation, Finset.sum_mul]
        exact Finset.sum_congr rfl fun k _ => by ring
      rw [this, ← sub_mul, mul_inv_cancel₀ hD]
    · rw [hM, siam_mulVec_succ]
      simp only [Fin.cases_zero, Fin.cases_succ, if_neg (Fin.succ_ne_zero k)]
      rw [mul_div_cancel₀ _ (sub_ne_zero.mpr (hz k)), sub_self]
  have := congrFun hx 0
  exact this

/-- Off the real axis nothing vanishes. -/
theorem siam_nonreal {nb : ℕ} (e0 : ℝ) (e v : Fin nb → ℝ) {z : ℂ} (hz : z.im ≠ 0) :
    (∀ k, z ≠ e k) ∧ z - e0 - hybridisation e v z ≠ 0 := by
  have h1 : ∀ k, z ≠ e k := by
    intro k h
    apply hz
    rw [h, Complex.ofReal_im]
  refine ⟨h1, fun h => ?_⟩
  have him : ∀ k, ((v k : ℂ) ^ 2 / (z - e k)).im = -(z.im * (v k ^ 2 / Complex.normSq (z - e k))) := by
    intro k
    rw [div_eq_mul_inv, ← Complex.ofReal_pow, Complex.im_ofReal_mul, Complex.inv_im, Complex.sub_im, Complex.ofReal_im]
    ring
  have h2 := congrArg Complex.im h
  rw [Complex.sub_im, Complex.sub_im, Complex.ofReal_im, hybridisation, Complex.im_sum, Complex.zero_im] at h2
  simp only [him] at h2
  rw [Finset.sum_neg_distrib, ← Finset.mul_sum] at h2
  have h3 : 0 ≤ ∑ k, v k ^ 2 / Complex.normSq (z - e k) := Finset.sum_nonneg fun k _ => div_nonneg (sq_nonneg _) (Complex.normSq_nonneg _)
  have h4 : z.im * (1 + ∑ k, v k ^ 2 / Complex.normSq (z - e k)) = 0 := by linarith
  rcases mul_eq_zero.mp h4 with h5 | h5
  · exact hz h5
  · linarith

end Edpyt
