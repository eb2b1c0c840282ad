import Verif.Spec.Resolvent
import Mathlib.LinearAlgebra.Matrix.Symmetric
import Mathlib.LinearAlgebra.Matrix.ToLinearEquiv
import Mathlib.Data.Complex.BigOperators
import Mathlib.Tactic.Ring
import Mathlib.Tactic.Linarith
import Mathlib.Tactic.FieldSimp
/-!
Solving `(z - H) x = y` for a real symmetric matrix and non-real `z`.
-/
namespace Edpyt
open Matrix Spec

variable {ι : Type} [Fintype ι] [DecidableEq ι]

/-- A real symmetric matrix has no non-real eigenvalue. -/
theorem nonreal_inj {H : Matrix ι ι ℝ} (hH : H.IsSymm) {z : ℂ} (hz : z.im ≠ 0) {x : ι → ℂ}
    (h : ∀ i, z * x i = ∑ j, (H i j : ℂ) * x j) : x = 0 := by
  have h1 : z * ∑ i, (Complex.normSq (x i) : ℂ) = ∑ i, ∑ j, (H i j : ℂ) * ((starRingEnd ℂ) (x i) * x j) := by
    rw [Finset.mul_sum]
    refine Finset.sum_congr rfl fun i _ => ?_
    rw [Complex.normSq_eq_conj_mul_self, mul_left_comm, h i, Finset.mul_sum]
    exact Finset.sum_congr rfl fun j _ => by ring
  have him : (∑ i, ∑ j, (H i j : ℂ) * ((starRingEnd ℂ) (x i) * x j)).im = 0 := by
    have e : (∑ i, ∑ j, (H i j : ℂ) * ((starRingEnd ℂ) (x i) * x j)).im
        = ∑ i, ∑ j, H i j * ((x i).re * (x j).im) - ∑ i, ∑ j, H i j * ((x j).re * (x i).im) := by
      rw [Complex.im_sum, ← Finset.sum_sub_distrib]
      refine Finset.sum_congr rfl fun i _ => ?_
      rw [Complex.im_sum, ← Finset.sum_sub_distrib]
      refine Finset.sum_congr rfl fun j _ => ?_
      simp
      ring
    rw [e, sub_eq_zero, Finset.sum_comm]
    refine Finset.sum_congr rfl fun i _ => Finset.sum_congr rfl fun j _ => ?_
    rw [hH.apply]
  have h2 : z.im * ∑ i, Complex.normSq (x i) = 0 := by
    rw [← h1] at him
    rw [← Complex.ofReal_sum, Complex.mul_im] at him
    simpa [mul_comm] using him
  have h3 : ∑ i, Complex.normSq (x i) = 0 := (mul_eq_zero.mp h2).resolve_left hz
  funext i
  exact Complex.normSq_eq_zero.mp ((Finset.sum_eq_zero_iff_of_nonneg fun i _ => Complex.normSq_nonneg _).mp h3 i (Finset.mem_univ i))

theorem shifted_mulVec (z : ℂ) (H : Matrix ι ι ℝ) (x : ι → ℂ) (i : ι) :
    ((z • (1 : Matrix ι ι ℂ) - H.map Complex.ofReal) *ᵥ x) i = z * x i - ∑ j, (H i j : ℂ) * x j := by
  rw [Matrix.sub_mulVec, Pi.sub_apply, Matrix.smul_mulVec, Matrix.one_mulVec]
  simp [Matrix.mulVec, dotProduct]

theorem isUnit_shifted {H : Matrix ι ι ℝ} (hH : H.IsSymm) {z : ℂ} (hz : z.im ≠ 0) :
    IsUnit (z • (1 : Matrix ι ι ℂ) - H.map Complex.ofReal).det := by
  rw [isUnit_iff_ne_zero]
  intro h0
  obtain ⟨v, hv, hv0⟩ := Matrix.exists_mulVec_eq_zero_iff.mpr h0
  apply hv
  apply nonreal_inj hH hz
  intro i
  have := congrFun hv0 i
  rw [shifted_mulVec] at this
  exact sub_eq_zero.mp this

/-- Whoever solves `(z - H) x = y` has found `resolvent z H *ᵥ y`. -/
theorem resolvent_mulVec {H : Matrix ι ι ℝ} (hH : H.IsSymm) {z : ℂ} (hz : z.im ≠ 0) {x y : ι → ℂ}
    (h : ∀ i, z * x i - ∑ j, (H i j : ℂ) * x j = y i) : resolvent z H *ᵥ y = x := by
  have : y = (z • (1 : Matrix ι ι ℂ) - H.map Complex.ofReal) *ᵥ x := by
    funext i; rw [shifted_mulVec, h]
  rw [this, Matrix.mulVec_mulVec, resolvent, Matrix.nonsing_inv_mul _ (isUnit_shifted hH hz), Matrix.one_mulVec]

/-- Uniqueness of the solution. -/
theorem solve_unique {H : Matrix ι ι ℝ} (hH : H.IsSymm) {z : ℂ} (hz : z.im ≠ 0) {x x' y : ι → ℂ}
    (h : ∀ i, z * x i - ∑ j, (H i j : ℂ) * x j = y i) (h' : ∀ i, z * x' i - ∑ j, (H i j : ℂ) * x' j = y i) : x = x' := by
  rw [← resolvent_mulVec hH hz h, ← resolvent_mulVec hH hz h']

/-- Sum over a row of a tridiagonal matrix. -/
theorem tridiag_row {m : ℕ} (a b : ℕ → ℝ) {K : Type} [CommRing K] (f : ℝ →+* K) (x : ℕ → K) (i : Fin m) :
    ∑ j : Fin m, f (tridiag m a b i j) * x j =
      (if (i : ℕ) = 0 then 0 else f (b i) * x (i - 1)) + f (a i) * x i + (if (i : ℕ) + 1 = m then 0 else f (b (i + 1)) * x (i + 1)) := by
  have hterm : ∀ j : Fin m, f (tridiag m a b i j) * x j =
      (if (j : ℕ) + 1 = i then f (b i) * x j else 0) + (if i = j then f (a i) * x i else 0)
        + (if (i : ℕ) + 1 = j then f (b j) * x j else 0) := by
    intro j
    simp only [tridiag, Matrix.of_apply]
    by_cases h1 : i = j
    · subst h1; simp
    · by_cases h2 : (i : ℕ) + 1 = j
      · have : ¬ ((j : ℕ) + 1 = i) := by omega
        simp [h1, h2, this]
      · by_cases h3 : (j : ℕ) + 1 = i
        · simp [h1, h2, h3]
        · simp [h1, h2, h3]
  simp only [hterm, Finset.sum_add_distrib]
  congr 1
  · congr 1
    · by_cases h : (i : ℕ) = 0
      · rw [if_pos h]
        refine Finset.sum_eq_zero fun j _ => if_neg (by omega)
      · rw [if_neg h, Finset.sum_eq_single (⟨i - 1, by omega⟩ : Fin m)]
        · rw [if_pos (by simp; omega)]
        · intro j _ hj
          refine if_neg fun hc => hj ?_
          ext; simp; omega
        · simp
    · simp
  · by_cases h : (i : ℕ) + 1 = m
    · rw [if_pos h]
      refine Finset.sum_eq_zero fun j _ => if_neg (by omega)
    · rw [if_neg h, Finset.sum_eq_single (⟨i + 1, by omega⟩ : Fin m)]
      · simp
      · intro j _ hj
        refine if_neg fun hc => hj ?_
        ext; simp; omega
      · simp

theorem tridiag_symm (m : ℕ) (a b : ℕ → ℝ) : (tridiag m a b).IsSymm := by
  ext i j
  simp only [tridiag, Matrix.transpose_apply, Matrix.of_apply]
  by_cases h1 : i = j
  · subst h1; simp
  · rw [if_neg (Ne.symm h1), if_neg h1]
    by_cases h2 : (i : ℕ) + 1 = j
    · rw [if_pos h2, if_neg (by omega), if_pos h2]
    · rw [if_neg h2]
      by_cases h3 : (j : ℕ) + 1 = i
      · simp [h2, h3]
      · simp [h2, h3]

end Edpyt
