import Verif.Proof.Thermal
import Verif.Proof.Amplitude
import Mathlib.Analysis.SpecialFunctions.Log.Basic
/-!
Gibbs' inequality between the thermal states of two symmetric matrices.
-/
namespace Edpyt
open Matrix

variable {ι κ κ' : Type} [Fintype ι] [DecidableEq ι] [Fintype κ] [DecidableEq κ] [Fintype κ'] [DecidableEq κ']
  {A B : Matrix ι ι ℝ} {u : κ → ι → ℝ} {v : κ' → ι → ℝ} {a : κ → ℝ} {b : κ' → ℝ}

/-- The norm of a vector in an eigenbasis. -/
theorem EigBasis.norm (h : EigBasis B v b) (x : ι → ℝ) : ∑ j, (v j ⬝ᵥ x) ^ 2 = x ⬝ᵥ x := by
  conv_rhs => rw [← h.expand x, dotProduct_comm, dotProduct_sum]
  refine Finset.sum_congr rfl fun k _ => ?_
  rw [dotProduct_smul, dotProduct_comm _ (v k), h.expand x, smul_eq_mul]; ring

/-- The quadratic form in an eigenbasis. -/
theorem EigBasis.form (h : EigBasis B v b) (x : ι → ℝ) : ∑ j, b j * (v j ⬝ᵥ x) ^ 2 = x ⬝ᵥ B *ᵥ x := by
  rw [h.apply, dotProduct_sum]
  refine Finset.sum_congr rfl fun k _ => ?_
  rw [dotProduct_smul, dotProduct_comm x, smul_eq_mul]; ring

theorem exp_gibbs (x y : ℝ) : Real.exp x - Real.exp y ≤ Real.exp x * (x - y) := by
  have h := Real.add_one_le_exp (y - x)
  have e : Real.exp y = Real.exp x * Real.exp (y - x) := by rw [← Real.exp_add]; ring_nf
  nlinarith [Real.exp_pos x]

theorem exp_gibbs_lt {x y : ℝ} (hxy : x ≠ y) : Real.exp x - Real.exp y < Real.exp x * (x - y) := by
  have h := Real.add_one_lt_exp (sub_ne_zero.mpr hxy.symm)
  have e : Real.exp y = Real.exp x * Real.exp (y - x) := by rw [← Real.exp_add]; ring_nf
  nlinarith [Real.exp_pos x]

/-- The overlap of two eigenbases is doubly stochastic, so that weights that sum to one cancel. -/
theorem overlap_cancel (hA : EigBasis A u a) (hB : EigBasis B v b) {x : κ → ℝ} {y : κ' → ℝ} (hx : ∑ i, Real.exp (x i) = 1) (hy : ∑ j, Real.exp (y j) = 1) :
    ∑ i, ∑ j, (v j ⬝ᵥ u i) ^ 2 * (Real.exp (x i) - Real.exp (y j)) = 0 := by
  have h1 : ∑ i, ∑ j, (v j ⬝ᵥ u i) ^ 2 * Real.exp (x i) = 1 := by
    rw [← hx]
    refine Finset.sum_congr rfl fun i _ => ?_
    rw [← Finset.sum_mul, hB.norm, hA.orth, if_pos rfl, one_mul]
  have h2 : ∑ i, ∑ j, (v j ⬝ᵥ u i) ^ 2 * Real.exp (y j) = 1 := by
    rw [Finset.sum_comm, ← hy]
    refine Finset.sum_congr rfl fun j _ => ?_
    have : ∑ i, (v j ⬝ᵥ u i) ^ 2 = 1 := by
      rw [Finset.sum_congr rfl fun i _ => by rw [dotProduct_comm (v j)], hA.norm, hB.orth, if_pos rfl]
    rw [← Finset.sum_mul, this, one_mul]
  simp only [mul_sub, Finset.sum_sub_distrib]
  rw [h1, h2, sub_self]

/-- The relative entropy of the two thermal states. -/
theorem overlap_entropy (hA : EigBasis A u a) (hB : EigBasis B v b) (β c d : ℝ) :
    ∑ i, ∑ j, (v j ⬝ᵥ u i) ^ 2 * (Real.exp (-β * a i - c) * ((-β * a i - c) - (-β * b j - d))) =
      ∑ i, Real.exp (-β * a i - c) * (β * (u i ⬝ᵥ (B - A) *ᵥ u i) + (d - c)) := by
  refine Finset.sum_congr rfl fun i _ => ?_
  have e1 := hB.form (u i)
  have e2 := hB.norm (u i)
  rw [hA.orth, if_pos rfl] at e2
  have e3 : u i ⬝ᵥ A *ᵥ u i = a i := by rw [hA.eig, dotProduct_smul, hA.orth, if_pos rfl]; simp
  rw [Matrix.sub_mulVec, dotProduct_sub, e3, ← e1]
  have : ∑ j, (v j ⬝ᵥ u i) ^ 2 * (Real.exp (-β * a i - c) * ((-β * a i - c) - (-β * b j - d))) =
      Real.exp (-β * a i - c) * (β * ∑ j, b j * (v j ⬝ᵥ u i) ^ 2 + (-β * a i - c + d) * ∑ j, (v j ⬝ᵥ u i) ^ 2) := by
    rw [Finset.mul_sum, Finset.mul_sum, ← Finset.sum_add_distrib, Finset.mul_sum]
    exact Finset.sum_congr rfl fun j _ => by ring
  rw [this, e2]
  ring

theorem exp_norm [Nonempty κ] (β : ℝ) (a : κ → ℝ) : ∑ i, Real.exp (-β * a i - Real.log (∑ i, Real.exp (-β * a i))) = 1 := by
  have hpos : 0 < ∑ i, Real.exp (-β * a i) := Finset.sum_pos (fun i _ => Real.exp_pos _) Finset.univ_nonempty
  simp only [Real.exp_sub, Real.exp_log hpos]
  rw [← Finset.sum_div, div_self hpos.ne']

theorem exp_avg [Nonempty κ] (β : ℝ) (a q : κ → ℝ) (c : ℝ) :
    ∑ i, Real.exp (-β * a i - Real.log (∑ i, Real.exp (-β * a i))) * (β * q i + c) = β * ((∑ i, Real.exp (-β * a i) * q i) / ∑ i, Real.exp (-β * a i)) + c := by
  have hpos : 0 < ∑ i, Real.exp (-β * a i) := Finset.sum_pos (fun i _ => Real.exp_pos _) Finset.univ_nonempty
  have h1 := exp_norm β a
  simp only [mul_add, Finset.sum_add_distrib]
  rw [← Finset.sum_mul, h1, one_mul]
  congr 1
  simp only [Real.exp_sub, Real.exp_log hpos]
  rw [Finset.sum_div, Finset.mul_sum]
  exact Finset.sum_congr rfl fun i _ => by ring

/-- Gibbs' (Bogoliubov's) inequality. -/
theorem gibbs_le [Nonempty κ] [Nonempty κ'] (hA : EigBasis A u a) (hB : EigBasis B v b) (β : ℝ) :
    Real.log (∑ i, Real.exp (-β * a i)) - Real.log (∑ j, Real.exp (-β * b j)) ≤
      β * ((∑ i, Real.exp (-β * a i) * (u i ⬝ᵥ (B - A) *ᵥ u i)) / ∑ i, Real.exp (-β * a i)) := by
  have h0 := overlap_cancel hA hB (exp_norm β a) (exp_norm β b)
  have h1 := overlap_entropy hA hB β (Real.log (∑ i, Real.exp (-β * a i))) (Real.log (∑ j, Real.exp (-β * b j)))
  rw [exp_avg] at h1
  have h2 : ∑ i, ∑ j, (v j ⬝ᵥ u i) ^ 2 * (Real.exp (-β * a i - Real.log (∑ i, Real.exp (-β * a i))) - Real.exp (-β * b j - Real.log (∑ j, Real.exp (-β * b j)))) ≤ _ :=
    Finset.sum_le_sum fun i _ => Finset.sum_le_sum fun j _ => mul_le_mul_of_nonneg_left (exp_gibbs _ _) (sq_nonneg (v j ⬝ᵥ u i))
  rw [h0, h1] at h2
  linarith

/-- Gibbs' inequality is strict unless the matrices differ by a multiple of the identity. -/
theorem gibbs_lt [Nonempty κ] [Nonempty κ'] (hA : EigBasis A u a) (hB : EigBasis B v b) {β : ℝ} (hβ : β ≠ 0) (hne : ∀ c : ℝ, ∃ x, B *ᵥ x ≠ A *ᵥ x + c • x) :
    Real.log (∑ i, Real.exp (-β * a i)) - Real.log (∑ j, Real.exp (-β * b j)) <
      β * ((∑ i, Real.exp (-β * a i) * (u i ⬝ᵥ (B - A) *ᵥ u i)) / ∑ i, Real.exp (-β * a i)) := by
  have h0 := overlap_cancel hA hB (exp_norm β a) (exp_norm β b)
  have h1 := overlap_entropy hA hB β (Real.log (∑ i, Real.exp (-β * a i))) (Real.log (∑ j, Real.exp (-β * b j)))
  rw [exp_avg] at h1
  set lA := Real.log (∑ i, Real.exp (-β * a i))
  set lB := Real.log (∑ j, Real.exp (-β * b j))
  obtain ⟨i, j, hp, hij⟩ : ∃ i j, v j ⬝ᵥ u i ≠ 0 ∧ -β * a i - lA ≠ -β * b j - lB := by
    by_contra hcon
    push Not at hcon
    obtain ⟨x, hx⟩ := hne ((lA - lB) / β)
    apply hx
    have key : ∀ j, B *ᵥ v j = A *ᵥ v j + ((lA - lB) / β) • v j := fun j => by
      rw [hB.eig, hA.apply]
      conv_lhs => rw [← hA.expand (v j)]
      conv_rhs => rw [← hA.expand (v j)]
      rw [Finset.smul_sum, Finset.smul_sum, ← Finset.sum_add_distrib]
      refine Finset.sum_congr rfl fun i _ => ?_
      rw [hA.expand]
      rw [smul_smul, smul_smul, ← add_smul]
      congr 1
      by_cases hz : v j ⬝ᵥ u i = 0
      · rw [dotProduct_comm (u i), hz]; ring
      · have := hcon i j hz
        have hb : b j = a i + (lA - lB) / β := by field_simp; linarith
        rw [hb]; ring
    rw [← hB.expand x]
    simp only [Matrix.mulVec_sum, Matrix.mulVec_smul, key]
    rw [Finset.smul_sum, ← Finset.sum_add_distrib]
    refine Finset.sum_congr rfl fun j _ => ?_
    rw [smul_add, smul_smul, smul_smul, mul_comm]
  have h2 : ∑ i, ∑ j, (v j ⬝ᵥ u i) ^ 2 * (Real.exp (-β * a i - lA) - Real.exp (-β * b j - lB)) <
      ∑ i, ∑ j, (v j ⬝ᵥ u i) ^ 2 * (Real.exp (-β * a i - lA) * ((-β * a i - lA) - (-β * b j - lB))) :=
    Finset.sum_lt_sum (fun i _ => Finset.sum_le_sum fun j _ => mul_le_mul_of_nonneg_left (exp_gibbs _ _) (sq_nonneg (v j ⬝ᵥ u i)))
      ⟨i, Finset.mem_univ _, Finset.sum_lt_sum (fun j _ => mul_le_mul_of_nonneg_left (exp_gibbs _ _) (sq_nonneg (v j ⬝ᵥ u i)))
        ⟨j, Finset.mem_univ _, mul_lt_mul_of_pos_left (exp_gibbs_lt hij) (by positivity)⟩⟩
  rw [h0, h1] at h2
  linarith

end Edpyt
