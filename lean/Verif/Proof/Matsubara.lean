import Verif.Spec.Entropy
import Mathlib.Analysis.SpecialFunctions.Trigonometric.Cotangent
import Mathlib.Analysis.SpecialFunctions.Trigonometric.DerivHyp
/-!
The Matsubara sum of the Fermi function.
-/
namespace Edpyt

open Complex Filter

theorem cot_sub_half (y : ℂ) (hs : Complex.sin y ≠ 0) (hc : Complex.cos y ≠ 0) : Complex.cot (2 * y) - Complex.cot y / 2 = -(Complex.tan y / 2) := by
  unfold Complex.cot Complex.tan
  rw [Complex.cos_two_mul, Complex.sin_two_mul]
  have := Complex.sin_sq_add_cos_sq y
  field_simp
  linear_combination this

theorem imag_mem_compl {t : ℝ} (ht : t ≠ 0) : (t : ℂ) * I ∈ Complex.integerComplement := by
  rintro ⟨n, hn⟩
  have := congrArg Complex.im hn
  simp at this
  exact ht this.symm

/-- Partial fractions of the hyperbolic tangent. -/
theorem hasSum_tanh {t : ℝ} (ht : t ≠ 0) : HasSum (fun k : ℕ => 2 * t / (t ^ 2 + (2 * (k : ℝ) + 1) ^ 2)) (Real.pi / 2 * Real.tanh (Real.pi * t / 2)) := by
  have hz := imag_mem_compl ht
  have hz2 := imag_mem_compl (t := t / 2) (by positivity)
  have h1 : HasSum (fun n => cotTerm (t * I) n) (Real.pi * Complex.cot (Real.pi * (t * I)) - 1 / (t * I)) :=
    (Summable.hasSum_iff_tendsto_nat (summable_cotTerm hz)).mpr (tendsto_logDeriv_euler_cot_sub hz)
  have h2 : HasSum (fun n => cotTerm ((t / 2 : ℝ) * I) n) (Real.pi * Complex.cot (Real.pi * ((t / 2 : ℝ) * I)) - 1 / ((t / 2 : ℝ) * I)) :=
    (Summable.hasSum_iff_tendsto_nat (summable_cotTerm hz2)).mpr (tendsto_logDeriv_euler_cot_sub hz2)
  have hodd : Summable fun k => cotTerm (t * I) (2 * k) := (summable_cotTerm hz).comp_injective (i := fun k : ℕ => 2 * k) fun a b h => by simpa using h
  have heven : HasSum (fun k => cotTerm (t * I) (2 * k + 1)) ((Real.pi * Complex.cot (Real.pi * ((t / 2 : ℝ) * I)) - 1 / ((t / 2 : ℝ) * I)) / 2) := by
    refine (h2.div_const 2).congr_fun fun k => ?_
    rw [cotTerm_identity hz, cotTerm_identity hz2]
    have hI : (I : ℂ) ^ 2 = -1 := Complex.I_sq
    have hne : ((t : ℂ) * I + ((2 * k + 1 : ℕ) + 1)) * (t * I - ((2 * k + 1 : ℕ) + 1)) = -((t ^ 2 + (2 * k + 2) ^ 2 : ℝ) : ℂ) := by
      push_cast; linear_combination (t : ℂ) ^ 2 * hI
    have hne2 : (((t / 2 : ℝ) : ℂ) * I + (k + 1)) * ((t / 2 : ℝ) * I - (k + 1)) = -((t ^ 2 + (2 * k + 2) ^ 2 : ℝ) : ℂ) / 4 := by
      push_cast; linear_combination (t : ℂ) ^ 2 / 4 * hI
    rw [hne, hne2]
    have : ((t ^ 2 + (2 * k + 2) ^ 2 : ℝ) : ℂ) ≠ 0 := by
      rw [Complex.ofReal_ne_zero]; positivity
    field_simp
    push_cast
    ring
  have huniq := (hodd.hasSum.even_add_odd heven).unique h1
  have hy : (Real.pi : ℂ) * ((t / 2 : ℝ) * I) = ((Real.pi * t / 2 : ℝ) : ℂ) * I := by push_cast; ring
  have hy2 : (Real.pi : ℂ) * (t * I) = 2 * (((Real.pi * t / 2 : ℝ) : ℂ) * I) := by push_cast; ring
  have hy0 : Real.pi * t / 2 ≠ 0 := by have := Real.pi_ne_zero; positivity
  have hs : Complex.sin (((Real.pi * t / 2 : ℝ) : ℂ) * I) ≠ 0 := by
    rw [Complex.sin_mul_I, ← Complex.ofReal_sinh]
    exact mul_ne_zero (Complex.ofReal_ne_zero.mpr fun h => hy0 (Real.sinh_eq_zero.mp h)) Complex.I_ne_zero
  have hc : Complex.cos (((Real.pi * t / 2 : ℝ) : ℂ) * I) ≠ 0 := by
    rw [Complex.cos_mul_I, ← Complex.ofReal_cosh]
    exact Complex.ofReal_ne_zero.mpr (Real.cosh_pos _).ne'
  have hcot := cot_sub_half _ hs hc
  rw [Complex.tan_mul_I, ← Complex.ofReal_tanh] at hcot
  have hval : ∑' k, cotTerm (t * I) (2 * k) = -(((Real.pi / 2 * Real.tanh (Real.pi * t / 2) : ℝ) : ℂ) * I) := by
    rw [hy, hy2] at huniq
    have ht' : (t : ℂ) ≠ 0 := Complex.ofReal_ne_zero.mpr ht
    have : (1 : ℂ) / ((t / 2 : ℝ) * I) = 2 * (1 / (t * I)) := by
      push_cast
      field_simp [Complex.I_ne_zero]
    rw [this] at huniq
    push_cast at huniq hcot ⊢
    linear_combination huniq + (Real.pi : ℂ) * hcot
  have hsum := hodd.hasSum
  rw [hval] at hsum
  have hterm : ∀ k : ℕ, cotTerm (t * I) (2 * k) = -(((2 * t / (t ^ 2 + (2 * (k : ℝ) + 1) ^ 2) : ℝ) : ℂ) * I) := fun k => by
    rw [cotTerm_identity hz]
    have hI : (I : ℂ) ^ 2 = -1 := Complex.I_sq
    have hne : ((t : ℂ) * I + ((2 * k : ℕ) + 1)) * (t * I - ((2 * k : ℕ) + 1)) = -((t ^ 2 + (2 * k + 1) ^ 2 : ℝ) : ℂ) := by
      push_cast; linear_combination (t : ℂ) ^ 2 * hI
    rw [hne]
    have : ((t ^ 2 + (2 * k + 1) ^ 2 : ℝ) : ℂ) ≠ 0 := by
      rw [Complex.ofReal_ne_zero]; positivity
    push_cast at this ⊢
    field_simp
  simp only [hterm] at hsum
  have him := (Complex.hasSum_im hsum.neg)
  simp only [Complex.neg_im, Complex.re_ofReal_mul, Complex.im_ofReal_mul, Complex.I_im, mul_one, neg_neg] at him
  exact him

/-- The Fermi function as a sum over Matsubara frequencies. -/
theorem hasSum_fermi {β : ℝ} (hβ : 0 < β) (x : ℝ) :
    HasSum (fun k : ℕ => x / (((2 * (k : ℝ) + 1) * Real.pi / β) ^ 2 + x ^ 2)) (β / 2 * (1 / 2 - Spec.fermiOcc β x)) := by
  have hf : 1 / 2 - Spec.fermiOcc β x = 1 / 2 * Real.tanh (β * x / 2) := by
    rw [Spec.fermiOcc, Real.tanh_eq_sinh_div_cosh, Real.sinh_eq, Real.cosh_eq, show β * x = β * x / 2 + β * x / 2 by ring, Real.exp_add]
    rw [show (β * x / 2 + β * x / 2) / 2 = β * x / 2 by ring, Real.exp_neg]
    have := Real.exp_pos (β * x / 2)
    field_simp
    ring
  by_cases hx : x = 0
  · subst hx
    simp [Spec.fermiOcc]
    norm_num
  have hpi := Real.pi_pos
  have h := (hasSum_tanh (t := β * x / Real.pi) (by positivity)).mul_left (β / (2 * Real.pi))
  rw [hf]
  have e1 : (fun k : ℕ => x / (((2 * (k : ℝ) + 1) * Real.pi / β) ^ 2 + x ^ 2)) =
      fun k : ℕ => β / (2 * Real.pi) * (2 * (β * x / Real.pi) / ((β * x / Real.pi) ^ 2 + (2 * (k : ℝ) + 1) ^ 2)) := by
    funext k
    have h1 : (β * x / Real.pi) ^ 2 + (2 * (k : ℝ) + 1) ^ 2 ≠ 0 := by positivity
    have h2 : ((2 * (k : ℝ) + 1) * Real.pi / β) ^ 2 + x ^ 2 ≠ 0 := by positivity
    rw [mul_div_assoc', div_eq_div_iff h2 h1]
    field_simp
    ring
  have e2 : β / 2 * (1 / 2 * Real.tanh (β * x / 2)) = β / (2 * Real.pi) * (Real.pi / 2 * Real.tanh (Real.pi * (β * x / Real.pi) / 2)) := by
    rw [show Real.pi * (β * x / Real.pi) / 2 = β * x / 2 by field_simp]
    field_simp
  rw [e1, e2]
  exact h

end Edpyt
