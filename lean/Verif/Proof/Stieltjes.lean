import Verif.Proof.Moment2
import Verif.Props.Pdisplay
import Verif.Props.Stable
/-!
# Sums of poles: their integral, and the pole representation of the inverse
-/
namespace Edpyt
open Spec Matrix MeasureTheory

section
variable {κ : Type} [Fintype κ]

/-- `-Im/π` of a sum of poles with real weights, shifted off the real axis. -/
theorem pole_integral (w p : κ → ℝ) {η : ℝ} (hη : 0 < η) :
    Integrable (fun e : ℝ => -(∑ k, (w k : ℂ) / ((e : ℂ) + Complex.I * η - p k)).im / Real.pi) ∧
    ∫ e : ℝ, -(∑ k, (w k : ℂ) / ((e : ℂ) + Complex.I * η - p k)).im / Real.pi = ∑ k, w k := by
  have key : ∀ e : ℝ, -(∑ k, (w k : ℂ) / ((e : ℂ) + Complex.I * η - p k)).im / Real.pi = ∑ k, w k * lorentzian Real.pi (2 * η) (p k) e := fun e => by
    rw [Complex.im_sum, ← Finset.sum_neg_distrib, Finset.sum_div]
    refine Finset.sum_congr rfl fun k _ => ?_
    have h2 : (0 : ℝ) < 2 * η := by linarith
    rw [(C163_lorentzian h2 (p k)).2.2.2.2.2.2 e]
    have e1 : (e : ℂ) + Complex.I * η - p k = (e : ℂ) - p k + Complex.I * ((2 * η / 2 : ℝ) : ℂ) := by push_cast; ring
    rw [e1, ← mul_one_div (w k : ℂ), Complex.im_ofReal_mul]
    ring
  have hi : ∀ k, Integrable (fun e => w k * lorentzian Real.pi (2 * η) (p k) e) := fun k => (C163_lorentzian (by linarith) (p k)).2.1.const_mul _
  simp only [key]
  refine ⟨integrable_finset_sum _ fun k _ => hi k, ?_⟩
  rw [integral_finset_sum _ fun k _ => hi k]
  refine Finset.sum_congr rfl fun k _ => ?_
  rw [integral_const_mul, (C163_lorentzian (by linarith) (p k)).2.2.1, mul_one]

/-- The integral over a window which contains all poles with a margin. -/
theorem pole_window (w p : κ → ℝ) (hw : ∀ k, 0 ≤ w k) {η : ℝ} (hη : 0 < η) {lo hi d : ℝ} (hp : ∀ k, lo + d ≤ p k ∧ p k ≤ hi - d) :
    (∑ k, w k) * (2 / Real.pi * Real.arctan (d / η)) ≤ ∫ e in lo..hi, -(∑ k, (w k : ℂ) / ((e : ℂ) + Complex.I * η - p k)).im / Real.pi := by
  have hpi := Real.pi_pos
  have key : ∀ e : ℝ, HasDerivAt (fun e => ∑ k, w k * (Real.arctan ((e - p k) / η) / Real.pi)) (-(∑ k, (w k : ℂ) / ((e : ℂ) + Complex.I * η - p k)).im / Real.pi) e := fun e => by
    rw [Complex.im_sum, ← Finset.sum_neg_distrib, Finset.sum_div]
    refine HasDerivAt.fun_sum fun k _ => ?_
    have h1 : HasDerivAt (fun e : ℝ => (e - p k) / η) (1 / η) e := ((hasDerivAt_id e).sub_const (p k)).div_const η
    refine (((h1.arctan).div_const Real.pi).const_mul (w k)).congr_deriv ?_
    have e1 : (e : ℂ) + Complex.I * η - p k = ((e - p k : ℝ) : ℂ) + (η : ℂ) * Complex.I := by push_cast; ring
    rw [e1, Complex.div_im]
    simp only [Complex.ofReal_re, Complex.ofReal_im, Complex.normSq_add_mul_I, Complex.add_im, Complex.add_re, Complex.mul_im, Complex.mul_re, Complex.I_im, Complex.I_re]
    have : (e - p k) ^ 2 + η ^ 2 ≠ 0 := by positivity
    have h3 : 1 + ((e - p k) / η) ^ 2 ≠ 0 := by positivity
    field_simp
    ring
  have hint : IntervalIntegrable (fun e : ℝ => -(∑ k, (w k : ℂ) / ((e : ℂ) + Complex.I * η - p k)).im / Real.pi) volume lo hi := (pole_integral w p hη).1.intervalIntegrable
  rw [intervalIntegral.integral_eq_sub_of_hasDerivAt (fun e _ => key e) hint, ← Finset.sum_sub_distrib, Finset.sum_mul]
  refine Finset.sum_le_sum fun k _ => ?_
  have a1 : Real.arctan (d / η) ≤ Real.arctan ((hi - p k) / η) := Real.arctan_strictMono.monotone (by gcongr; linarith [(hp k).2])
  have a2 : Real.arctan ((lo - p k) / η) ≤ -Real.arctan (d / η) := by
    rw [← Real.arctan_neg, ← neg_div]
    exact Real.arctan_strictMono.monotone (by gcongr; linarith [(hp k).1])
  rw [← mul_sub, ← sub_div]
  refine mul_le_mul_of_nonneg_left ?_ (hw k)
  rw [div_mul_eq_mul_div]
  gcongr
  linarith
end

section
variable {ι : Type} [Fintype ι] [DecidableEq ι]

/-- The inverse of a normalised sum of poles is `z - m` minus a sum of poles. -/
theorem inverse_poles (w p : ι → ℝ) (hw : ∀ k, 0 ≤ w k) (h1 : ∑ k, w k = 1) :
    ∃ w' p' : ι → ℝ, (∀ k, 0 ≤ w' k) ∧ (∑ k, w' k = ∑ k, w k * p k ^ 2 - (∑ k, w k * p k) ^ 2) ∧
      ∀ z : ℂ, z.im ≠ 0 → (∑ k, (w k : ℂ) / (z - p k))⁻¹ = z - ((∑ k, w k * p k : ℝ) : ℂ) - ∑ k, (w' k : ℂ) / (z - p' k) := by
  let v : ι → ℝ := fun i => Real.sqrt (w i)
  have hv : ∀ i, v i * v i = w i := fun i => Real.mul_self_sqrt (hw i)
  set m := ∑ k, w k * p k with hm
  have hv1 : ∑ i, v i * v i = 1 := by rw [← h1]; exact Finset.sum_congr rfl fun i _ => hv i
  have hvm : ∑ i, v i * (p i * v i) = m := by rw [hm]; exact Finset.sum_congr rfl fun i _ => by rw [← hv i]; ring
  let b : ι → ℝ := fun i => p i * v i - m * v i
  let N : Matrix ι ι ℝ := Matrix.of fun i j => (if i = j then p i else 0) - v i * (p j * v j) - p i * v i * v j + m * v i * v j
  have hN : Nᵀ = N := by
    ext i j
    simp only [N, Matrix.transpose_apply, Matrix.of_apply]
    by_cases h : i = j
    · rw [h]
    · rw [if_neg h, if_neg (Ne.symm h)]; ring
  obtain ⟨u, E, hb⟩ := EigBasis.of_symm hN
  have hvb : ∑ i, v i * b i = 0 := by
    simp only [b, mul_sub, Finset.sum_sub_distrib]
    rw [hvm, show ∑ i, v i * (m * v i) = m * ∑ i, v i * v i by rw [Finset.mul_sum]; exact Finset.sum_congr rfl fun i _ => by ring, hv1, mul_one, sub_self]
  refine ⟨fun k => (u k ⬝ᵥ b) ^ 2, E, fun k => sq_nonneg _, ?_, fun z hz => ?_⟩
  · rw [hb.norm b]
    have e : b ⬝ᵥ b = ∑ k, (w k * p k ^ 2 - 2 * m * (w k * p k) + m ^ 2 * w k) := Finset.sum_congr rfl fun i _ => by simp only [b]; rw [← hv i]; ring
    rw [e, Finset.sum_add_distrib, Finset.sum_sub_distrib, ← Finset.mul_sum, ← Finset.mul_sum, h1, ← hm]
    ring
  · have hE : ∀ r : ℝ, z - (r : ℂ) ≠ 0 := fun r h0 => hz (by simpa using congrArg Complex.im h0)
    have hz0 : z ≠ 0 := fun h0 => hz (by rw [h0]; rfl)
    let x : ι → ℂ := fun i => ∑ k, ((u k ⬝ᵥ b : ℝ) : ℂ) / (z - E k) * (u k i : ℂ)
    have hex : ∀ i, ∑ k, ((u k ⬝ᵥ b : ℝ) : ℂ) * (u k i : ℂ) = b i := fun i => by
      have := congrFun (hb.expand b) i
      rw [Finset.sum_apply] at this
      rw [← this]
      push_cast
      exact Finset.sum_congr rfl fun k _ => by simp [Pi.smul_apply]
    have hNx : ∀ i, ∑ j, (N i j : ℂ) * x j = ∑ k, ((u k ⬝ᵥ b : ℝ) : ℂ) / (z - E k) * ((E k : ℂ) * (u k i : ℂ)) := fun i => by
      simp only [x, Finset.mul_sum]
      rw [Finset.sum_comm]
      refine Finset.sum_congr rfl fun k _ => ?_
      have := congrFun (hb.eig k) i
      have e : ∑ j, (N i j : ℂ) * (u k j : ℂ) = (E k : ℂ) * (u k i : ℂ) := by
        have h2 : ∑ j, N i j * u k j = E k * u k i := this
        rw [← Complex.ofReal_mul, ← h2]
        push_cast
        rfl
      rw [← e, Finset.mul_sum]
      exact Finset.sum_congr rfl fun j _ => by ring
    have hzx : ∀ i, z * x i = ∑ j, (N i j : ℂ) * x j + b i := fun i => by
      rw [hNx, ← hex i, ← Finset.sum_add_distrib]
      simp only [x, Finset.mul_sum]
      refine Finset.sum_congr rfl fun k _ => ?_
      have := hE (E k)
      field_simp
      ring
    set V := ∑ j, (v j : ℂ) * x j with hV
    set S := ∑ j, (p j * v j : ℂ) * x j with hS
    have hNx' : ∀ i, ∑ j, (N i j : ℂ) * x j = p i * x i - v i * S - p i * v i * V + m * v i * V := fun i => by
      have : ∀ j, (N i j : ℂ) * x j = (if i = j then (p i : ℂ) * x j else 0) - v i * ((p j * v j : ℂ) * x j) - p i * v i * ((v j : ℂ) * x j) + m * v i * ((v j : ℂ) * x j) := fun j => by
        simp only [N, Matrix.of_apply]
        split_ifs <;> push_cast <;> ring
      simp only [this, Finset.sum_add_distrib, Finset.sum_sub_distrib, ← Finset.mul_sum]
      rw [← hV, ← hS, Finset.sum_ite_eq Finset.univ i]
      simp
    have hv1' : ∑ i, (v i : ℂ) * v i = 1 := by exact_mod_cast congrArg (fun r : ℝ => (r : ℂ)) hv1
    have hvm' : ∑ i, (v i : ℂ) * (p i * v i) = m := by exact_mod_cast congrArg (fun r : ℝ => (r : ℂ)) hvm
    have hV0 : V = 0 := by
      have h2 : z * V = 0 := by
        have e : ∀ i, (v i : ℂ) * (z * x i) = (p i * v i : ℂ) * x i - S * ((v i : ℂ) * v i) - V * ((v i : ℂ) * (p i * v i)) + m * V * ((v i : ℂ) * v i) + ((v i : ℂ) * (p i * v i) - m * ((v i : ℂ) * v i)) := fun i => by
          rw [hzx, hNx']
          simp only [b]
          push_cast
          ring
        have : z * V = ∑ i, (v i : ℂ) * (z * x i) := by rw [hV, Finset.mul_sum]; exact Finset.sum_congr rfl fun i _ => by ring
        rw [this, Finset.sum_congr rfl fun i _ => e i, Finset.sum_add_distrib, Finset.sum_add_distrib, Finset.sum_sub_distrib, Finset.sum_sub_distrib, Finset.sum_sub_distrib, ← Finset.mul_sum, ← Finset.mul_sum, ← Finset.mul_sum,
          ← Finset.mul_sum, hv1', hvm', ← hS]
        ring
      exact (mul_eq_zero.mp h2).resolve_left hz0
    have hF : ∀ i, (v i : ℂ) + x i = (v i : ℂ) * (z - m - S) / (z - p i) := fun i => by
      rw [eq_div_iff (hE (p i))]
      have := hzx i
      rw [hNx', hV0] at this
      have e : ((v i : ℂ) + x i) * (z - p i) = v i * z - v i * p i + (z * x i - p i * x i) := by ring
      rw [e, this]
      simp only [b]
      push_cast
      ring
    have hS' : S = ∑ k, (((u k ⬝ᵥ b) ^ 2 : ℝ) : ℂ) / (z - E k) := by
      have e1 : S = ∑ j, (b j : ℂ) * x j := by
        have : ∀ j, (b j : ℂ) * x j = (p j * v j : ℂ) * x j - m * ((v j : ℂ) * x j) := fun j => by simp only [b]; push_cast; ring
        simp only [this, Finset.sum_sub_distrib, ← Finset.mul_sum]
        rw [← hV, hV0, mul_zero, sub_zero]
      rw [e1]
      simp only [x, Finset.mul_sum]
      rw [Finset.sum_comm]
      refine Finset.sum_congr rfl fun k _ => ?_
      have e2 : ∑ j, (b j : ℂ) * (u k j : ℂ) = ((u k ⬝ᵥ b : ℝ) : ℂ) := by
        simp only [dotProduct]
        push_cast
        exact Finset.sum_congr rfl fun j _ => by ring
      have e3 : ∀ j, (b j : ℂ) * (((u k ⬝ᵥ b : ℝ) : ℂ) / (z - E k) * (u k j : ℂ)) = ((u k ⬝ᵥ b : ℝ) : ℂ) / (z - E k) * ((b j : ℂ) * (u k j : ℂ)) := fun j => by ring
      simp only [e3, ← Finset.mul_sum, e2]
      push_cast
      ring
    rw [← hS']
    refine inv_eq_of_mul_eq_one_right ?_
    have h3 : ∑ i, (v i : ℂ) * ((v i : ℂ) + x i) = 1 := by
      simp only [mul_add, Finset.sum_add_distrib]
      rw [hv1', ← hV, hV0, add_zero]
    rw [← h3, Finset.sum_mul]
    refine Finset.sum_congr rfl fun i _ => ?_
    rw [hF, ← hv i]
    push_cast
    ring
end

end Edpyt
