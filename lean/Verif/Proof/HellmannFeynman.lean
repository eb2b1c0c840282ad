import Verif.Proof.Perturb
import Mathlib.Analysis.Calculus.Deriv.Basic
import Mathlib.Analysis.Convex.Function
/-!
The derivative of the free energy along a line of matrices is the thermal average of the direction.
-/
namespace Edpyt
open Matrix Filter Topology
open scoped Matrix.Norms.L2Operator

theorem deriv_of_tangent {F G : ℝ → ℝ} (h : ∀ s t, F s - F t ≤ (s - t) * G t) {t : ℝ} (hc : ContinuousAt G t) : HasDerivAt F (G t) t := by
  rw [hasDerivAt_iff_isLittleO, Asymptotics.isLittleO_iff]
  intro c hc0
  filter_upwards [Metric.continuousAt_iff'.mp hc c hc0] with s hs
  rw [Real.dist_eq] at hs
  have h1 := h s t
  have h2 := h t s
  have h3 : |F s - F t - (s - t) * G t| ≤ |s - t| * |G s - G t| := by
    rw [← abs_mul, abs_le]
    have h4 := neg_abs_le ((s - t) * (G s - G t))
    have h5 := abs_nonneg ((s - t) * (G s - G t))
    constructor <;> linarith
  rw [smul_eq_mul, Real.norm_eq_abs, Real.norm_eq_abs, mul_comm c]
  exact h3.trans (mul_le_mul_of_nonneg_left hs.le (abs_nonneg _))

theorem concave_of_tangent {F G : ℝ → ℝ} (h : ∀ s t, F s - F t ≤ (s - t) * G t) : ConcaveOn ℝ Set.univ F := by
  refine ⟨convex_univ, fun x _ y _ p q hp hq hpq => ?_⟩
  simp only [smul_eq_mul]
  have h1 := h x (p * x + q * y)
  have h2 := h y (p * x + q * y)
  have hq' : q = 1 - p := by linarith
  subst hq'
  nlinarith [mul_le_mul_of_nonneg_left h1 hp, mul_le_mul_of_nonneg_left h2 hq]

variable {ι κ : Type} [Fintype ι] [DecidableEq ι] [Fintype κ] [DecidableEq κ] [Nonempty κ] {A : ℝ → Matrix ι ι ℝ} {B : Matrix ι ι ℝ} {u : ℝ → κ → ι → ℝ} {a : ℝ → κ → ℝ} {β : ℝ}

/-- The thermal average of `B`. -/
noncomputable def avgOf (β : ℝ) (B : Matrix ι ι ℝ) (u : κ → ι → ℝ) (a : κ → ℝ) : ℝ := (∑ i, Real.exp (-β * a i) * (u i ⬝ᵥ B *ᵥ u i)) / ∑ i, Real.exp (-β * a i)

theorem avgOf_smul (β c : ℝ) (B : Matrix ι ι ℝ) (u : κ → ι → ℝ) (a : κ → ℝ) : avgOf β (c • B) u a = c * avgOf β B u a := by
  unfold avgOf
  rw [← mul_div_assoc, Finset.mul_sum]
  congr 1
  refine Finset.sum_congr rfl fun i _ => ?_
  rw [Matrix.smul_mulVec, dotProduct_smul, smul_eq_mul]
  ring

theorem line_tangent (hβ : 0 < β) (hAB : ∀ s t, A s - A t = (s - t) • B) (hE : ∀ t, EigBasis (A t) (u t) (a t)) (s t : ℝ) :
    -Real.log (∑ i, Real.exp (-β * a s i)) / β - -Real.log (∑ i, Real.exp (-β * a t i)) / β ≤ (s - t) * avgOf β B (u t) (a t) := by
  have g := gibbs_le (hE t) (hE s) β
  rw [hAB] at g
  change _ ≤ β * avgOf β ((s - t) • B) (u t) (a t) at g
  rw [avgOf_smul] at g
  rw [← sub_div, div_le_iff₀ hβ]
  linarith

theorem line_continuous (hβ : 0 < β) (hAB : ∀ s t, A s - A t = (s - t) • B) (hE : ∀ t, EigBasis (A t) (u t) (a t)) (t : ℝ) : ContinuousAt (fun t => avgOf β B (u t) (a t)) t := by
  have hM : 0 < ‖B‖ + 1 := by positivity
  have hX : ‖(‖B‖ + 1)⁻¹ • B‖ ≤ 1 := by
    rw [norm_smul, norm_inv, Real.norm_eq_abs, abs_of_pos hM, inv_mul_le_iff₀ hM]
    linarith
  have hb : ∀ s, |avgOf β B (u s) (a s) - avgOf β B (u t) (a t)| ≤ (‖B‖ + 1) * (β * (|s - t| * ‖B‖) * (1 + Real.exp (β * (|s - t| * ‖B‖))) + (Real.exp (β * (|s - t| * ‖B‖)) - 1)) := by
    intro s
    have h := pert_avg (X := (‖B‖ + 1)⁻¹ • B) (hE t) (hE s) hβ.le (δ := |s - t| * ‖B‖) (by positivity) (by rw [hAB, norm_smul, Real.norm_eq_abs]) hX
    change |avgOf β ((‖B‖ + 1)⁻¹ • B) (u t) (a t) - avgOf β ((‖B‖ + 1)⁻¹ • B) (u s) (a s)| ≤ _ at h
    rw [avgOf_smul, avgOf_smul, ← mul_sub, abs_mul, abs_of_pos (inv_pos.mpr hM), inv_mul_le_iff₀ hM, abs_sub_comm] at h
    exact h
  have hlim : Tendsto (fun s => (‖B‖ + 1) * (β * (|s - t| * ‖B‖) * (1 + Real.exp (β * (|s - t| * ‖B‖))) + (Real.exp (β * (|s - t| * ‖B‖)) - 1))) (𝓝 t) (𝓝 0) := by
    have hc : Continuous fun s => (‖B‖ + 1) * (β * (|s - t| * ‖B‖) * (1 + Real.exp (β * (|s - t| * ‖B‖))) + (Real.exp (β * (|s - t| * ‖B‖)) - 1)) := by fun_prop
    simpa using hc.tendsto t
  rw [ContinuousAt, tendsto_iff_dist_tendsto_zero]
  exact squeeze_zero (fun _ => dist_nonneg) (fun s => by rw [Real.dist_eq]; exact hb s) hlim

theorem line_deriv (hβ : 0 < β) (hAB : ∀ s t, A s - A t = (s - t) • B) (hE : ∀ t, EigBasis (A t) (u t) (a t)) (t : ℝ) :
    HasDerivAt (fun t => -Real.log (∑ i, Real.exp (-β * a t i)) / β) (avgOf β B (u t) (a t)) t :=
  deriv_of_tangent (G := fun t => avgOf β B (u t) (a t)) (line_tangent hβ hAB hE) (line_continuous hβ hAB hE t)

theorem line_concave (hβ : 0 < β) (hAB : ∀ s t, A s - A t = (s - t) • B) (hE : ∀ t, EigBasis (A t) (u t) (a t)) :
    ConcaveOn ℝ Set.univ (fun t => -Real.log (∑ i, Real.exp (-β * a t i)) / β) :=
  concave_of_tangent (G := fun t => avgOf β B (u t) (a t)) (line_tangent hβ hAB hE)

end Edpyt
