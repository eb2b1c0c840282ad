import Verif.Proof.HellmannFeynman
import Mathlib.Analysis.Calculus.FDeriv.Symmetric
import Mathlib.Analysis.Calculus.ContDiff.Basic
import Mathlib.Analysis.Calculus.FDeriv.Analytic
import Mathlib.Analysis.SpecialFunctions.Log.Deriv
import Mathlib.Analysis.Calculus.Deriv.Prod
import Mathlib.Analysis.Convex.Deriv
/-!
The free energy of a family of symmetric matrices that depends linearly on two parameters is smooth, so the response of the average of one direction to the other
parameter is symmetric, and concave, so the matrix of responses is negative.
-/
namespace Edpyt
open Matrix Filter Topology
open scoped Matrix.Norms.L2Operator

variable {ι κ : Type} [Fintype ι] [DecidableEq ι] [Fintype κ] [DecidableEq κ] [Nonempty κ]

theorem EigBasis.trace_boltzmann {H : Matrix ι ι ℝ} {u : κ → ι → ℝ} {E : κ → ℝ} (h : EigBasis H u E) (β : ℝ) :
    trace (NormedSpace.exp (-β • H)) = ∑ k, Real.exp (-β * E k) := by
  obtain ⟨e⟩ : Nonempty (ι ≃ κ) := Fintype.card_eq.mp h.card.symm
  have hd := h.diag e
  have := hd.gibbsOp β
  unfold Spec.gibbsOp at this
  rw [this, Matrix.mul_assoc, Matrix.trace_mul_comm, Matrix.mul_assoc, hd.left, Matrix.mul_one, Matrix.trace_diagonal]
  exact Equiv.sum_comp e fun k => Real.exp (-β * E k)

/-- The free energy of the plane of matrices through `A` with the directions `X` and `Y`. -/
noncomputable def planeFree (β : ℝ) (A X Y : Matrix ι ι ℝ) (p : ℝ × ℝ) : ℝ := -Real.log (trace (NormedSpace.exp (-β • (A + p.1 • X + p.2 • Y)))) / β

variable {A X Y : Matrix ι ι ℝ} {u : ℝ → ℝ → κ → ι → ℝ} {E : ℝ → ℝ → κ → ℝ} {β : ℝ}

theorem planeFree_eq (hE : ∀ s t, EigBasis (A + s • X + t • Y) (u s t) (E s t)) (s t : ℝ) : planeFree β A X Y (s, t) = -Real.log (∑ k, Real.exp (-β * E s t k)) / β := by
  unfold planeFree
  rw [(hE s t).trace_boltzmann]

theorem planeFree_smooth (hE : ∀ s t, EigBasis (A + s • X + t • Y) (u s t) (E s t)) : ContDiff ℝ 2 (planeFree β A X Y) := by
  have h1 : ContDiff ℝ 2 fun p : ℝ × ℝ => -β • (A + p.1 • X + p.2 • Y) := by fun_prop
  have h2 : ContDiff ℝ 2 (NormedSpace.exp : Matrix ι ι ℝ → Matrix ι ι ℝ) :=
    contDiff_iff_contDiffAt.mpr fun x => (NormedSpace.exp_analytic (𝕂 := ℝ) x).contDiffAt
  have h3 : ContDiff ℝ 2 fun M : Matrix ι ι ℝ => trace M :=
    (LinearMap.toContinuousLinearMap (Matrix.traceLinearMap ι ℝ ℝ)).contDiff
  have h4 : ContDiff ℝ 2 fun p : ℝ × ℝ => trace (NormedSpace.exp (-β • (A + p.1 • X + p.2 • Y))) := h3.comp (h2.comp h1)
  have h5 : ContDiff ℝ 2 fun p : ℝ × ℝ => Real.log (trace (NormedSpace.exp (-β • (A + p.1 • X + p.2 • Y)))) := h4.log fun p => by
    rw [(hE p.1 p.2).trace_boltzmann]
    exact (Finset.sum_pos (fun k _ => Real.exp_pos _) Finset.univ_nonempty).ne'
  exact h5.neg.div_const β

/-- The two responses across are equal, and the matrix of responses is negative semidefinite. -/
theorem plane_response (hβ : 0 < β) (hE : ∀ s t, EigBasis (A + s • X + t • Y) (u s t) (E s t)) (s₀ t₀ : ℝ) :
    ∃ χxx χxy χyy : ℝ, HasDerivAt (fun s => avgOf β X (u s t₀) (E s t₀)) χxx s₀ ∧ HasDerivAt (fun t => avgOf β X (u s₀ t) (E s₀ t)) χxy t₀ ∧
      HasDerivAt (fun s => avgOf β Y (u s t₀) (E s t₀)) χxy s₀ ∧ HasDerivAt (fun t => avgOf β Y (u s₀ t) (E s₀ t)) χyy t₀ ∧
      χxx ≤ 0 ∧ χyy ≤ 0 ∧ χxy ^ 2 ≤ χxx * χyy := by
  set F := planeFree β A X Y with hF
  have hsm : ContDiff ℝ 2 F := planeFree_smooth hE
  have hdiff : Differentiable ℝ F := hsm.differentiable (by norm_num)
  have hd1 : ContDiff ℝ 1 (fderiv ℝ F) := hsm.fderiv_right (by norm_num)
  have hdd : Differentiable ℝ (fderiv ℝ F) := hd1.differentiable (by norm_num)
  have lineX : ∀ t s : ℝ, HasDerivAt (fun s : ℝ => (s, t)) ((1 : ℝ), (0 : ℝ)) s := fun t s => (hasDerivAt_id s).prodMk (hasDerivAt_const s t)
  have lineY : ∀ s t : ℝ, HasDerivAt (fun t : ℝ => (s, t)) ((0 : ℝ), (1 : ℝ)) t := fun s t => (hasDerivAt_const t s).prodMk (hasDerivAt_id t)
  have gX : ∀ s t : ℝ, avgOf β X (u s t) (E s t) = fderiv ℝ F (s, t) (1, 0) := by
    intro s t
    have h1 : HasDerivAt (fun s => F (s, t)) (avgOf β X (u s t) (E s t)) s := by
      have := line_deriv (A := fun s => A + s • X + t • Y) (B := X) hβ (fun s s' => by rw [add_sub_add_right_eq_sub, add_sub_add_left_eq_sub, sub_smul]) (fun s => hE s t) s
      exact this.congr_of_eventuallyEq (Eventually.of_forall fun s => planeFree_eq hE s t)
    have h2 : HasDerivAt (F ∘ fun s : ℝ => (s, t)) (fderiv ℝ F (s, t) (1, 0)) s := HasFDerivAt.comp_hasDerivAt s (hdiff (s, t)).hasFDerivAt (lineX t s)
    exact h1.unique h2
  have gY : ∀ s t : ℝ, avgOf β Y (u s t) (E s t) = fderiv ℝ F (s, t) (0, 1) := by
    intro s t
    have h1 : HasDerivAt (fun t => F (s, t)) (avgOf β Y (u s t) (E s t)) t := by
      have := line_deriv (A := fun t => A + s • X + t • Y) (B := Y) hβ (fun t t' => by rw [add_sub_add_left_eq_sub, sub_smul]) (fun t => hE s t) t
      exact this.congr_of_eventuallyEq (Eventually.of_forall fun t => planeFree_eq hE s t)
    have h2 : HasDerivAt (F ∘ fun t : ℝ => (s, t)) (fderiv ℝ F (s, t) (0, 1)) t := HasFDerivAt.comp_hasDerivAt t (hdiff (s, t)).hasFDerivAt (lineY s t)
    exact h1.unique h2
  set Q := fderiv ℝ (fderiv ℝ F) (s₀, t₀) with hQ
  have hsymm : ∀ v w, Q v w = Q w v := hsm.contDiffAt.isSymmSndFDerivAt (by simp)
  -- along any line, the derivative of the slope
  have along : ∀ (c : ℝ → ℝ × ℝ) (v : ℝ × ℝ) (r : ℝ), HasDerivAt c v r → c r = (s₀, t₀) → ∀ w, HasDerivAt (fun r => fderiv ℝ F (c r) w) (Q v w) r := by
    intro c v r hc hr w
    have h1 : HasFDerivAt (fderiv ℝ F) Q (c r) := by rw [hr]; exact (hdd (s₀, t₀)).hasFDerivAt
    have h2 : HasDerivAt (fun r => fderiv ℝ F (c r)) (Q v) r := h1.comp_hasDerivAt r hc
    simpa using h2.clm_apply (hasDerivAt_const r w)
  have neg : ∀ x y : ℝ, Q (x, y) (x, y) ≤ 0 := by
    intro x y
    have hc : ∀ r : ℝ, HasDerivAt (fun r : ℝ => (s₀ + r * x, t₀ + r * y)) (x, y) r := fun r =>
      HasDerivAt.prodMk (by simpa using ((hasDerivAt_id r).mul_const x).const_add s₀) (by simpa using ((hasDerivAt_id r).mul_const y).const_add t₀)
    have hline : ∀ r r' : ℝ, (A + (s₀ + r * x) • X + (t₀ + r * y) • Y) - (A + (s₀ + r' * x) • X + (t₀ + r' * y) • Y) = (r - r') • (x • X + y • Y) := by
      intro r r'
      module
    have hconc : ConcaveOn ℝ Set.univ fun r : ℝ => F (s₀ + r * x, t₀ + r * y) := by
      have := line_concave (A := fun r : ℝ => A + (s₀ + r * x) • X + (t₀ + r * y) • Y) hβ hline fun r => hE (s₀ + r * x) (t₀ + r * y)
      refine this.congr fun r _ => ?_
      exact (planeFree_eq hE _ _).symm
    have hder : ∀ r : ℝ, HasDerivAt (fun r : ℝ => F (s₀ + r * x, t₀ + r * y)) (fderiv ℝ F (s₀ + r * x, t₀ + r * y) (x, y)) r := fun r =>
      (hdiff _).hasFDerivAt.comp_hasDerivAt r (hc r)
    have hanti : Antitone fun r : ℝ => fderiv ℝ F (s₀ + r * x, t₀ + r * y) (x, y) := by
      intro r r' hrr
      rcases hrr.eq_or_lt with rfl | hlt
      · exact le_rfl
      exact (hconc.le_slope_of_hasDerivAt trivial trivial hlt (hder r')).trans (hconc.slope_le_of_hasDerivAt trivial trivial hlt (hder r))
    have h2 := along (fun r : ℝ => (s₀ + r * x, t₀ + r * y)) (x, y) 0 (hc 0) (by simp) (x, y)
    rw [← h2.deriv]
    exact hanti.deriv_nonpos
  have quad : ∀ x y : ℝ, Q (x, y) (x, y) = x ^ 2 * Q (1, 0) (1, 0) + 2 * (x * y) * Q (1, 0) (0, 1) + y ^ 2 * Q (0, 1) (0, 1) := by
    intro x y
    have e : ((x, y) : ℝ × ℝ) = x • (1, 0) + y • (0, 1) := by simp
    rw [e]
    simp only [map_add, map_smul, ContinuousLinearMap.add_apply, ContinuousLinearMap.smul_apply, smul_eq_mul, hsymm (0, 1) (1, 0)]
    ring
  refine ⟨Q (1, 0) (1, 0), Q (1, 0) (0, 1), Q (0, 1) (0, 1), ?_, ?_, ?_, ?_, neg 1 0, neg 0 1, ?_⟩
  · simp only [gX]
    exact along (fun s => (s, t₀)) _ s₀ (lineX t₀ s₀) rfl _
  · simp only [gX]
    rw [hsymm]
    exact along (fun t => (s₀, t)) _ t₀ (lineY s₀ t₀) rfl _
  · simp only [gY]
    exact along (fun s => (s, t₀)) _ s₀ (lineX t₀ s₀) rfl _
  · simp only [gY]
    exact along (fun t => (s₀, t)) _ t₀ (lineY s₀ t₀) rfl _
  · have hxx := neg 1 0
    have hyy := neg 0 1
    set a := Q (1, 0) (1, 0)
    set b := Q (1, 0) (0, 1)
    set c := Q (0, 1) (0, 1)
    have h1 := neg b (-a)
    have h2 := neg c (-b)
    have h3 : ∀ r : ℝ, a * r ^ 2 + 2 * b * r + c ≤ 0 := fun r => by
      have := neg r 1
      rw [quad] at this
      nlinarith
    have := discrim_le_zero_of_nonpos (a := a) (b := 2 * b) (c := c) fun r => by have := h3 r; nlinarith
    unfold discrim at this
    nlinarith

end Edpyt
