import Verif.Proof.Maxwell
import Mathlib.Analysis.Calculus.ContDiff.Operations
/-!
The free energy of a line of symmetric matrices is a smooth function of the parameter and of the temperature, so the slope in the temperature and the average of the direction have
equal derivatives across.
-/
namespace Edpyt
open Matrix Filter Topology
open scoped Matrix.Norms.L2Operator

variable {ι κ : Type} [Fintype ι] [DecidableEq ι] [Fintype κ] [DecidableEq κ] [Nonempty κ]

/-- The free energy of the line of matrices through `A` with the direction `X`, as a function of the parameter and the temperature. -/
noncomputable def lineFree (kB : ℝ) (A X : Matrix ι ι ℝ) (p : ℝ × ℝ) : ℝ := -(kB * p.2 * Real.log (trace (NormedSpace.exp (-(1 / (kB * p.2)) • (A + p.1 • X)))))

variable {A X : Matrix ι ι ℝ} {u : ℝ → κ → ι → ℝ} {E : ℝ → κ → ℝ} {kB : ℝ}

theorem lineFree_eq (hE : ∀ s, EigBasis (A + s • X) (u s) (E s)) (s T : ℝ) : lineFree kB A X (s, T) = -(kB * T * Real.log (∑ k, Real.exp (-(1 / (kB * T)) * E s k))) := by
  unfold lineFree
  rw [(hE s).trace_boltzmann]

theorem lineFree_smooth (hk : 0 < kB) (hE : ∀ s, EigBasis (A + s • X) (u s) (E s)) {p : ℝ × ℝ} (hp : 0 < p.2) : ContDiffAt ℝ 2 (lineFree kB A X) p := by
  have h0 : ContDiffAt ℝ 2 (fun p : ℝ × ℝ => -(1 / (kB * p.2))) p := by
    refine ContDiffAt.neg (contDiffAt_const.div (contDiffAt_const.mul contDiffAt_snd) (mul_pos hk hp).ne')
  have h1 : ContDiffAt ℝ 2 (fun p : ℝ × ℝ => -(1 / (kB * p.2)) • (A + p.1 • X)) p :=
    h0.smul (contDiffAt_const.add (contDiffAt_fst.smul contDiffAt_const))
  have h2 : ContDiff ℝ 2 (NormedSpace.exp : Matrix ι ι ℝ → Matrix ι ι ℝ) :=
    contDiff_iff_contDiffAt.mpr fun x => (NormedSpace.exp_analytic (𝕂 := ℝ) x).contDiffAt
  have h3 : ContDiff ℝ 2 fun M : Matrix ι ι ℝ => trace M :=
    (LinearMap.toContinuousLinearMap (Matrix.traceLinearMap ι ℝ ℝ)).contDiff
  have h4 : ContDiffAt ℝ 2 (fun p : ℝ × ℝ => trace (NormedSpace.exp (-(1 / (kB * p.2)) • (A + p.1 • X)))) p := (h3.comp h2).contDiffAt.comp p h1
  have h5 := h4.log (by
    rw [(hE p.1).trace_boltzmann]
    exact (Finset.sum_pos (fun k _ => Real.exp_pos _) Finset.univ_nonempty).ne')
  exact ((contDiffAt_const.mul contDiffAt_snd).mul h5).neg

/-- The derivative of the entropy with respect to the parameter is minus the derivative of the average with respect to the temperature. -/
theorem maxwell_temp (hk : 0 < kB) (hE : ∀ s, EigBasis (A + s • X) (u s) (E s)) {σ : ℝ → ℝ → ℝ} (hσ : ∀ s T, 0 < T → HasDerivAt (fun T => lineFree kB A X (s, T)) (-σ s T) T) (s₀ : ℝ)
    {T₀ : ℝ} (hT : 0 < T₀) : ∃ c, HasDerivAt (fun s => σ s T₀) c s₀ ∧ HasDerivAt (fun T => avgOf (1 / (kB * T)) X (u s₀) (E s₀)) (-c) T₀ := by
  set F := lineFree kB A X with hF
  have hsm : ∀ p : ℝ × ℝ, 0 < p.2 → ContDiffAt ℝ 2 F p := fun p hp => lineFree_smooth hk hE hp
  have hdiff : ∀ p : ℝ × ℝ, 0 < p.2 → DifferentiableAt ℝ F p := fun p hp => (hsm p hp).differentiableAt (by norm_num)
  have lineX : ∀ t s : ℝ, HasDerivAt (fun s : ℝ => (s, t)) ((1 : ℝ), (0 : ℝ)) s := fun t s => (hasDerivAt_id s).prodMk (hasDerivAt_const s t)
  have lineY : ∀ s t : ℝ, HasDerivAt (fun t : ℝ => (s, t)) ((0 : ℝ), (1 : ℝ)) t := fun s t => (hasDerivAt_const t s).prodMk (hasDerivAt_id t)
  have gX : ∀ s T : ℝ, 0 < T → avgOf (1 / (kB * T)) X (u s) (E s) = fderiv ℝ F (s, T) (1, 0) := by
    intro s T hT
    have h1 : HasDerivAt (fun s => F (s, T)) (avgOf (1 / (kB * T)) X (u s) (E s)) s := by
      have := line_deriv (A := fun s => A + s • X) (B := X) (one_div_pos.mpr (mul_pos hk hT)) (fun s s' => by rw [add_sub_add_left_eq_sub, sub_smul]) hE s
      refine this.congr_of_eventuallyEq (Eventually.of_forall fun s => ?_)
      change lineFree kB A X (s, T) = -Real.log (∑ i, Real.exp (-(1 / (kB * T)) * E s i)) / (1 / (kB * T))
      rw [lineFree_eq hE, div_div_eq_mul_div, div_one]
      ring
    have h2 : HasDerivAt (F ∘ fun s : ℝ => (s, T)) (fderiv ℝ F (s, T) (1, 0)) s := HasFDerivAt.comp_hasDerivAt s (hdiff (s, T) hT).hasFDerivAt (lineX T s)
    exact h1.unique h2
  have gT : ∀ s T : ℝ, 0 < T → σ s T = -fderiv ℝ F (s, T) (0, 1) := by
    intro s T hT
    have h2 : HasDerivAt (F ∘ fun t : ℝ => (s, t)) (fderiv ℝ F (s, T) (0, 1)) T := HasFDerivAt.comp_hasDerivAt T (hdiff (s, T) hT).hasFDerivAt (lineY s T)
    rw [← (hσ s T hT).unique h2, neg_neg]
  set Q := fderiv ℝ (fderiv ℝ F) (s₀, T₀) with hQ
  have hsymm : ∀ v w, Q v w = Q w v := (hsm (s₀, T₀) hT).isSymmSndFDerivAt (by simp)
  have hdd : DifferentiableAt ℝ (fderiv ℝ F) (s₀, T₀) := ((hsm (s₀, T₀) hT).fderiv_right (m := 1) (by norm_num)).differentiableAt (by norm_num)
  have along : ∀ (c : ℝ → ℝ × ℝ) (v : ℝ × ℝ) (r : ℝ), HasDerivAt c v r → c r = (s₀, T₀) → ∀ w, HasDerivAt (fun r => fderiv ℝ F (c r) w) (Q v w) r := by
    intro c v r hc hr w
    have h1 : HasFDerivAt (fderiv ℝ F) Q (c r) := by rw [hr]; exact hdd.hasFDerivAt
    have h2 : HasDerivAt (fun r => fderiv ℝ F (c r)) (Q v) r := h1.comp_hasDerivAt r hc
    simpa using h2.clm_apply (hasDerivAt_const r w)
  refine ⟨-Q (1, 0) (0, 1), ?_, ?_⟩
  · exact (along (fun s => (s, T₀)) _ s₀ (lineX T₀ s₀) rfl (0, 1)).neg.congr_of_eventuallyEq (Eventually.of_forall fun s => gT s T₀ hT)
  · rw [neg_neg, hsymm]
    refine (along (fun t => (s₀, t)) _ T₀ (lineY s₀ T₀) rfl (1, 0)).congr_of_eventuallyEq ?_
    filter_upwards [lt_mem_nhds hT] with T h
    exact gX s₀ T h

end Edpyt
