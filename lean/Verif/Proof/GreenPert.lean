import Verif.Proof.Perturb
import Verif.Proof.Eom
/-!
Stability of thermal Green functions: the effect of a small change of the matrix.
-/
namespace Edpyt
open Spec Matrix
open scoped Matrix.Norms.L2Operator InnerProductSpace

/-! ## The equation of motion bounds its solution -/

section CLM
variable {E : Type} [NormedAddCommGroup E] [InnerProductSpace ℂ E] [CompleteSpace E] [FiniteDimensional ℂ E]

/-- A vector of length one on which the norm of an operator is attained. -/
theorem exists_norm_attained [Nontrivial E] (X : E →L[ℂ] E) : ∃ x : E, ‖x‖ = 1 ∧ ‖X x‖ = ‖X‖ := by
  haveI : ProperSpace E := FiniteDimensional.proper ℂ E
  obtain ⟨y, hy⟩ := exists_ne (0 : E)
  have hne : (Metric.sphere (0 : E) 1).Nonempty := ⟨((‖y‖⁻¹ : ℝ) : ℂ) • y, by
    rw [mem_sphere_zero_iff_norm, norm_smul, Complex.norm_real, norm_inv, norm_norm, inv_mul_cancel₀ (norm_ne_zero_iff.mpr hy)]⟩
  obtain ⟨x, hx, hm⟩ := (isCompact_sphere (0 : E) 1).exists_isMaxOn hne (f := fun x => ‖X x‖) (by fun_prop)
  rw [mem_sphere_zero_iff_norm] at hx
  refine ⟨x, hx, le_antisymm (by simpa [hx] using X.le_opNorm x) (X.opNorm_le_bound (norm_nonneg _) fun v => ?_)⟩
  rcases eq_or_ne v 0 with rfl | hv
  · simp
  · have h1 : ‖((‖v‖⁻¹ : ℝ) : ℂ) • v‖ = 1 := by
      rw [norm_smul, Complex.norm_real, norm_inv, norm_norm, inv_mul_cancel₀ (norm_ne_zero_iff.mpr hv)]
    have h2 : ‖X (((‖v‖⁻¹ : ℝ) : ℂ) • v)‖ ≤ ‖X x‖ := hm (mem_sphere_zero_iff_norm.mpr h1)
    rw [map_smul, norm_smul, Complex.norm_real, norm_inv, norm_norm, inv_mul_le_iff₀ (norm_pos_iff.mpr hv)] at h2
    rwa [mul_comm]

/-- For a self-adjoint `T` the solution of `z X - [X, T] = A` is at most `|A| / |Im z|`. -/
theorem clm_comm_bound {T : E →L[ℂ] E} (hT : IsSelfAdjoint T) (X : E →L[ℂ] E) (z : ℂ) : |z.im| * ‖X‖ ≤ ‖z • X - (X * T - T * X)‖ := by
  rcases subsingleton_or_nontrivial E with hs | hn
  · have : X = 0 := ContinuousLinearMap.ext fun x => Subsingleton.elim _ _
    rw [this]
    simp
  obtain ⟨x, hx, hs⟩ := exists_norm_attained X
  set s := ‖X‖ with hsdef
  have hadj : (ContinuousLinearMap.adjoint X) (X x) = ((s ^ 2 : ℝ) : ℂ) • x := by
    rw [← sub_eq_zero, ← norm_eq_zero, ← sq_eq_zero_iff]
    refine le_antisymm ?_ (sq_nonneg _)
    have h1 : ‖(ContinuousLinearMap.adjoint X) (X x)‖ ≤ s ^ 2 := by
      refine (ContinuousLinearMap.le_opNorm _ _).trans (le_of_eq ?_)
      rw [LinearIsometryEquiv.norm_map, hs]
      ring
    have h2 : RCLike.re (⟪(ContinuousLinearMap.adjoint X) (X x), ((s ^ 2 : ℝ) : ℂ) • x⟫_ℂ) = s ^ 4 := by
      rw [inner_smul_right, ContinuousLinearMap.adjoint_inner_left, inner_self_eq_norm_sq_to_K, hs]
      have : (((s ^ 2 : ℝ) : ℂ) * (RCLike.ofReal s : ℂ) ^ 2) = ((s ^ 4 : ℝ) : ℂ) := by
        change ((s ^ 2 : ℝ) : ℂ) * (s : ℂ) ^ 2 = _
        push_cast
        ring
      rw [this]
      exact Complex.ofReal_re _
    rw [@norm_sub_sq ℂ, h2, norm_smul, hx, Complex.norm_real, Real.norm_eq_abs, abs_of_nonneg (sq_nonneg s)]
    nlinarith [pow_le_pow_left₀ (norm_nonneg _) h1 2]
  have him : (⟪X x, (z • X - (X * T - T * X)) x⟫_ℂ).im = z.im * s ^ 2 := by
    have e : (z • X - (X * T - T * X)) x = z • X x - (X (T x) - T (X x)) := rfl
    have e2 : ⟪X x, X (T x)⟫_ℂ = ((s ^ 2 : ℝ) : ℂ) * ⟪x, T x⟫_ℂ := by
      rw [← ContinuousLinearMap.adjoint_inner_left X, hadj, inner_smul_left, Complex.conj_ofReal]
    rw [e, inner_sub_right, inner_sub_right, inner_smul_right, e2, inner_self_eq_norm_sq_to_K, hs]
    have r : ∀ v : E, (⟪v, T v⟫_ℂ).im = 0 := fun v => by
      have := hT.isSymmetric v v
      have h2 := inner_conj_symm (𝕜 := ℂ) v (T v)
      have h3 : (⟪T v, v⟫_ℂ) = ⟪v, T v⟫_ℂ := this
      rw [h3] at h2
      exact Complex.conj_eq_iff_im.mp h2
    have r1 := r x
    have r2 := r (X x)
    rw [Complex.sub_im, Complex.sub_im, r2, Complex.im_ofReal_mul, r1]
    have e3 : ((RCLike.ofReal s : ℂ) ^ 2) = ((s ^ 2 : ℝ) : ℂ) := by push_cast; rfl
    rw [e3, Complex.im_mul_ofReal]
    ring
  have hle : |z.im| * s ^ 2 ≤ s * ‖z • X - (X * T - T * X)‖ := by
    have h1 := Complex.abs_im_le_norm (⟪X x, (z • X - (X * T - T * X)) x⟫_ℂ)
    rw [him, abs_mul, abs_of_nonneg (sq_nonneg s)] at h1
    refine h1.trans ((norm_inner_le_norm _ _).trans ?_)
    rw [hs]
    refine mul_le_mul_of_nonneg_left ?_ (norm_nonneg _)
    have := (z • X - (X * T - T * X)).le_opNorm x
    rwa [hx, mul_one] at this
  rcases (norm_nonneg X).eq_or_lt with h0 | h0
  · rw [hsdef, ← h0, mul_zero]; exact norm_nonneg _
  · rw [← hsdef] at h0
    have : s * (|z.im| * s) ≤ s * ‖z • X - (X * T - T * X)‖ := by nlinarith
    exact le_of_mul_le_mul_left this h0

end CLM

variable {ι : Type} [Fintype ι] [DecidableEq ι]

theorem comm_bound {H : Matrix ι ι ℂ} (hH : Hᴴ = H) (X : Matrix ι ι ℂ) (z : ℂ) : |z.im| * ‖X‖ ≤ ‖z • X - (X * H - H * X)‖ := by
  have hs : IsSelfAdjoint (toEuclideanCLM (n := ι) (𝕜 := ℂ) H) := by
    rw [IsSelfAdjoint, ← map_star]
    exact congrArg _ hH
  have := clm_comm_bound hs (toEuclideanCLM (n := ι) (𝕜 := ℂ) X) z
  rw [← map_mul, ← map_mul, ← map_smul, ← map_sub, ← map_sub] at this
  rw [cstar_norm_def, cstar_norm_def]
  exact this

/-! ## Real and complex matrices -/

theorem norm_toLp_sq (x : ι → ℂ) : ‖(WithLp.toLp 2 x : EuclideanSpace ℂ ι)‖ ^ 2 = ∑ i, ((x i).re ^ 2 + (x i).im ^ 2) := by
  rw [EuclideanSpace.norm_sq_eq]
  exact Finset.sum_congr rfl fun i _ => by
    change ‖x i‖ ^ 2 = _
    rw [Complex.sq_norm, Complex.normSq_apply]; ring

theorem norm_toLp_real_sq (x : ι → ℝ) : ‖(WithLp.toLp 2 x : EuclideanSpace ℝ ι)‖ ^ 2 = ∑ i, x i ^ 2 := by
  rw [EuclideanSpace.norm_sq_eq]
  exact Finset.sum_congr rfl fun i _ => by
    change ‖x i‖ ^ 2 = _
    rw [Real.norm_eq_abs, sq_abs]

theorem cplx_norm_le (A : Matrix ι ι ℝ) : ‖cplx A‖ ≤ ‖A‖ := by
  rw [cstar_norm_def (cplx A)]
  refine ContinuousLinearMap.opNorm_le_bound _ (norm_nonneg _) fun x => ?_
  refine abs_le_of_sq_le_sq' ?_ (by positivity) |>.2
  obtain ⟨x⟩ := x
  rw [toEuclideanCLM_toLp, mul_pow, norm_toLp_sq, norm_toLp_sq]
  have h1 := opNorm_mulVec_sq A fun i => (x i).re
  have h2 := opNorm_mulVec_sq A fun i => (x i).im
  have e1 : ∀ i, (((cplx A) *ᵥ x) i).re = (A *ᵥ fun i => (x i).re) i := fun i => by
    simp [Matrix.mulVec, dotProduct, cplx, Complex.re_sum]
  have e2 : ∀ i, (((cplx A) *ᵥ x) i).im = (A *ᵥ fun i => (x i).im) i := fun i => by
    simp [Matrix.mulVec, dotProduct, cplx, Complex.im_sum]
  simp only [e1, e2]
  rw [Finset.sum_add_distrib, Finset.sum_add_distrib, mul_add]
  simp only [dotProduct, ← sq] at h1 h2
  exact add_le_add h1 h2

theorem re_norm_le (Y : Matrix ι ι ℂ) : ‖(Y.map Complex.re : Matrix ι ι ℝ)‖ ≤ ‖Y‖ := by
  rw [cstar_norm_def (Y.map Complex.re)]
  refine ContinuousLinearMap.opNorm_le_bound _ (norm_nonneg _) fun x => ?_
  refine abs_le_of_sq_le_sq' ?_ (by positivity) |>.2
  obtain ⟨x⟩ := x
  rw [toEuclideanCLM_toLp, mul_pow, norm_toLp_real_sq, norm_toLp_real_sq]
  have h := Matrix.l2_opNorm_mulVec Y (WithLp.toLp 2 fun i => (x i : ℂ))
  have h2 := pow_le_pow_left₀ (norm_nonneg _) h 2
  have h3 : ‖(WithLp.toLp 2 (Y *ᵥ fun i => (x i : ℂ)) : EuclideanSpace ℂ ι)‖ ^ 2 ≤ ‖Y‖ ^ 2 * ∑ i, x i ^ 2 := by
    refine h2.trans (le_of_eq ?_)
    rw [mul_pow, norm_toLp_sq]
    simp
  rw [norm_toLp_sq] at h3
  refine le_trans (Finset.sum_le_sum fun i _ => ?_) h3
  have e : (Y *ᵥ fun i => (x i : ℂ)) i = ∑ j, Y i j * (x j : ℂ) := rfl
  have e1 : ((Y *ᵥ fun i => (x i : ℂ)) i).re = ((Y.map Complex.re) *ᵥ x) i := by
    rw [e, Complex.re_sum]
    exact Finset.sum_congr rfl fun j _ => by rw [Complex.re_mul_ofReal]; rfl
  rw [e1]
  exact le_add_of_nonneg_right (sq_nonneg _)

/-! ## Averages of complex matrices -/

theorem thermal_add' (β : ℝ) (H : Matrix ι ι ℝ) (A B : Matrix ι ι ℂ) : thermal β H (A + B) = thermal β H A + thermal β H B := by
  unfold thermal
  rw [Matrix.mul_add, Matrix.trace_add, add_div]

theorem thermal_sub' (β : ℝ) (H : Matrix ι ι ℝ) (A B : Matrix ι ι ℂ) : thermal β H (A - B) = thermal β H A - thermal β H B := by
  unfold thermal
  rw [Matrix.mul_sub, Matrix.trace_sub, sub_div]

variable {κ κ' : Type} [Fintype κ] [DecidableEq κ] [Fintype κ'] [DecidableEq κ'] {A B : Matrix ι ι ℝ} {u : κ → ι → ℝ} {v : κ' → ι → ℝ} {a : κ → ℝ} {b : κ' → ℝ}

theorem thermal_re (hA : EigBasis A u a) (β : ℝ) (Y : Matrix ι ι ℂ) :
    (thermal β A Y).re = (∑ i, Real.exp (-β * a i) * (u i ⬝ᵥ (Y.map Complex.re) *ᵥ u i)) / ∑ i, Real.exp (-β * a i) := by
  have e : Y = cplx (Y.map Complex.re) + Complex.I • cplx (Y.map Complex.im) := by
    ext i j
    simp only [cplx, Matrix.add_apply, Matrix.smul_apply, Matrix.map_apply, smul_eq_mul]
    rw [mul_comm]
    exact (Complex.re_add_im _).symm
  have h := congrArg (thermal β A) e
  rw [thermal_add', thermal_smul, hA.thermal, hA.thermal] at h
  rw [h, Complex.add_re, Complex.ofReal_re, Complex.re_mul_ofReal, Complex.I_re, zero_mul, add_zero]

/-- A number is bounded if the real parts of its rotations are. -/
theorem norm_le_of_re {d : ℂ} {C : ℝ} (h : ∀ c : ℂ, ‖c‖ = 1 → (c * d).re ≤ C) : ‖d‖ ≤ C := by
  rcases eq_or_ne d 0 with rfl | hd
  · have := h 1 (by simp)
    simpa using this
  · have hn : ‖d‖ ≠ 0 := norm_ne_zero_iff.mpr hd
    have := h ((starRingEnd ℂ) d / ‖d‖) (by rw [norm_div, RCLike.norm_conj, Complex.norm_real, norm_norm, div_self hn])
    rw [div_mul_eq_mul_div, mul_comm, Complex.mul_conj, Complex.normSq_eq_norm_sq, ← Complex.ofReal_div, Complex.ofReal_re, sq, mul_div_assoc, div_self hn, mul_one] at this
    exact this

theorem thermal_norm_le [Nonempty κ] (hA : EigBasis A u a) (β : ℝ) (Y : Matrix ι ι ℂ) : ‖thermal β A Y‖ ≤ ‖Y‖ := by
  refine norm_le_of_re fun c hc => ?_
  rw [← thermal_smul, thermal_re hA]
  have hpos : 0 < ∑ i, Real.exp (-β * a i) := Finset.sum_pos (fun i _ => Real.exp_pos _) Finset.univ_nonempty
  rw [div_le_iff₀ hpos, Finset.mul_sum]
  refine Finset.sum_le_sum fun i _ => ?_
  rw [mul_comm ‖Y‖]
  refine mul_le_mul_of_nonneg_left ((le_abs_self _).trans ((opNorm_form _ _ (by rw [hA.orth, if_pos rfl])).trans ((re_norm_le _).trans ?_))) (Real.exp_pos _).le
  rw [norm_smul, hc, one_mul]

theorem thermal_pert [Nonempty κ] [Nonempty κ'] (hA : EigBasis A u a) (hB : EigBasis B v b) {β δ : ℝ} (hβ : 0 ≤ β) (hδ : 0 ≤ δ) (hV : ‖B - A‖ ≤ δ) (Y : Matrix ι ι ℂ) :
    ‖thermal β B Y - thermal β A Y‖ ≤ (β * δ * (1 + Real.exp (β * δ)) + (Real.exp (β * δ) - 1)) * ‖Y‖ := by
  rcases (norm_nonneg Y).eq_or_lt with h0 | h0
  · have : Y = 0 := norm_eq_zero.mp h0.symm
    rw [this]
    simp [thermal]
  refine norm_le_of_re fun c hc => ?_
  rw [mul_sub, Complex.sub_re, ← thermal_smul, ← thermal_smul, thermal_re hA, thermal_re hB]
  set R : Matrix ι ι ℝ := (c • Y).map Complex.re with hR
  have hRn : ‖R‖ ≤ ‖Y‖ := (re_norm_le _).trans (by rw [norm_smul, hc, one_mul])
  have h1 : ‖‖Y‖⁻¹ • R‖ ≤ 1 := by
    rw [norm_smul, norm_inv, norm_norm, inv_mul_le_iff₀ h0, mul_one]
    exact hRn
  have h2 := (neg_le_abs _).trans (pert_avg hA hB hβ hδ hV h1)
  have e : ∀ x : ι → ℝ, x ⬝ᵥ R *ᵥ x = ‖Y‖ * (x ⬝ᵥ (‖Y‖⁻¹ • R) *ᵥ x) := fun x => by
    rw [Matrix.smul_mulVec, dotProduct_smul, smul_eq_mul, ← mul_assoc, mul_inv_cancel₀ h0.ne', one_mul]
  clear_value R
  simp only [e, mul_left_comm _ ‖Y‖, ← Finset.mul_sum]
  rw [mul_div_assoc, mul_div_assoc, ← mul_sub, mul_comm ‖Y‖]
  refine mul_le_mul_of_nonneg_right ?_ h0.le
  linarith

/-- The change of a thermal Green function at a point off the real axis. -/
theorem green_pert [Nonempty κ] [Nonempty κ'] (hA : EigBasis A u a) (hB : EigBasis B v b) (hAs : Aᵀ = A) (hBs : Bᵀ = B) {β δ : ℝ} (hβ : 0 ≤ β) (hδ : 0 ≤ δ) (hV : ‖B - A‖ ≤ δ)
    {M N : Matrix ι ι ℝ} (hM : ‖M‖ ≤ 1) (hN : ‖N‖ ≤ 1) {z g g' : ℂ} (hz : z.im ≠ 0) (hg : IsGreen β A M N z g) (hg' : IsGreen β B M N z g') :
    ‖g' - g‖ ≤ 4 * δ / z.im ^ 2 + 2 * (β * δ * (1 + Real.exp (β * δ)) + (Real.exp (β * δ) - 1)) / |z.im| := by
  obtain ⟨X, hX, rfl⟩ := hg
  obtain ⟨X', hX', rfl⟩ := hg'
  have hp : 0 < |z.im| := abs_pos.mpr hz
  have hc : ∀ {H : Matrix ι ι ℝ}, Hᵀ = H → (cplx H)ᴴ = cplx H := fun {H} h => by
    ext i j
    have := congrFun (congrFun h i) j
    simp only [Matrix.transpose_apply] at this
    simp [cplx, Matrix.conjTranspose_apply, this]
  have n1 : ‖X‖ ≤ 1 / |z.im| := by
    rw [le_div_iff₀ hp, mul_comm]
    exact (comm_bound (hc hAs) X z).trans (hX ▸ (cplx_norm_le M).trans hM)
  have n2 : ‖X'‖ ≤ 1 / |z.im| := by
    rw [le_div_iff₀ hp, mul_comm]
    exact (comm_bound (hc hBs) X' z).trans (hX' ▸ (cplx_norm_le M).trans hM)
  have hN' : ‖cplx N‖ ≤ 1 := (cplx_norm_le N).trans hN
  have hD : ‖cplx (B - A)‖ ≤ δ := (cplx_norm_le _).trans hV
  have eD : cplx (B - A) = cplx B - cplx A := by
    ext i j
    simp [cplx]
  have n3 : ‖X' - X‖ ≤ 2 * δ / z.im ^ 2 := by
    have e : z • (X' - X) - ((X' - X) * cplx A - cplx A * (X' - X)) = X' * cplx (B - A) - cplx (B - A) * X' := by
      have : z • X' - (X' * cplx B - cplx B * X') = z • X - (X * cplx A - cplx A * X) := hX'.trans hX.symm
      rw [eD, smul_sub, mul_sub, sub_mul, sub_mul, mul_sub]
      have h2 : z • X' = z • X - (X * cplx A - cplx A * X) + (X' * cplx B - cplx B * X') := by rw [← this]; abel
      rw [h2]
      abel
    have h1 := comm_bound (hc hAs) (X' - X) z
    rw [e] at h1
    have h2 : ‖X' * cplx (B - A) - cplx (B - A) * X'‖ ≤ 2 * δ / |z.im| := by
      refine (norm_sub_le _ _).trans ((add_le_add (norm_mul_le _ _) (norm_mul_le _ _)).trans ?_)
      have : ‖X'‖ * ‖cplx (B - A)‖ ≤ 1 / |z.im| * δ := mul_le_mul n2 hD (norm_nonneg _) (by positivity)
      rw [mul_comm ‖cplx (B - A)‖]
      refine (add_le_add this this).trans (le_of_eq (by ring))
    rw [← sq_abs, sq, ← div_div, le_div_iff₀ hp, mul_comm]
    exact h1.trans h2
  have hY : ∀ W : Matrix ι ι ℂ, ‖W * cplx N + cplx N * W‖ ≤ 2 * ‖W‖ := fun W => by
    refine (norm_add_le _ _).trans ((add_le_add (norm_mul_le _ _) (norm_mul_le _ _)).trans ?_)
    nlinarith [norm_nonneg W, norm_nonneg (cplx N)]
  have e : thermal β B (X' * cplx N + cplx N * X') - thermal β A (X * cplx N + cplx N * X) =
      thermal β B ((X' - X) * cplx N + cplx N * (X' - X)) + (thermal β B (X * cplx N + cplx N * X) - thermal β A (X * cplx N + cplx N * X)) := by
    have : (X' - X) * cplx N + cplx N * (X' - X) = (X' * cplx N + cplx N * X') - (X * cplx N + cplx N * X) := by
      rw [sub_mul, mul_sub]; abel
    rw [this, thermal_sub']
    ring
  rw [e]
  refine (norm_add_le _ _).trans (add_le_add ?_ ?_)
  · refine (thermal_norm_le hB β _).trans ((hY _).trans ?_)
    calc 2 * ‖X' - X‖ ≤ 2 * (2 * δ / z.im ^ 2) := by linarith
      _ = _ := by ring
  · refine (thermal_pert hA hB hβ hδ hV _).trans ?_
    have hb : 0 ≤ β * δ * (1 + Real.exp (β * δ)) + (Real.exp (β * δ) - 1) := by
      have := Real.one_le_exp (x := β * δ) (by positivity)
      have : 0 ≤ β * δ * (1 + Real.exp (β * δ)) := by positivity
      linarith
    calc _ ≤ (β * δ * (1 + Real.exp (β * δ)) + (Real.exp (β * δ) - 1)) * (2 * (1 / |z.im|)) :=
          mul_le_mul_of_nonneg_left ((hY X).trans (by linarith)) hb
      _ = _ := by ring

/-- A thermal Green function of operators of norm at most one is at most `2 / |Im z|`. -/
theorem green_norm_le [Nonempty κ] (hA : EigBasis A u a) (hAs : Aᵀ = A) {β : ℝ} {M N : Matrix ι ι ℝ} (hM : ‖M‖ ≤ 1) (hN : ‖N‖ ≤ 1) {z g : ℂ} (hz : z.im ≠ 0) (hg : IsGreen β A M N z g) :
    ‖g‖ ≤ 2 / |z.im| := by
  obtain ⟨X, hX, rfl⟩ := hg
  have hp : 0 < |z.im| := abs_pos.mpr hz
  have hc : (cplx A)ᴴ = cplx A := by
    ext i j
    have := congrFun (congrFun hAs i) j
    simp only [Matrix.transpose_apply] at this
    simp [cplx, Matrix.conjTranspose_apply, this]
  have n1 : ‖X‖ ≤ 1 / |z.im| := by
    rw [le_div_iff₀ hp, mul_comm]
    exact (comm_bound hc X z).trans (hX ▸ (cplx_norm_le M).trans hM)
  have hN' : ‖cplx N‖ ≤ 1 := (cplx_norm_le N).trans hN
  refine (thermal_norm_le hA β _).trans ((norm_add_le _ _).trans ((add_le_add (norm_mul_le _ _) (norm_mul_le _ _)).trans ?_))
  have : 2 / |z.im| = 2 * (1 / |z.im|) := by ring
  rw [this]
  nlinarith [norm_nonneg X, norm_nonneg (cplx N)]

end Edpyt
