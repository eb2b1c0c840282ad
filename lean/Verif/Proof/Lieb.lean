import Verif.Proof.Perron
import Mathlib.Analysis.Matrix.Spectrum
import Mathlib.Analysis.Matrix.Order
/-!
Spin reflection positivity: ground states `W` of `W ↦ K W + W K + ∑ u_x L_x W L_x` with `u_x < 0` are definite matrices.
-/
namespace Edpyt.Lieb
open Matrix
open scoped ComplexOrder

variable {ι κ : Type} [Fintype ι] [DecidableEq ι] [Fintype κ] {K : Matrix ι ι ℂ} {L : κ → Matrix ι ι ℂ} {u : κ → ℝ} {e : ℝ} {W : Matrix ι ι ℂ}

/-- Positive and negative part of a hermitian matrix. -/
theorem parts (hW : W.IsHermitian) : ∃ P B : Matrix ι ι ℂ, P.PosSemidef ∧ W = P - B * Bᴴ ∧ P * (B * Bᴴ) = 0 ∧ (B * Bᴴ) * P = 0 := by
  obtain ⟨U, d, hU, hUW⟩ : ∃ (U : Matrix ι ι ℂ) (d : ι → ℝ), Uᴴ * U = 1 ∧ W = U * diagonal (fun i => (d i : ℂ)) * Uᴴ := by
    refine ⟨hW.eigenvectorUnitary, hW.eigenvalues, ?_, ?_⟩
    · exact Unitary.star_mul_self_of_mem hW.eigenvectorUnitary.2
    · have := hW.spectral_theorem
      rw [Unitary.conjStarAlgAut_apply] at this
      exact this
  have e1 : ∀ x y : ι → ℂ, (U * diagonal x * Uᴴ) * (U * diagonal y * Uᴴ) = U * diagonal (fun i => x i * y i) * Uᴴ := fun x y => by
    rw [show (U * diagonal x * Uᴴ) * (U * diagonal y * Uᴴ) = U * diagonal x * (Uᴴ * U) * diagonal y * Uᴴ by simp only [Matrix.mul_assoc], hU, Matrix.mul_one,
      Matrix.mul_assoc U, diagonal_mul_diagonal]
  have eB : (U * diagonal (fun i => ((Real.sqrt (max (-d i) 0) : ℝ) : ℂ))) * (U * diagonal (fun i => ((Real.sqrt (max (-d i) 0) : ℝ) : ℂ)))ᴴ =
      U * diagonal (fun i => ((max (-d i) 0 : ℝ) : ℂ)) * Uᴴ := by
    rw [conjTranspose_mul, diagonal_conjTranspose, Matrix.mul_assoc, ← Matrix.mul_assoc (diagonal _), diagonal_mul_diagonal, ← Matrix.mul_assoc]
    congr 3
    funext i
    simp only [Pi.star_apply, Complex.star_def, Complex.conj_ofReal]
    rw [← Complex.ofReal_mul, Real.mul_self_sqrt (le_max_right _ _)]
  refine ⟨U * diagonal (fun i => ((max (d i) 0 : ℝ) : ℂ)) * Uᴴ, U * diagonal (fun i => ((Real.sqrt (max (-d i) 0) : ℝ) : ℂ)), ?_, ?_, ?_, ?_⟩
  · refine PosSemidef.mul_mul_conjTranspose_same (PosSemidef.diagonal fun i => ?_) U
    exact Complex.zero_le_real.mpr (le_max_right _ _)
  · rw [eB, hUW, ← Matrix.sub_mul, ← Matrix.mul_sub, diagonal_sub]
    congr 3
    funext i
    rw [← Complex.ofReal_sub]
    congr 1
    rcases le_total (d i) 0 with h | h
    · rw [max_eq_right h, max_eq_left (by linarith)]; ring
    · rw [max_eq_left h, max_eq_right (by linarith)]; ring
  · rw [eB, e1]
    have : (fun i => ((max (d i) 0 : ℝ) : ℂ) * ((max (-d i) 0 : ℝ) : ℂ)) = 0 := funext fun i => by
      rcases le_total (d i) 0 with h | h
      · rw [max_eq_right h]; simp
      · rw [max_eq_right (show -d i ≤ 0 by linarith)]; simp
    rw [this]; simp
  · rw [eB, e1]
    have : (fun i => ((max (-d i) 0 : ℝ) : ℂ) * ((max (d i) 0 : ℝ) : ℂ)) = 0 := funext fun i => by
      rcases le_total (d i) 0 with h | h
      · rw [max_eq_right h]; simp
      · rw [max_eq_right (show -d i ≤ 0 by linarith)]; simp
    rw [this]; simp

/-- The action of the Hamiltonian on the matrix of amplitudes. -/
noncomputable def phi (K : Matrix ι ι ℂ) (L : κ → Matrix ι ι ℂ) (u : κ → ℝ) (W : Matrix ι ι ℂ) : Matrix ι ι ℂ := K * W + W * K + ∑ x, (u x : ℂ) • (L x * W * L x)

theorem phi_add (X Y : Matrix ι ι ℂ) : phi K L u (X + Y) = phi K L u X + phi K L u Y := by
  unfold phi
  simp only [Matrix.mul_add, Matrix.add_mul, smul_add, Finset.sum_add_distrib]
  abel

theorem phi_smul (c : ℂ) (X : Matrix ι ι ℂ) : phi K L u (c • X) = c • phi K L u X := by
  unfold phi
  simp only [Matrix.mul_smul, Matrix.smul_mul, smul_add, Finset.smul_sum]
  congr 1
  exact Finset.sum_congr rfl fun x _ => smul_comm _ _ _

theorem phi_herm (hK : K.IsHermitian) (hL : ∀ x, (L x).IsHermitian) (hW : W.IsHermitian) : (phi K L u W).IsHermitian := by
  unfold phi IsHermitian
  rw [conjTranspose_add, conjTranspose_add, conjTranspose_mul, conjTranspose_mul, hK.eq, hW.eq, conjTranspose_sum, add_comm (W * K)]
  congr 1
  refine Finset.sum_congr rfl fun x _ => ?_
  rw [conjTranspose_smul, conjTranspose_mul, conjTranspose_mul, (hL x).eq, hW.eq, Matrix.mul_assoc]
  congr 1
  exact Complex.conj_ofReal _

theorem phi_symm (X Y : Matrix ι ι ℂ) : (X * phi K L u Y).trace = (Y * phi K L u X).trace := by
  unfold phi
  simp only [Matrix.mul_add, trace_add, Matrix.mul_sum, trace_sum, Matrix.mul_smul, trace_smul]
  have h1 : (X * (K * Y)).trace = (Y * (X * K)).trace := by rw [← Matrix.mul_assoc, Matrix.trace_mul_comm]
  have h2 : (X * (Y * K)).trace = (Y * (K * X)).trace := by rw [Matrix.trace_mul_comm, Matrix.mul_assoc]
  rw [h1, h2, add_comm (Y * (X * K)).trace]
  congr 1
  refine Finset.sum_congr rfl fun x _ => ?_
  congr 1
  rw [show X * (L x * Y * L x) = (X * L x) * (Y * L x) by simp only [Matrix.mul_assoc], Matrix.trace_mul_comm]
  simp only [Matrix.mul_assoc]

theorem quad_zero {g c : ℝ} (h : ∀ t : ℝ, 0 ≤ 2 * t * g + t ^ 2 * c) : g = 0 := by
  by_contra hg
  have hc : 0 < |c| + 1 := by positivity
  have h1 := h (-g / (|c| + 1))
  have h2 : 2 * (-g / (|c| + 1)) * g + (-g / (|c| + 1)) ^ 2 * c = -(g ^ 2 / (|c| + 1) ^ 2) * (2 * (|c| + 1) - c) := by field_simp; ring
  rw [h2] at h1
  have h3 : 0 < g ^ 2 / (|c| + 1) ^ 2 := by positivity
  have h4 : 0 < 2 * (|c| + 1) - c := by have := le_abs_self c; have := abs_nonneg c; linarith
  nlinarith [mul_pos h3 h4]

/-- A hermitian matrix of least mean energy is an eigenvector. -/
theorem stationary (hK : K.IsHermitian) (hL : ∀ x, (L x).IsHermitian) (hmin : ∀ X : Matrix ι ι ℂ, X.IsHermitian → e * (X * X).trace.re ≤ (X * phi K L u X).trace.re)
    (hW : W.IsHermitian) (hE : (W * phi K L u W).trace.re ≤ e * (W * W).trace.re) : phi K L u W = (e : ℂ) • W := by
  set Y := phi K L u W - (e : ℂ) • W with hY
  have hYh : Y.IsHermitian := (phi_herm hK hL hW).sub (by
    unfold IsHermitian; rw [conjTranspose_smul, hW.eq]; congr 1; exact Complex.conj_ofReal _)
  have hg : (Y * Y).trace.re = 0 := by
    refine quad_zero (c := (Y * phi K L u Y).trace.re - e * (Y * Y).trace.re) fun t => ?_
    have hh : (W + (t : ℂ) • Y).IsHermitian := hW.add (by
      unfold IsHermitian; rw [conjTranspose_smul, hYh.eq]; congr 1; exact Complex.conj_ofReal _)
    have h1 := hmin _ hh
    have e1 : ((W + (t : ℂ) • Y) * phi K L u (W + (t : ℂ) • Y)).trace = (W * phi K L u W).trace + 2 * t * (Y * phi K L u W).trace + t ^ 2 * (Y * phi K L u Y).trace := by
      rw [phi_add, phi_smul, Matrix.add_mul, Matrix.mul_add, Matrix.mul_add, trace_add, trace_add, trace_add, Matrix.mul_smul, Matrix.smul_mul, Matrix.smul_mul, Matrix.mul_smul,
        trace_smul, trace_smul, trace_smul, trace_smul, phi_symm W Y]
      simp only [smul_eq_mul]; ring
    have e2 : ((W + (t : ℂ) • Y) * (W + (t : ℂ) • Y)).trace = (W * W).trace + 2 * t * (Y * W).trace + t ^ 2 * (Y * Y).trace := by
      rw [Matrix.add_mul, Matrix.mul_add, Matrix.mul_add, trace_add, trace_add, trace_add, Matrix.mul_smul, Matrix.smul_mul, Matrix.smul_mul, Matrix.mul_smul,
        trace_smul, trace_smul, trace_smul, trace_smul, Matrix.trace_mul_comm W Y]
      simp only [smul_eq_mul]; ring
    have e3 : (Y * Y).trace = (Y * phi K L u W).trace - e * (Y * W).trace := by
      conv_lhs => rw [hY, Matrix.mul_sub, ← hY, trace_sub, Matrix.mul_smul, trace_smul, smul_eq_mul]
    have r1 := congrArg Complex.re e1
    have r2 := congrArg Complex.re e2
    have r3 := congrArg Complex.re e3
    rw [show (2 : ℂ) * t = ((2 * t : ℝ) : ℂ) by push_cast; ring, show (t : ℂ) ^ 2 = ((t ^ 2 : ℝ) : ℂ) by push_cast; ring] at r1 r2
    rw [Complex.add_re, Complex.add_re, Complex.re_ofReal_mul, Complex.re_ofReal_mul] at r1 r2
    rw [Complex.sub_re, Complex.re_ofReal_mul] at r3
    rw [r1, r2] at h1
    rw [r3] at h1 ⊢
    nlinarith
  have h0 : (Yᴴ * Y).trace = 0 := by
    have hp := (posSemidef_conjTranspose_mul_self Y).trace_nonneg
    rw [Complex.le_def] at hp
    refine Complex.ext ?_ hp.2.symm
    rw [hYh.eq]; exact hg
  exact sub_eq_zero.mp (trace_conjTranspose_mul_self_eq_zero_iff.mp h0)

/-- The kernel of a positive semidefinite eigenvector is invariant. -/
theorem kernel (hK : K.IsHermitian) (hL : ∀ x, (L x).IsHermitian) (hu : ∀ x, u x < 0) {N : Matrix ι ι ℂ} (hN : N.PosSemidef) (hE : phi K L u N = (e : ℂ) • N)
    {v : ι → ℂ} (hv : N *ᵥ v = 0) : (∀ x, N *ᵥ (L x *ᵥ v) = 0) ∧ N *ᵥ (K *ᵥ v) = 0 := by
  have hvN : star v ᵥ* N = 0 := by
    have := congrArg star hv
    rw [star_mulVec, hN.isHermitian.eq, star_zero] at this
    exact this
  have h1 : ∑ x, (u x : ℂ) * (star (L x *ᵥ v) ⬝ᵥ N *ᵥ (L x *ᵥ v)) = 0 := by
    have h2 : star v ⬝ᵥ (phi K L u N *ᵥ v) = 0 := by rw [hE, smul_mulVec, hv, smul_zero, dotProduct_zero]
    unfold phi at h2
    rw [add_mulVec, add_mulVec, dotProduct_add, dotProduct_add, ← mulVec_mulVec, hv, mulVec_zero, dotProduct_zero, zero_add, ← mulVec_mulVec, dotProduct_mulVec (star v) N, hvN,
      zero_dotProduct, zero_add, sum_mulVec, dotProduct_sum] at h2
    rw [← h2]
    refine Finset.sum_congr rfl fun x _ => ?_
    rw [smul_mulVec, dotProduct_smul, smul_eq_mul, ← mulVec_mulVec, ← mulVec_mulVec, dotProduct_mulVec (star v) (L x), star_mulVec, (hL x).eq]
  have h3 : ∀ x, star (L x *ᵥ v) ⬝ᵥ N *ᵥ (L x *ᵥ v) = 0 := by
    have hr : ∀ x ∈ Finset.univ, 0 ≤ -u x * (star (L x *ᵥ v) ⬝ᵥ N *ᵥ (L x *ᵥ v)).re := fun x _ =>
      mul_nonneg (by linarith [hu x]) (Complex.le_def.mp (hN.dotProduct_mulVec_nonneg (L x *ᵥ v))).1
    have hs : ∑ x, -u x * (star (L x *ᵥ v) ⬝ᵥ N *ᵥ (L x *ᵥ v)).re = 0 := by
      have := congrArg Complex.re h1
      rw [Complex.re_sum] at this
      simp only [Complex.re_ofReal_mul, Complex.zero_re] at this
      simp only [neg_mul, Finset.sum_neg_distrib, this, neg_zero]
    intro x
    have h4 := (Finset.sum_eq_zero_iff_of_nonneg hr).mp hs x (Finset.mem_univ _)
    have h5 := Complex.le_def.mp (hN.dotProduct_mulVec_nonneg (L x *ᵥ v))
    refine Complex.ext ?_ h5.2.symm
    rcases mul_eq_zero.mp h4 with h | h
    · linarith [hu x]
    · exact h
  have h6 : ∀ x, N *ᵥ (L x *ᵥ v) = 0 := fun x => (hN.dotProduct_mulVec_zero_iff _).mp (h3 x)
  refine ⟨h6, ?_⟩
  have h7 : phi K L u N *ᵥ v = 0 := by rw [hE, smul_mulVec, hv, smul_zero]
  unfold phi at h7
  rw [add_mulVec, add_mulVec, ← mulVec_mulVec, hv, mulVec_zero, zero_add, ← mulVec_mulVec, sum_mulVec] at h7
  rw [Finset.sum_eq_zero, add_zero] at h7
  · exact h7
  · intro x _
    rw [smul_mulVec, ← mulVec_mulVec, ← mulVec_mulVec, h6, mulVec_zero, smul_zero]

/-- No subspace is invariant under all of the matrices. -/
def Irreducible (K : Matrix ι ι ℂ) (L : κ → Matrix ι ι ℂ) : Prop :=
  ∀ Z : Submodule ℂ (ι → ℂ), (∀ v ∈ Z, K *ᵥ v ∈ Z) → (∀ x, ∀ v ∈ Z, L x *ᵥ v ∈ Z) → Z = ⊥ ∨ Z = ⊤

theorem zero_or_inj (hK : K.IsHermitian) (hL : ∀ x, (L x).IsHermitian) (hu : ∀ x, u x < 0) (hirr : Irreducible K L) {N : Matrix ι ι ℂ} (hN : N.PosSemidef)
    (hE : phi K L u N = (e : ℂ) • N) : N = 0 ∨ ∀ v, N *ᵥ v = 0 → v = 0 := by
  rcases hirr (LinearMap.ker N.mulVecLin) (fun v hv => (kernel hK hL hu hN hE hv).2) (fun x v hv => (kernel hK hL hu hN hE hv).1 x) with h | h
  · right
    intro v hv
    have : v ∈ LinearMap.ker N.mulVecLin := hv
    rw [h] at this
    exact this
  · left
    ext i j
    have : (Pi.single j 1 : ι → ℂ) ∈ LinearMap.ker N.mulVecLin := by rw [h]; trivial
    have := congrFun (show N *ᵥ Pi.single j 1 = 0 from this) i
    rw [mulVec_single_one] at this
    exact this

/-- A ground state is zero or has a diagonal of one strict sign. -/
theorem definite (hK : K.IsHermitian) (hL : ∀ x, (L x).IsHermitian) (hu : ∀ x, u x < 0) (hirr : Irreducible K L)
    (hmin : ∀ X : Matrix ι ι ℂ, X.IsHermitian → e * (X * X).trace.re ≤ (X * phi K L u X).trace.re)
    (hW : W.IsHermitian) (hE : (W * phi K L u W).trace.re ≤ e * (W * W).trace.re) :
    W = 0 ∨ (∀ i, 0 < (W i i).re) ∨ ∀ i, (W i i).re < 0 := by
  obtain ⟨P, B, hP, hWP, hPN, hNP⟩ := parts hW
  set N := B * Bᴴ with hNd
  have hN : N.PosSemidef := posSemidef_self_mul_conjTranspose B
  have hV : (P + N).IsHermitian := hP.isHermitian.add hN.isHermitian
  have hsq : (P + N) * (P + N) = W * W := by
    rw [hWP, Matrix.add_mul, Matrix.mul_add, Matrix.mul_add, Matrix.sub_mul, Matrix.mul_sub, Matrix.mul_sub, hPN, hNP]; abel
  have hx : ∀ x, (W * (L x * W * L x)).trace.re ≤ ((P + N) * (L x * (P + N) * L x)).trace.re := fun x => by
    have e1 : ((P + N) * (L x * (P + N) * L x)).trace = (W * (L x * W * L x)).trace + 4 * (P * (L x * N * L x)).trace := by
      have s : (N * (L x * P * L x)).trace = (P * (L x * N * L x)).trace := by
        rw [show N * (L x * P * L x) = (N * L x) * (P * L x) by simp only [Matrix.mul_assoc], Matrix.trace_mul_comm]
        simp only [Matrix.mul_assoc]
      rw [hWP]
      simp only [Matrix.mul_add, Matrix.add_mul, Matrix.mul_sub, Matrix.sub_mul, trace_add, trace_sub]
      rw [s]; ring
    have e2 : (P * (L x * N * L x)).trace = ((L x * B)ᴴ * P * (L x * B)).trace := by
      rw [conjTranspose_mul, (hL x).eq, hNd, show P * (L x * (B * Bᴴ) * L x) = (P * (L x * B)) * (Bᴴ * L x) by simp only [Matrix.mul_assoc], Matrix.trace_mul_comm]
      simp only [Matrix.mul_assoc]
    have e3 := (Complex.le_def.mp (hP.conjTranspose_mul_mul_same (L x * B)).trace_nonneg).1
    rw [← e2] at e3
    rw [e1, show (4 : ℂ) = ((4 : ℝ) : ℂ) by norm_num, Complex.add_re, Complex.re_ofReal_mul]
    simp only [Complex.zero_re] at e3
    linarith
  have hform : ∀ X : Matrix ι ι ℂ, (X * phi K L u X).trace.re = 2 * (K * (X * X)).trace.re + ∑ x, u x * (X * (L x * X * L x)).trace.re := fun X => by
    unfold phi
    have h1 : (X * (K * X)).trace = (K * (X * X)).trace := by rw [Matrix.trace_mul_comm, Matrix.mul_assoc]
    have h2 : (X * (X * K)).trace = (K * (X * X)).trace := by rw [← Matrix.mul_assoc, Matrix.trace_mul_comm]
    simp only [Matrix.mul_add, trace_add, Matrix.mul_sum, trace_sum, Matrix.mul_smul, trace_smul, h1, h2, Complex.add_re, Complex.re_sum, smul_eq_mul, Complex.re_ofReal_mul]
    ring
  have hVE : ((P + N) * phi K L u (P + N)).trace.re ≤ e * ((P + N) * (P + N)).trace.re := by
    rw [hsq]
    refine le_trans ?_ hE
    rw [hform, hform, hsq]
    have : ∑ x, u x * ((P + N) * (L x * (P + N) * L x)).trace.re ≤ ∑ x, u x * (W * (L x * W * L x)).trace.re :=
      Finset.sum_le_sum fun x _ => mul_le_mul_of_nonpos_left (hx x) (hu x).le
    linarith
  have s1 := stationary hK hL hmin hW hE
  have s2 := stationary hK hL hmin hV hVE
  have hPe : phi K L u P = (e : ℂ) • P := by
    have : P = (1 / 2 : ℂ) • (W + (P + N)) := by rw [hWP, show P - N + (P + N) = (2 : ℂ) • P by rw [two_smul]; abel, smul_smul]; norm_num
    rw [this, phi_smul, phi_add, s1, s2, ← smul_add, smul_comm]
  have hNe : phi K L u N = (e : ℂ) • N := by
    have : N = (1 / 2 : ℂ) • ((P + N) + (-1 : ℂ) • W) := by
      rw [hWP, show P + N + (-1 : ℂ) • (P - N) = (2 : ℂ) • N by rw [two_smul, neg_one_smul]; abel, smul_smul]; norm_num
    rw [this, phi_smul, phi_add, phi_smul, s1, s2, smul_comm (-1 : ℂ), ← smul_add, smul_comm]
  have hdiag : ∀ {M : Matrix ι ι ℂ}, M.PosSemidef → (∀ v, M *ᵥ v = 0 → v = 0) → ∀ i, 0 < (M i i).re := fun {M} hM hinj i => by
    have h0 := Complex.le_def.mp (hM.diag_nonneg (i := i))
    refine lt_of_le_of_ne h0.1 fun hh => ?_
    have hz : M i i = 0 := Complex.ext hh.symm h0.2.symm
    have h1 : star (Pi.single i 1 : ι → ℂ) ⬝ᵥ M *ᵥ Pi.single i 1 = 0 := by
      rw [mulVec_single_one, ← Pi.single_star, star_one, single_one_dotProduct]
      exact hz
    have h2 := hinj _ ((hM.dotProduct_mulVec_zero_iff _).mp h1)
    have := congrFun h2 i
    simp at this
  rcases zero_or_inj hK hL hu hirr hN hNe with hN0 | hNi
  · rw [hN0, sub_zero] at hWP
    rw [hWP]
    rcases zero_or_inj hK hL hu hirr hP hPe with h | h
    · exact Or.inl h
    · exact Or.inr (Or.inl (hdiag hP h))
  · have hP0 : P = 0 := by
      ext i j
      have : N *ᵥ (P *ᵥ Pi.single j 1) = 0 := by rw [mulVec_mulVec, hNP, zero_mulVec]
      have := congrFun (hNi _ this) i
      rw [mulVec_single_one] at this
      exact this
    refine Or.inr (Or.inr fun i => ?_)
    have := hdiag hN hNi i
    rw [hWP, hP0, zero_sub, Matrix.neg_apply, Complex.neg_re]
    linarith

end Edpyt.Lieb
