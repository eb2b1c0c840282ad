import Verif.Proof.Maxwell
import Mathlib.Analysis.SpecialFunctions.Exponential
import Mathlib.Analysis.Calculus.Deriv.MeanValue
/-!
The derivative of a thermal average with respect to the coefficient of the averaged operator is at least minus `β` times the variance: the derivative of the matrix exponential in any
direction, in the eigenbasis, and the inequality between the logarithmic and the arithmetic mean.
-/
namespace Edpyt
open Matrix Filter Topology
open scoped Matrix.Norms.L2Operator

variable {ι κ : Type} [Fintype ι] [DecidableEq ι] [Fintype κ] [DecidableEq κ] [Nonempty κ]

/-- `2 (1 - exp (-t)) ≤ t (1 + exp (-t))`. -/
theorem log_mean_le {t : ℝ} (ht : 0 ≤ t) : 2 * (1 - Real.exp (-t)) ≤ t * (1 + Real.exp (-t)) := by
  have hd : ∀ t : ℝ, HasDerivAt (fun t : ℝ => t * (1 + Real.exp (-t)) - 2 * (1 - Real.exp (-t))) (1 - (1 + t) * Real.exp (-t)) t := by
    intro t
    have h1 : HasDerivAt (fun t : ℝ => Real.exp (-t)) (Real.exp (-t) * -1) t := (hasDerivAt_neg t).exp
    refine (((hasDerivAt_id t).mul (h1.const_add 1)).sub ((h1.const_sub 1).const_mul 2)).congr_deriv ?_
    simp only [id]
    ring
  have hmono : MonotoneOn (fun t : ℝ => t * (1 + Real.exp (-t)) - 2 * (1 - Real.exp (-t))) Set.univ := by
    refine monotoneOn_of_deriv_nonneg convex_univ (fun t _ => (hd t).continuousAt.continuousWithinAt) (fun t _ => (hd t).differentiableAt.differentiableWithinAt) fun t _ => ?_
    rw [(hd t).deriv]
    have h1 := Real.add_one_le_exp t
    have h2 : Real.exp t * Real.exp (-t) = 1 := by rw [← Real.exp_add]; simp
    have h3 := Real.exp_pos (-t)
    nlinarith
  have := hmono trivial trivial ht
  simp only [neg_zero, Real.exp_zero] at this
  linarith

/-- The divided difference of `exp (-β ·)`, with the derivative on the diagonal. -/
noncomputable def expDiff (β a b : ℝ) : ℝ := if a = b then -β * Real.exp (-β * a) else (Real.exp (-β * a) - Real.exp (-β * b)) / (a - b)

theorem expDiff_ge {β : ℝ} (hβ : 0 < β) (a b : ℝ) : -(β * ((Real.exp (-β * a) + Real.exp (-β * b)) / 2)) ≤ expDiff β a b := by
  unfold expDiff
  split
  · rename_i h
    subst h
    linarith
  rename_i hne
  have key : ∀ {a b : ℝ}, a < b → -(β * ((Real.exp (-β * a) + Real.exp (-β * b)) / 2)) ≤ (Real.exp (-β * a) - Real.exp (-β * b)) / (a - b) := by
    intro a b hab
    have h1 := log_mean_le (t := β * (b - a)) (mul_nonneg hβ.le (sub_nonneg.mpr hab.le))
    have h2 : Real.exp (-β * b) = Real.exp (-β * a) * Real.exp (-(β * (b - a))) := by rw [← Real.exp_add]; congr 1; ring
    rw [h2, le_div_iff_of_neg (by linarith)]
    have h3 := mul_le_mul_of_nonneg_left h1 (Real.exp_pos (-β * a)).le
    nlinarith
  rcases lt_or_gt_of_ne hne with h | h
  · exact key h
  · have := key h
    rw [add_comm (Real.exp (-β * b))] at this
    refine this.trans_eq ?_
    rw [← neg_sub (Real.exp (-β * a)), ← neg_sub a b, neg_div_neg_eq]

theorem exp_fderiv_comm {M N : Matrix ι ι ℝ} (h : Commute M N) : fderiv ℝ (NormedSpace.exp : Matrix ι ι ℝ → Matrix ι ι ℝ) M N = NormedSpace.exp M * N := by
  have hexp : DifferentiableAt ℝ (NormedSpace.exp : Matrix ι ι ℝ → Matrix ι ι ℝ) M := (NormedSpace.exp_analytic (𝕂 := ℝ) M).differentiableAt
  have hc : HasDerivAt (fun s : ℝ => M + s • N) N 0 := by simpa using ((hasDerivAt_id (0 : ℝ)).smul_const N).const_add M
  have h1 : HasDerivAt (NormedSpace.exp ∘ fun s : ℝ => M + s • N) (fderiv ℝ NormedSpace.exp M N) 0 := by
    refine HasFDerivAt.comp_hasDerivAt (0 : ℝ) ?_ hc
    simpa using hexp.hasFDerivAt
  have h2 : HasDerivAt (NormedSpace.exp ∘ fun s : ℝ => M + s • N) (NormedSpace.exp M * N) 0 := by
    have := (hasDerivAt_exp_smul_const (𝕂 := ℝ) N 0).const_mul (NormedSpace.exp M)
    simp only [zero_smul, NormedSpace.exp_zero, one_mul] at this
    refine this.congr_of_eventuallyEq (Eventually.of_forall fun s => ?_)
    exact Matrix.exp_add_of_commute _ _ (h.smul_right s)
  exact h1.unique h2

theorem exp_fderiv_bracket (M Y : Matrix ι ι ℝ) :
    fderiv ℝ (NormedSpace.exp : Matrix ι ι ℝ → Matrix ι ι ℝ) M (M * Y - Y * M) = NormedSpace.exp M * Y - Y * NormedSpace.exp M := by
  have hexp : DifferentiableAt ℝ (NormedSpace.exp : Matrix ι ι ℝ → Matrix ι ι ℝ) M := (NormedSpace.exp_analytic (𝕂 := ℝ) M).differentiableAt
  have e1 : HasDerivAt (fun s : ℝ => NormedSpace.exp (s • Y)) Y 0 := by simpa using hasDerivAt_exp_smul_const (𝕂 := ℝ) Y 0
  have e2 : HasDerivAt (fun s : ℝ => NormedSpace.exp (s • -Y)) (-Y) 0 := by simpa using hasDerivAt_exp_smul_const (𝕂 := ℝ) (-Y) 0
  have conj : ∀ B : Matrix ι ι ℝ, HasDerivAt (fun s : ℝ => NormedSpace.exp (s • -Y) * B * NormedSpace.exp (s • Y)) (B * Y - Y * B) 0 := by
    intro B
    refine ((e2.mul_const B).mul e1).congr_deriv ?_
    simp only [zero_smul, NormedSpace.exp_zero, mul_one, one_mul]
    noncomm_ring
  have h1 : HasDerivAt (NormedSpace.exp ∘ fun s : ℝ => NormedSpace.exp (s • -Y) * M * NormedSpace.exp (s • Y)) (fderiv ℝ NormedSpace.exp M (M * Y - Y * M)) 0 := by
    refine HasFDerivAt.comp_hasDerivAt (0 : ℝ) ?_ (conj M)
    simpa using hexp.hasFDerivAt
  refine h1.unique ((conj (NormedSpace.exp M)).congr_of_eventuallyEq (Eventually.of_forall fun s => ?_))
  have l : NormedSpace.exp (s • Y) * NormedSpace.exp (s • -Y) = 1 := by
    rw [← Matrix.exp_add_of_commute _ _ (((Commute.refl Y).neg_right.smul_left s).smul_right s)]
    simp
  have r : NormedSpace.exp (s • -Y) * NormedSpace.exp (s • Y) = 1 := by
    rw [← Matrix.exp_add_of_commute _ _ (((Commute.refl Y).neg_left.smul_left s).smul_right s)]
    simp
  exact Matrix.exp_units_conj (⟨NormedSpace.exp (s • -Y), NormedSpace.exp (s • Y), r, l⟩ : (Matrix ι ι ℝ)ˣ) M

/-- The second-order coefficient in the eigenbasis. -/
theorem Diag.second {A V : Matrix ι ι ℝ} {E : ι → ℝ} (h : Diag A V E) (β : ℝ) (X : Matrix ι ι ℝ) :
    trace (X * fderiv ℝ (NormedSpace.exp : Matrix ι ι ℝ → Matrix ι ι ℝ) (-β • A) (-β • X)) = ∑ i, ∑ j, (Vᵀ * X * V) i j * (Vᵀ * X * V) j i * expDiff β (E j) (E i) := by
  set X' := Vᵀ * X * V with hX'
  have hX : X = V * X' * Vᵀ := by
    rw [hX', ← Matrix.mul_assoc, ← Matrix.mul_assoc, h.right, Matrix.one_mul, Matrix.mul_assoc, h.right, Matrix.mul_one]
  have conj : ∀ B C : Matrix ι ι ℝ, (V * B * Vᵀ) * (V * C * Vᵀ) = V * (B * C) * Vᵀ := fun B C => by
    rw [Matrix.mul_assoc V B, Matrix.mul_assoc V, ← Matrix.mul_assoc (B * Vᵀ), Matrix.mul_assoc B, ← Matrix.mul_assoc Vᵀ, h.left, Matrix.one_mul]
    simp only [Matrix.mul_assoc]
  let X0 : Matrix ι ι ℝ := Matrix.of fun i j => if E i = E j then X' i j else 0
  let Y0 : Matrix ι ι ℝ := Matrix.of fun i j => if E i = E j then 0 else X' i j / (E i - E j)
  have hM : -β • A = V * diagonal (fun i => -β * E i) * Vᵀ := by
    conv_lhs => rw [h.diag]
    rw [← Matrix.smul_mul, ← Matrix.mul_smul, ← Matrix.diagonal_smul]
    rfl
  have hexp : NormedSpace.exp (-β • A) = V * diagonal (fun i => Real.exp (-β * E i)) * Vᵀ := h.gibbsOp β
  have hcomm : Commute (-β • A) (-β • (V * X0 * Vᵀ)) := by
    rw [hM]
    refine Commute.smul_right ?_ _
    rw [Commute, SemiconjBy, conj, conj]
    congr 2
    ext i j
    rw [Matrix.diagonal_mul, Matrix.mul_diagonal]
    simp only [X0, Matrix.of_apply]
    split
    · rename_i hij
      rw [hij, mul_comm]
    · simp
  have hsplit : -β • X = -β • (V * X0 * Vᵀ) + ((-β • A) * (V * Y0 * Vᵀ) - (V * Y0 * Vᵀ) * (-β • A)) := by
    rw [hM, conj, conj, ← Matrix.sub_mul, ← Matrix.mul_sub, ← Matrix.smul_mul, ← Matrix.mul_smul, ← Matrix.add_mul, ← Matrix.mul_add]
    conv_lhs => rw [hX]
    rw [← Matrix.smul_mul, ← Matrix.mul_smul]
    congr 2
    ext i j
    simp only [Matrix.add_apply, Matrix.sub_apply, Matrix.smul_apply, Matrix.diagonal_mul, Matrix.mul_diagonal, X0, Y0, Matrix.of_apply, smul_eq_mul]
    split
    · simp
    · rename_i hij
      have := sub_ne_zero.mpr hij
      field_simp
      ring
  rw [hsplit, map_add, exp_fderiv_comm hcomm, exp_fderiv_bracket, hexp, ← Matrix.smul_mul, ← Matrix.mul_smul, conj, conj, conj, ← Matrix.sub_mul, ← Matrix.mul_sub, ← Matrix.add_mul, ← Matrix.mul_add]
  conv_lhs => rw [hX]
  rw [conj, Matrix.mul_assoc, Matrix.trace_mul_comm, Matrix.mul_assoc, h.left, Matrix.mul_one]
  simp only [Matrix.trace, Matrix.diag_apply, Matrix.mul_apply]
  refine Finset.sum_congr rfl fun i _ => Finset.sum_congr rfl fun j _ => ?_
  rw [mul_assoc]
  congr 1
  simp only [Matrix.add_apply, Matrix.sub_apply, Matrix.smul_apply, Matrix.diagonal_mul, Matrix.mul_diagonal, X0, Y0, Matrix.of_apply, smul_eq_mul, expDiff]
  by_cases hij : E j = E i
  · rw [if_pos hij, if_pos hij, if_pos hij]
    ring
  · rw [if_neg hij, if_neg hij, if_neg hij]
    ring

theorem Diag.second_ge {A V : Matrix ι ι ℝ} {E : ι → ℝ} (h : Diag A V E) {β : ℝ} (hβ : 0 < β) {X : Matrix ι ι ℝ} (hX : X.IsSymm) :
    -(β * trace (X * X * NormedSpace.exp (-β • A))) ≤ trace (X * fderiv ℝ (NormedSpace.exp : Matrix ι ι ℝ → Matrix ι ι ℝ) (-β • A) (-β • X)) := by
  rw [h.second]
  set X' := Vᵀ * X * V with hX'
  have hs : ∀ i j, X' j i = X' i j := by
    have : X'ᵀ = X' := by rw [hX', Matrix.transpose_mul, Matrix.transpose_mul, Matrix.transpose_transpose, hX.eq, Matrix.mul_assoc]
    intro i j
    exact congrFun (congrFun this i) j
  have hexp : NormedSpace.exp (-β • A) = V * diagonal (fun i => Real.exp (-β * E i)) * Vᵀ := h.gibbsOp β
  have htr : trace (X * X * NormedSpace.exp (-β • A)) = ∑ i, ∑ j, X' i j ^ 2 * Real.exp (-β * E i) := by
    have e : Vᵀ * (X * X) * V = X' * X' := by
      rw [hX']
      calc Vᵀ * (X * X) * V = Vᵀ * X * 1 * X * V := by rw [Matrix.mul_one, Matrix.mul_assoc Vᵀ X X]
        _ = _ := by rw [← h.right]; simp only [Matrix.mul_assoc]
    rw [hexp, ← Matrix.mul_assoc, Matrix.trace_mul_comm, ← Matrix.mul_assoc, ← Matrix.mul_assoc, e]
    simp only [Matrix.trace, Matrix.diag_apply, Matrix.mul_diagonal]
    refine Finset.sum_congr rfl fun i _ => ?_
    rw [Matrix.mul_apply, Finset.sum_mul]
    refine Finset.sum_congr rfl fun j _ => ?_
    rw [hs i j, pow_two]
  have hsw : trace (X * X * NormedSpace.exp (-β • A)) = ∑ i, ∑ j, X' i j ^ 2 * ((Real.exp (-β * E j) + Real.exp (-β * E i)) / 2) := by
    have h2 : trace (X * X * NormedSpace.exp (-β • A)) = ∑ i, ∑ j, X' i j ^ 2 * Real.exp (-β * E j) := by
      rw [htr, Finset.sum_comm]
      exact Finset.sum_congr rfl fun i _ => Finset.sum_congr rfl fun j _ => by rw [hs]
    have h3 : ∑ i, ∑ j, X' i j ^ 2 * ((Real.exp (-β * E j) + Real.exp (-β * E i)) / 2) =
        ((∑ i, ∑ j, X' i j ^ 2 * Real.exp (-β * E j)) + ∑ i, ∑ j, X' i j ^ 2 * Real.exp (-β * E i)) / 2 := by
      rw [← Finset.sum_add_distrib, Finset.sum_div]
      refine Finset.sum_congr rfl fun i _ => ?_
      rw [← Finset.sum_add_distrib, Finset.sum_div]
      exact Finset.sum_congr rfl fun j _ => by ring
    rw [h3, ← htr, ← h2]
    ring
  rw [hsw, Finset.mul_sum, ← Finset.sum_neg_distrib]
  refine Finset.sum_le_sum fun i _ => ?_
  rw [Finset.mul_sum, ← Finset.sum_neg_distrib]
  refine Finset.sum_le_sum fun j _ => ?_
  rw [hs i j, ← pow_two]
  have := mul_le_mul_of_nonneg_left (expDiff_ge hβ (E j) (E i)) (sq_nonneg (X' i j))
  linarith

theorem EigBasis.trace_avg {H : Matrix ι ι ℝ} {u : κ → ι → ℝ} {E : κ → ℝ} (h : EigBasis H u E) (β : ℝ) (B : Matrix ι ι ℝ) :
    trace (B * NormedSpace.exp (-β • H)) = ∑ k, Real.exp (-β * E k) * (u k ⬝ᵥ B *ᵥ u k) := by
  obtain ⟨e⟩ : Nonempty (ι ≃ κ) := Fintype.card_eq.mp h.card.symm
  have hd := h.diag e
  have hg : NormedSpace.exp (-β • H) = _ := hd.gibbsOp β
  rw [hg, ← Matrix.mul_assoc, Matrix.trace_mul_comm, ← Matrix.mul_assoc, ← Matrix.mul_assoc, ← e.sum_comp fun k => Real.exp (-β * E k) * (u k ⬝ᵥ B *ᵥ u k)]
  simp only [Matrix.trace, Matrix.diag_apply, Matrix.mul_diagonal]
  refine Finset.sum_congr rfl fun i _ => ?_
  rw [mul_comm, Matrix.mul_assoc, Matrix.mul_apply]
  rfl

theorem avgOf_trace {H : Matrix ι ι ℝ} {u : κ → ι → ℝ} {E : κ → ℝ} (h : EigBasis H u E) (β : ℝ) (B : Matrix ι ι ℝ) :
    avgOf β B u E = trace (B * NormedSpace.exp (-β • H)) / trace (NormedSpace.exp (-β • H)) := by
  rw [h.trace_avg, h.trace_boltzmann]
  rfl

variable {A X : Matrix ι ι ℝ} {u : ℝ → κ → ι → ℝ} {E : ℝ → κ → ℝ} {β : ℝ}

/-- The derivative of an average with respect to its own parameter, from the derivative of the matrix exponential. -/
theorem response_formula (hβ : 0 < β) (hE : ∀ s, EigBasis (A + s • X) (u s) (E s)) (s₀ : ℝ) :
    HasDerivAt (fun s => avgOf β X (u s) (E s)) (trace (X * fderiv ℝ (NormedSpace.exp : Matrix ι ι ℝ → Matrix ι ι ℝ) (-β • (A + s₀ • X)) (-β • X)) / trace (NormedSpace.exp (-β • (A + s₀ • X))) +
      β * avgOf β X (u s₀) (E s₀) ^ 2) s₀ := by
  set M := -β • (A + s₀ • X) with hM
  set L := fderiv ℝ (NormedSpace.exp : Matrix ι ι ℝ → Matrix ι ι ℝ) M with hL
  have hexp : HasDerivAt (fun s : ℝ => NormedSpace.exp (-β • (A + s • X))) (L (-β • X)) s₀ := by
    have hc : HasDerivAt (fun s : ℝ => -β • (A + s • X)) (-β • X) s₀ := by
      exact ((((hasDerivAt_id s₀).smul_const X).const_add A).const_smul (-β)).congr_deriv (by simp)
    exact HasFDerivAt.comp_hasDerivAt s₀ (NormedSpace.exp_analytic (𝕂 := ℝ) M).differentiableAt.hasFDerivAt hc
  have htr : ∀ B : Matrix ι ι ℝ, HasDerivAt (fun s : ℝ => trace (B * NormedSpace.exp (-β • (A + s • X)))) (trace (B * L (-β • X))) s₀ := by
    intro B
    exact ((LinearMap.toContinuousLinearMap (Matrix.traceLinearMap ι ℝ ℝ)).hasFDerivAt.comp_hasDerivAt s₀ (hexp.const_mul B))
  have hZ : HasDerivAt (fun s : ℝ => trace (NormedSpace.exp (-β • (A + s • X)))) (trace (L (-β • X))) s₀ := by simpa using htr 1
  have hZpos : 0 < trace (NormedSpace.exp M) := by
    rw [(hE s₀).trace_boltzmann]
    exact Finset.sum_pos (fun k _ => Real.exp_pos _) Finset.univ_nonempty
  -- the derivative of the partition function
  have hZ' : trace (L (-β • X)) = -β * trace (X * NormedSpace.exp M) := by
    have h1 := line_deriv (A := fun s => A + s • X) (B := X) hβ (fun s s' => by rw [add_sub_add_left_eq_sub, sub_smul]) hE s₀
    have h2 : HasDerivAt (fun s => -Real.log (∑ i, Real.exp (-β * E s i)) / β) (-(trace (L (-β • X)) / trace (NormedSpace.exp M)) / β) s₀ := by
      have := ((hZ.log hZpos.ne').neg.div_const β)
      refine this.congr_of_eventuallyEq (Eventually.of_forall fun s => ?_)
      change _ = -Real.log (trace (NormedSpace.exp (-β • (A + s • X)))) / β
      rw [(hE s).trace_boltzmann]
    have h3 := h1.unique h2
    rw [avgOf_trace (hE s₀), ← hM] at h3
    have := hZpos.ne'
    have := hβ.ne'
    field_simp at h3
    linarith
  have hq := (htr X).div hZ hZpos.ne'
  refine (hq.congr_of_eventuallyEq (Eventually.of_forall fun s => avgOf_trace (hE s) β X)).congr_deriv ?_
  rw [avgOf_trace (hE s₀), hZ', ← hM]
  field_simp
  ring

/-- The response of an average to its own parameter is at least minus `β` times the variance. -/
theorem response_variance (hβ : 0 < β) (hX : X.IsSymm) (hE : ∀ s, EigBasis (A + s • X) (u s) (E s)) (s₀ : ℝ) :
    ∃ χ : ℝ, HasDerivAt (fun s => avgOf β X (u s) (E s)) χ s₀ ∧ -(β * (avgOf β (X * X) (u s₀) (E s₀) - avgOf β X (u s₀) (E s₀) ^ 2)) ≤ χ := by
  refine ⟨_, response_formula hβ hE s₀, ?_⟩
  have hZpos : 0 < trace (NormedSpace.exp (-β • (A + s₀ • X))) := by
    rw [(hE s₀).trace_boltzmann]
    exact Finset.sum_pos (fun k _ => Real.exp_pos _) Finset.univ_nonempty
  obtain ⟨e⟩ : Nonempty (ι ≃ κ) := Fintype.card_eq.mp (hE s₀).card.symm
  have h2 := div_le_div_of_nonneg_right (((hE s₀).diag e).second_ge hβ hX) hZpos.le
  rw [avgOf_trace (hE s₀) β (X * X)]
  rw [neg_div, mul_div_assoc] at h2
  linarith

/-- If the operator commutes with the Hamiltonian, the response is minus `β` times the variance. -/
theorem response_commute (hβ : 0 < β) (hE : ∀ s, EigBasis (A + s • X) (u s) (E s)) (s₀ : ℝ) (hc : Commute (A + s₀ • X) X) :
    HasDerivAt (fun s => avgOf β X (u s) (E s)) (-(β * (avgOf β (X * X) (u s₀) (E s₀) - avgOf β X (u s₀) (E s₀) ^ 2))) s₀ := by
  refine (response_formula hβ hE s₀).congr_deriv ?_
  have hc' : Commute (-β • (A + s₀ • X)) (-β • X) := (hc.smul_left _).smul_right _
  rw [exp_fderiv_comm hc', avgOf_trace (hE s₀) β (X * X), Matrix.mul_smul, Matrix.mul_smul, Matrix.trace_smul, ← Matrix.mul_assoc, Matrix.trace_mul_comm, ← Matrix.mul_assoc, smul_eq_mul]
  ring

theorem EigBasis.commute {H B : Matrix ι ι ℝ} {v : κ → ι → ℝ} {F g : κ → ℝ} (h : EigBasis H v F) (h' : EigBasis B v g) : Commute H B := by
  obtain ⟨e⟩ : Nonempty (ι ≃ κ) := Fintype.card_eq.mp h.card.symm
  have h1 := h.diag e
  have h2 := h'.diag e
  rw [Commute, SemiconjBy, h1.diag, h2.diag]
  set V : Matrix ι ι ℝ := Matrix.of fun i a => v (e a) i
  have conj : ∀ P Q : Matrix ι ι ℝ, (V * P * Vᵀ) * (V * Q * Vᵀ) = V * (P * Q) * Vᵀ := fun P Q => by
    rw [Matrix.mul_assoc V P, Matrix.mul_assoc V, ← Matrix.mul_assoc (P * Vᵀ), Matrix.mul_assoc P, ← Matrix.mul_assoc Vᵀ, h1.left, Matrix.one_mul]
    simp only [Matrix.mul_assoc]
  rw [conj, conj, Matrix.diagonal_mul_diagonal, Matrix.diagonal_mul_diagonal]
  simp only [mul_comm]

end Edpyt
