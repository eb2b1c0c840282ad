import Verif.Proof.Thermal
import Verif.Proof.Fock
import Verif.Spec.Ground
import Mathlib.Analysis.SpecialFunctions.Exp
/-!
Thermal averages as functions of the temperature: continuity, infinite temperature, and the limit of zero temperature with its rate.
-/
namespace Edpyt
open Matrix Spec Filter Topology
variable {ι : Type} [Fintype ι] [DecidableEq ι] {H U P : Matrix ι ι ℝ} {E : ι → ℝ} {E0 : ℝ}

theorem LevelProj.diag (h : Diag H U E) (hP : LevelProj H E0 P) : P = U * diagonal (fun a => if E a = E0 then 1 else 0) * Uᵀ := by
  have hHU : H * U = U * diagonal E := by
    conv_lhs => rw [h.diag]
    rw [Matrix.mul_assoc, h.left, Matrix.mul_one]
  have hUH : Uᵀ * H = diagonal E * Uᵀ := by
    conv_lhs => rw [h.diag]
    rw [← Matrix.mul_assoc, ← Matrix.mul_assoc, h.left, Matrix.one_mul]
  have hQ : Uᵀ * P * U = diagonal (fun a => if E a = E0 then 1 else 0) := by
    have hs : (Uᵀ * P * U)ᵀ = Uᵀ * P * U := by
      rw [Matrix.transpose_mul, Matrix.transpose_mul, Matrix.transpose_transpose, hP.symm, Matrix.mul_assoc]
    have h1 : ∀ b a, (E b - E0) * (Uᵀ * P * U) b a = 0 := fun b a => by
      have := congrArg (fun M => Uᵀ * M * U) hP.range
      beta_reduce at this
      rw [← Matrix.mul_assoc Uᵀ H, hUH, Matrix.mul_smul, Matrix.smul_mul, Matrix.mul_assoc, Matrix.mul_assoc] at this
      have := congrFun (congrFun this b) a
      rw [Matrix.diagonal_mul, Matrix.smul_apply, smul_eq_mul, ← Matrix.mul_assoc] at this
      linarith
    have h2 : ∀ b a, E a = E0 → (Uᵀ * P * U) b a = if b = a then 1 else 0 := fun b a ha => by
      have hx : H *ᵥ (fun i => U i a) = E0 • fun i => U i a := by
        funext i
        have := congrFun (congrFun hHU i) a
        rw [Matrix.mul_diagonal, ha] at this
        rw [Pi.smul_apply, smul_eq_mul, mul_comm, ← this]
        rfl
      have hf := hP.fixes _ hx
      have : (Uᵀ * (P * U)) b a = (Uᵀ * U) b a := by
        rw [Matrix.mul_apply, Matrix.mul_apply]
        refine Finset.sum_congr rfl fun i _ => ?_
        congr 1
        exact congrFun hf i
      rw [Matrix.mul_assoc, this, h.left, Matrix.one_apply]
    ext b a
    rw [Matrix.diagonal_apply]
    by_cases ha : E a = E0
    · rw [h2 b a ha]
      by_cases hba : b = a
      · rw [if_pos hba, if_pos hba, hba, if_pos ha]
      · rw [if_neg hba, if_neg hba]
    · by_cases hb : E b = E0
      · rw [if_neg (show ¬ b = a from fun hh => ha (hh ▸ hb))]
        have := congrFun (congrFun hs b) a
        rw [Matrix.transpose_apply] at this
        rw [← this, h2 a b hb, if_neg (show ¬ a = b from fun hh => ha (hh.symm ▸ hb))]
      · have := h1 b a
        rw [mul_eq_zero, or_iff_right (sub_ne_zero.mpr hb)] at this
        rw [this]
        split_ifs <;> rfl
  rw [← hQ]
  calc P = (U * Uᵀ) * P * (U * Uᵀ) := by rw [h.right, Matrix.one_mul, Matrix.mul_one]
    _ = _ := by simp only [Matrix.mul_assoc]

theorem Diag.levelProj (h : Diag H U E) (E0 : ℝ) : LevelProj H E0 (U * diagonal (fun a => if E a = E0 then 1 else 0) * Uᵀ) := by
  refine ⟨?_, ?_, fun x hx => ?_⟩
  · rw [Matrix.transpose_mul, Matrix.transpose_mul, Matrix.transpose_transpose, Matrix.diagonal_transpose, Matrix.mul_assoc]
  · conv_lhs => rw [h.diag]
    rw [← Matrix.mul_assoc, ← Matrix.mul_assoc, Matrix.mul_assoc (U * diagonal E), h.left, Matrix.mul_one, Matrix.mul_assoc U, Matrix.diagonal_mul_diagonal, ← Matrix.smul_mul, ← Matrix.mul_smul,
      ← Matrix.diagonal_smul]
    congr 3
    funext a
    rw [Pi.smul_apply, smul_eq_mul]
    split_ifs with h1
    · rw [h1]
    · ring
  · have hy : diagonal E *ᵥ (Uᵀ *ᵥ x) = E0 • (Uᵀ *ᵥ x) := by
      have := congrArg (fun y => Uᵀ *ᵥ y) hx
      beta_reduce at this
      rw [Matrix.mulVec_smul] at this
      rw [← this]
      conv_rhs => rw [h.diag]
      rw [Matrix.mulVec_mulVec, Matrix.mulVec_mulVec, ← Matrix.mul_assoc, ← Matrix.mul_assoc, h.left, Matrix.one_mul]
    rw [Matrix.mul_assoc, ← Matrix.mulVec_mulVec, ← Matrix.mulVec_mulVec]
    have hd : diagonal (fun a => if E a = E0 then (1 : ℝ) else 0) *ᵥ (Uᵀ *ᵥ x) = Uᵀ *ᵥ x := by
      funext a
      have := congrFun hy a
      rw [Matrix.mulVec_diagonal] at this ⊢
      rw [Pi.smul_apply, smul_eq_mul] at this
      split_ifs with h1
      · rw [one_mul]
      · have : (E a - E0) * (Uᵀ *ᵥ x) a = 0 := by linarith
        rw [mul_eq_zero, or_iff_right (sub_ne_zero.mpr h1)] at this
        rw [this, mul_zero]
    rw [hd, Matrix.mulVec_mulVec, h.right, Matrix.one_mulVec]

/-- Diagonal elements in the eigenbasis. -/
noncomputable def eigElem (U : Matrix ι ι ℝ) (A : Matrix ι ι ℂ) (a : ι) : ℂ := (cplx Uᵀ * A * cplx U) a a

theorem eigElem_one (h : Diag H U E) (a : ι) : eigElem U 1 a = 1 := by
  unfold eigElem
  rw [Matrix.mul_one, ← cplx_mul', h.left, cplx_one, Matrix.one_apply_eq]

theorem LevelProj.avg (h : Diag H U E) (hP : LevelProj H E0 P) (A : Matrix ι ι ℂ) :
    levelAvg P A = (∑ a ∈ Finset.univ.filter fun a => E a = E0, eigElem U A a) / ((Finset.univ.filter fun a => E a = E0).card : ℂ) := by
  unfold levelAvg
  have e : ∀ A : Matrix ι ι ℂ, trace (cplx P * A) = ∑ a ∈ Finset.univ.filter fun a => E a = E0, eigElem U A a := fun A => by
    rw [LevelProj.diag h hP, trace_conj, Finset.sum_filter]
    refine Finset.sum_congr rfl fun a _ => ?_
    unfold eigElem
    split_ifs <;> simp
  have h1 := e 1
  rw [Matrix.mul_one] at h1
  rw [e, h1, Finset.sum_congr rfl fun a _ => eigElem_one h a]
  simp

/-- Measuring energies from another zero does not change a thermal average. -/
theorem Diag.thermal_shift (h : Diag H U E) (β E0 : ℝ) (A : Matrix ι ι ℂ) :
    Spec.thermal β H A = (∑ a, (Real.exp (-β * (E a - E0)) : ℂ) * eigElem U A a) / ((∑ a, Real.exp (-β * (E a - E0)) : ℝ) : ℂ) := by
  rw [h.thermal]
  have e : ∀ a, Real.exp (-β * E a) = Real.exp (-β * E0) * Real.exp (-β * (E a - E0)) := fun a => by rw [← Real.exp_add]; ring_nf
  simp only [e]
  rw [← Finset.mul_sum]
  push_cast
  conv_rhs => rw [← mul_div_mul_left _ _ (show (Complex.exp (-β * E0)) ≠ 0 from Complex.exp_ne_zero _), Finset.mul_sum]
  congr 1
  exact Finset.sum_congr rfl fun a _ => by unfold eigElem; push_cast; ring

theorem Diag.thermal_continuous [Nonempty ι] (h : Diag H U E) (A : Matrix ι ι ℂ) : Continuous fun β : ℝ => Spec.thermal β H A := by
  have e : (fun β : ℝ => Spec.thermal β H A) = fun β : ℝ => (∑ a, (Real.exp (-β * E a) : ℂ) * (cplx Uᵀ * A * cplx U) a a) / ((∑ a, Real.exp (-β * E a) : ℝ) : ℂ) := by
    funext β
    exact h.thermal β A
  rw [e]
  refine Continuous.div ?_ ?_ fun β => ?_
  · refine continuous_finset_sum _ fun a _ => ?_
    exact (Complex.continuous_ofReal.comp (Real.continuous_exp.comp (by fun_prop))).mul continuous_const
  · exact Complex.continuous_ofReal.comp (continuous_finset_sum _ fun a _ => Real.continuous_exp.comp (by fun_prop))
  · rw [Complex.ofReal_ne_zero]
    exact (Finset.sum_pos (fun i _ => Real.exp_pos _) Finset.univ_nonempty).ne'

theorem thermal_zero (H : Matrix ι ι ℝ) (A : Matrix ι ι ℂ) : Spec.thermal 0 H A = trace A / Fintype.card ι := by
  unfold Spec.thermal Spec.gibbsOp
  rw [neg_zero, zero_smul, NormedSpace.exp_zero, cplx_one, Matrix.one_mul, Matrix.trace_one]

theorem Diag.thermal_cold (h : Diag H U E) (hP : LevelProj H E0 P) (hE : IsLeast (Set.range E) E0) (A : Matrix ι ι ℂ) :
    Tendsto (fun β : ℝ => Spec.thermal β H A) atTop (𝓝 (levelAvg P A)) := by
  rw [LevelProj.avg h hP]
  have e : (fun β : ℝ => Spec.thermal β H A) = fun β : ℝ => (∑ a, (Real.exp (-β * (E a - E0)) : ℂ) * eigElem U A a) / ((∑ a, Real.exp (-β * (E a - E0)) : ℝ) : ℂ) := by
    funext β
    exact h.thermal_shift β E0 A
  have hw : ∀ a, Tendsto (fun β : ℝ => Real.exp (-β * (E a - E0))) atTop (𝓝 (if E a = E0 then 1 else 0)) := fun a => by
    split_ifs with ha
    · simp [ha]
    · have hpos : 0 < E a - E0 := sub_pos.mpr (lt_of_le_of_ne (hE.2 ⟨a, rfl⟩) (Ne.symm ha))
      exact Real.tendsto_exp_atBot.comp (tendsto_neg_atTop_atBot.atBot_mul_const hpos)
  rw [e]
  refine Tendsto.div ?_ ?_ ?_
  · have : Tendsto (fun β : ℝ => ∑ a, (Real.exp (-β * (E a - E0)) : ℂ) * eigElem U A a) atTop (𝓝 (∑ a, ((if E a = E0 then 1 else 0 : ℝ) : ℂ) * eigElem U A a)) :=
      tendsto_finsetSum _ fun a _ => ((Complex.continuous_ofReal.tendsto _).comp (hw a)).mul_const _
    rw [Finset.sum_filter]
    convert this using 2
    refine Finset.sum_congr rfl fun a _ => ?_
    split_ifs <;> simp
  · have : Tendsto (fun β : ℝ => ((∑ a, Real.exp (-β * (E a - E0)) : ℝ) : ℂ)) atTop (𝓝 ((∑ a, (if E a = E0 then 1 else 0) : ℝ) : ℂ)) :=
      (Complex.continuous_ofReal.tendsto _).comp (tendsto_finsetSum _ fun a _ => hw a)
    rw [Finset.sum_boole] at this
    exact_mod_cast this
  · obtain ⟨a, ha⟩ := hE.1
    have : 0 < (Finset.univ.filter fun a => E a = E0).card := Finset.card_pos.mpr ⟨a, by simp [ha]⟩
    exact_mod_cast this.ne'

/-- The rate of the limit, for an operator whose diagonal elements in the eigenbasis are within `C` of a number `c`. -/
theorem Diag.thermal_rate (h : Diag H U E) (hP : LevelProj H E0 P) (hE : IsLeast (Set.range E) E0) {Δ β : ℝ} (hβ : 0 ≤ β) (hgap : ∀ a, E a = E0 ∨ E0 + Δ ≤ E a)
    (A : Matrix ι ι ℂ) {c : ℂ} {C : ℝ} (hC : ∀ a, ‖eigElem U A a - c‖ ≤ C) : ‖Spec.thermal β H A - levelAvg P A‖ ≤ 2 * C * (Fintype.card ι * Real.exp (-β * Δ)) := by
  rw [LevelProj.avg h hP, h.thermal_shift β E0]
  set G := Finset.univ.filter fun a => E a = E0
  set F := Finset.univ.filter fun a => ¬ E a = E0
  obtain ⟨a0, ha0⟩ := hE.1
  have hm : 0 < G.card := Finset.card_pos.mpr ⟨a0, by simp [G, ha0]⟩
  have hm1 : (1 : ℝ) ≤ G.card := by exact_mod_cast hm
  have hC0 : 0 ≤ C := (norm_nonneg _).trans (hC a0)
  set T := ∑ a ∈ F, Real.exp (-β * (E a - E0))
  have hT0 : 0 ≤ T := Finset.sum_nonneg fun a _ => (Real.exp_pos _).le
  have hT : T ≤ Fintype.card ι * Real.exp (-β * Δ) := by
    refine (Finset.sum_le_card_nsmul F _ (Real.exp (-β * Δ)) fun a ha => ?_).trans ?_
    · rcases hgap a with h1 | h1
      · exact absurd h1 (Finset.mem_filter.mp ha).2
      · exact Real.exp_le_exp.mpr (by nlinarith)
    · rw [nsmul_eq_mul]
      exact mul_le_mul_of_nonneg_right (by exact_mod_cast Finset.card_le_univ _) (Real.exp_pos _).le
  have hZ : ∑ a, Real.exp (-β * (E a - E0)) = G.card + T := by
    rw [← Finset.sum_filter_add_sum_filter_not Finset.univ fun a => E a = E0]
    congr 1
    rw [Finset.sum_congr rfl fun a ha => by rw [(Finset.mem_filter.mp ha).2, sub_self, mul_zero, Real.exp_zero]]
    simp [G]
  set x := fun a => eigElem U A a - c
  have hx : ∀ a, eigElem U A a = c + x a := fun a => by simp [x]
  have hN : ∑ a, (Real.exp (-β * (E a - E0)) : ℂ) * eigElem U A a = c * ((G.card + T : ℝ) : ℂ) + (∑ a ∈ G, x a + ∑ a ∈ F, (Real.exp (-β * (E a - E0)) : ℂ) * x a) := by
    simp only [hx, mul_add, Finset.sum_add_distrib]
    congr 1
    · rw [← Finset.sum_mul, ← hZ]
      push_cast
      ring
    · rw [← Finset.sum_filter_add_sum_filter_not Finset.univ fun a => E a = E0]
      congr 1
      exact Finset.sum_congr rfl fun a ha => by rw [(Finset.mem_filter.mp ha).2, sub_self, mul_zero, Real.exp_zero]; simp
  have hS : ∑ a ∈ G, eigElem U A a = c * (G.card : ℂ) + ∑ a ∈ G, x a := by
    simp only [hx, Finset.sum_add_distrib]
    simp [mul_comm]
  rw [hN, hS, hZ]
  set S := ∑ a ∈ G, x a
  set R := ∑ a ∈ F, (Real.exp (-β * (E a - E0)) : ℂ) * x a
  have hSn : ‖S‖ ≤ G.card * C := (norm_sum_le _ _).trans ((Finset.sum_le_card_nsmul _ _ C fun a _ => hC a).trans (by rw [nsmul_eq_mul]))
  have hRn : ‖R‖ ≤ T * C := by
    refine (norm_sum_le _ _).trans ?_
    rw [Finset.sum_mul]
    refine Finset.sum_le_sum fun a _ => ?_
    rw [norm_mul, Complex.norm_real, Real.norm_of_nonneg (Real.exp_pos _).le]
    exact mul_le_mul_of_nonneg_left (hC a) (Real.exp_pos _).le
  clear_value T S R
  generalize (G.card) = m at *
  have hmc : (m : ℂ) ≠ 0 := by exact_mod_cast hm.ne'
  have hzpos : (0 : ℝ) < m + T := by linarith
  have hzc : ((m + T : ℝ) : ℂ) ≠ 0 := by exact_mod_cast hzpos.ne'
  have e : (c * ((m + T : ℝ) : ℂ) + (S + R)) / ((m + T : ℝ) : ℂ) - (c * (m : ℂ) + S) / (m : ℂ) = (R - ((T / m : ℝ) : ℂ) * S) / ((m + T : ℝ) : ℂ) := by
    push_cast at hzc ⊢
    field_simp
    ring
  rw [e, norm_div, Complex.norm_real, Real.norm_of_nonneg hzpos.le, div_le_iff₀ hzpos]
  have hTS : ‖((T / m : ℝ) : ℂ) * S‖ ≤ T * C := by
    rw [norm_mul, Complex.norm_real, Real.norm_of_nonneg (by positivity)]
    calc T / m * ‖S‖ ≤ T / m * (m * C) := mul_le_mul_of_nonneg_left hSn (by positivity)
      _ = T * C := by field_simp
  have h1 := (norm_sub_le R (((T / m : ℝ) : ℂ) * S)).trans (add_le_add hRn hTS)
  have h2 : T * C ≤ Fintype.card ι * Real.exp (-β * Δ) * C := mul_le_mul_of_nonneg_right hT hC0
  have h3 : (0 : ℝ) ≤ Fintype.card ι * Real.exp (-β * Δ) * C := by positivity
  nlinarith

end Edpyt
