import Mathlib.Analysis.SpecialFunctions.Log.Basic
import Mathlib.Algebra.BigOperators.Group.Finset.Sigma
import Mathlib.Algebra.BigOperators.Ring.Finset
import Mathlib.Algebra.Order.BigOperators.Group.Finset
import Mathlib.Data.Fintype.Prod
import Mathlib.Algebra.BigOperators.Fin
/-!
Entropy production of processes that come with their reverse: `g e j f i` is the rate of the processes that take the system from `i` to `f` and an electron from lead `e` to lead `j`.
-/
namespace Edpyt.Elastic

variable {κ ι : Type} [Fintype κ] [Fintype ι]

/-- Reversal of a process. -/
def turn : κ × κ × ι × ι ≃ κ × κ × ι × ι where
  toFun x := (x.2.1, x.1, x.2.2.2, x.2.2.1)
  invFun x := (x.2.1, x.1, x.2.2.2, x.2.2.1)
  left_inv _ := rfl
  right_inv _ := rfl

/-- Rates, populations and forces of reversible processes in a stationary state. -/
structure Flow (g : κ → κ → ι → ι → ℝ) (p : ι → ℝ) (u : κ → κ → ℝ) : Prop where
  nonneg : ∀ e j f i, 0 ≤ g e j f i
  pos : ∀ i, 0 < p i
  anti : ∀ e j, u j e = -u e j
  rev : ∀ e j f i, g j e i f = Real.exp (-u e j) * g e j f i
  stat : ∀ i, ∑ f, (∑ e, ∑ j, g e j f i) * p i = ∑ f, (∑ e, ∑ j, g e j i f) * p f

variable {g : κ → κ → ι → ι → ℝ} {p : ι → ℝ} {u : κ → κ → ℝ}

/-- The net flow of a process times its force. -/
noncomputable def prod (g : κ → κ → ι → ι → ℝ) (p : ι → ℝ) (u : κ → κ → ℝ) (x : κ × κ × ι × ι) : ℝ :=
  (g x.1 x.2.1 x.2.2.1 x.2.2.2 * p x.2.2.2 - g x.2.1 x.1 x.2.2.2 x.2.2.1 * p x.2.2.1) * (u x.1 x.2.1 + (Real.log (p x.2.2.2) - Real.log (p x.2.2.1)))

theorem exp_diff (a b : ℝ) : 0 ≤ (Real.exp a - Real.exp b) * (a - b) := by
  rcases le_total a b with h | h
  · exact mul_nonneg_of_nonpos_of_nonpos (sub_nonpos.mpr (Real.exp_le_exp.mpr h)) (sub_nonpos.mpr h)
  · exact mul_nonneg (sub_nonneg.mpr (Real.exp_le_exp.mpr h)) (sub_nonneg.mpr h)

theorem Flow.prod_eq (h : Flow g p u) (x : κ × κ × ι × ι) : prod g p u x = g x.1 x.2.1 x.2.2.1 x.2.2.2 *
    ((Real.exp (Real.log (p x.2.2.2)) - Real.exp (Real.log (p x.2.2.1) - u x.1 x.2.1)) * (Real.log (p x.2.2.2) - (Real.log (p x.2.2.1) - u x.1 x.2.1))) := by
  rw [prod, h.rev x.1 x.2.1 x.2.2.1 x.2.2.2, Real.exp_sub, Real.exp_log (h.pos _), Real.exp_log (h.pos _), Real.exp_neg]
  ring

theorem Flow.prod_nonneg (h : Flow g p u) (x : κ × κ × ι × ι) : 0 ≤ prod g p u x := by
  rw [h.prod_eq]
  exact mul_nonneg (h.nonneg _ _ _ _) (exp_diff _ _)

theorem sum4 (X : κ → κ → ι → ι → ℝ) : ∑ x : κ × κ × ι × ι, X x.1 x.2.1 x.2.2.1 x.2.2.2 = ∑ f, ∑ i, ∑ e, ∑ j, X e j f i := by
  rw [Fintype.sum_prod_type]
  have : ∀ e, ∑ y : κ × ι × ι, X e y.1 y.2.1 y.2.2 = ∑ f, ∑ i, ∑ j, X e j f i := by
    intro e
    rw [Fintype.sum_prod_type, ← Fintype.sum_prod_type' (f := fun f i => ∑ j, X e j f i), Finset.sum_comm]
  simp only [this]
  rw [Finset.sum_comm]
  exact Finset.sum_congr rfl fun f _ => Finset.sum_comm

/-- The entropy production of a stationary state is the work of the leads. -/
theorem Flow.total (h : Flow g p u) : ∑ x, prod g p u x = 2 * ∑ x : κ × κ × ι × ι, u x.1 x.2.1 * (g x.1 x.2.1 x.2.2.1 x.2.2.2 * p x.2.2.2) := by
  set X : κ × κ × ι × ι → ℝ := fun x => g x.1 x.2.1 x.2.2.1 x.2.2.2 * p x.2.2.2 with hX
  set Y : κ × κ × ι × ι → ℝ := fun x => u x.1 x.2.1 + (Real.log (p x.2.2.2) - Real.log (p x.2.2.1)) with hY
  have e1 : ∀ x, prod g p u x = X x * Y x + X (turn x) * Y (turn x) := by
    intro x
    simp only [prod, hX, hY, turn, Equiv.coe_fn_mk, h.anti x.1 x.2.1]
    ring
  have e2 : ∑ x, X (turn x) * Y (turn x) = ∑ x, X x * Y x := Equiv.sum_comp turn fun x => X x * Y x
  have e3 : ∑ x, X x * (Real.log (p x.2.2.2) - Real.log (p x.2.2.1)) = 0 := by
    have s1 : ∑ x, X x * Real.log (p x.2.2.2) = ∑ i, Real.log (p i) * ∑ f, (∑ e, ∑ j, g e j f i) * p i := by
      rw [hX, sum4 fun e j f i => g e j f i * p i * Real.log (p i), Finset.sum_comm]
      refine Finset.sum_congr rfl fun i _ => ?_
      rw [Finset.mul_sum]
      refine Finset.sum_congr rfl fun f _ => ?_
      simp only [Finset.sum_mul, Finset.mul_sum]
      exact Finset.sum_congr rfl fun e _ => Finset.sum_congr rfl fun j _ => by ring
    have s2 : ∑ x, X x * Real.log (p x.2.2.1) = ∑ f, Real.log (p f) * ∑ i, (∑ e, ∑ j, g e j f i) * p i := by
      rw [hX, sum4 fun e j f i => g e j f i * p i * Real.log (p f)]
      refine Finset.sum_congr rfl fun i _ => ?_
      rw [Finset.mul_sum]
      refine Finset.sum_congr rfl fun f _ => ?_
      simp only [Finset.sum_mul, Finset.mul_sum]
      exact Finset.sum_congr rfl fun e _ => Finset.sum_congr rfl fun j _ => by ring
    simp only [mul_sub, Finset.sum_sub_distrib]
    rw [s1, s2, sub_eq_zero]
    exact Finset.sum_congr rfl fun i _ => by rw [h.stat i]
  simp only [e1, Finset.sum_add_distrib, e2]
  have e4 : ∑ x, X x * Y x = ∑ x, u x.1 x.2.1 * X x := by
    have : ∀ x, X x * Y x = u x.1 x.2.1 * X x + X x * (Real.log (p x.2.2.2) - Real.log (p x.2.2.1)) := fun x => by simp only [hY]; ring
    simp only [this, Finset.sum_add_distrib, e3, add_zero]
  rw [e4]; ring

/-- Two leads: the electrons that pass from the first to the second minus those that pass back. -/
noncomputable def passed (g : Fin 2 → Fin 2 → ι → ι → ℝ) (p : ι → ℝ) : ℝ := ∑ f, ∑ i, (g 0 1 f i - g 1 0 f i) * p i

variable {g : Fin 2 → Fin 2 → ι → ι → ℝ} {u : Fin 2 → Fin 2 → ℝ}

theorem Flow.work (h : Flow g p u) : ∑ x, prod g p u x = 2 * (u 0 1 * passed g p) := by
  have z0 : u 0 0 = 0 := by have := h.anti 0 0; linarith
  have z1 : u 1 1 = 0 := by have := h.anti 1 1; linarith
  rw [h.total, sum4 fun e j f i => u e j * (g e j f i * p i)]
  unfold passed
  congr 1
  rw [Finset.mul_sum]
  refine Finset.sum_congr rfl fun f _ => ?_
  rw [Finset.mul_sum]
  refine Finset.sum_congr rfl fun i _ => ?_
  simp only [Fin.sum_univ_two, z0, z1, h.anti 0 1]
  ring

/-- Second law. -/
theorem Flow.second_law (h : Flow g p u) : 0 ≤ u 0 1 * passed g p := by
  have h1 := h.work
  have h2 : 0 ≤ ∑ x, prod g p u x := Finset.sum_nonneg fun x _ => h.prod_nonneg x
  linarith

/-- With a force, and a process that leaves the system as it is, the current does not vanish. -/
theorem Flow.strict (h : Flow g p u) (hu : u 0 1 ≠ 0) {i : ι} (hi : g 0 1 i i ≠ 0) : 0 < u 0 1 * passed g p := by
  have h1 := h.work
  have h2 : 0 < ∑ x, prod g p u x := by
    refine Finset.sum_pos' (fun x _ => h.prod_nonneg x) ⟨(0, 1, i, i), Finset.mem_univ _, ?_⟩
    rw [h.prod_eq]
    refine mul_pos (lt_of_le_of_ne (h.nonneg _ _ _ _) (Ne.symm hi)) (lt_of_le_of_ne (exp_diff _ _) fun h0 => ?_)
    simp only at h0
    rcases mul_eq_zero.mp h0.symm with h0 | h0
    · have := Real.exp_injective (sub_eq_zero.mp h0)
      exact hu (by linarith)
    · exact hu (by linarith)
  linarith

/-- Without a force there is no current. -/
theorem Flow.no_force (h : Flow g p u) (hu : u 0 1 = 0) : passed g p = 0 := by
  have h1 := h.work
  rw [hu, zero_mul, mul_zero] at h1
  have h2 := (Finset.sum_eq_zero_iff_of_nonneg fun x _ => h.prod_nonneg x).mp h1
  have h3 : ∀ f i, g 0 1 f i * p i = g 1 0 i f * p f := by
    intro f i
    have h0 := h2 (0, 1, f, i) (Finset.mem_univ _)
    rw [h.rev 0 1 f i, hu, neg_zero, Real.exp_zero, one_mul]
    rw [h.prod_eq] at h0
    simp only [hu, sub_zero] at h0
    rcases mul_eq_zero.mp h0 with h0 | h0
    · rw [h0]; ring
    · have : p i = p f := by
        rcases mul_eq_zero.mp h0 with h0 | h0
        · rw [Real.exp_log (h.pos _), Real.exp_log (h.pos _)] at h0; linarith
        · exact Real.log_injOn_pos (h.pos i) (h.pos f) (sub_eq_zero.mp h0)
      rw [this]
  unfold passed
  simp only [sub_mul, Finset.sum_sub_distrib, sub_eq_zero]
  rw [Finset.sum_comm]
  exact Finset.sum_congr rfl fun i _ => Finset.sum_congr rfl fun f _ => h3 f i

/-! ### States that may be empty -/

/-- As `Flow`, with populations that may vanish. -/
structure Flow0 (g : Fin 2 → Fin 2 → ι → ι → ℝ) (p : ι → ℝ) (u : Fin 2 → Fin 2 → ℝ) : Prop where
  nonneg : ∀ e j f i, 0 ≤ g e j f i
  pos : ∀ i, 0 ≤ p i
  anti : ∀ e j, u j e = -u e j
  rev : ∀ e j f i, g j e i f = Real.exp (-u e j) * g e j f i
  stat : ∀ i, ∑ f, (∑ e, ∑ j, g e j f i) * p i = ∑ f, (∑ e, ∑ j, g e j i f) * p f

/-- Nothing flows into an empty state. -/
theorem Flow0.empty (h : Flow0 g p u) {f : ι} (hf : p f = 0) (e j : Fin 2) (i : ι) : g e j f i * p i = 0 := by
  have h0 := h.stat f
  simp only [hf, mul_zero, Finset.sum_const_zero] at h0
  have hG : ∀ f i, 0 ≤ ∑ e, ∑ j, g e j f i := fun f i => Finset.sum_nonneg fun e _ => Finset.sum_nonneg fun j _ => h.nonneg e j f i
  have h1 := (Finset.sum_eq_zero_iff_of_nonneg fun i _ => mul_nonneg (hG f i) (h.pos i)).mp h0.symm i (Finset.mem_univ i)
  have hle : g e j f i ≤ ∑ e, ∑ j, g e j f i :=
    (Finset.single_le_sum (f := fun j => g e j f i) (fun j _ => h.nonneg e j f i) (Finset.mem_univ j)).trans
      (Finset.single_le_sum (f := fun e => ∑ j, g e j f i) (fun e _ => Finset.sum_nonneg fun j _ => h.nonneg e j f i) (Finset.mem_univ e))
  have := mul_le_mul_of_nonneg_right hle (h.pos i)
  have h2 := mul_nonneg (h.nonneg e j f i) (h.pos i)
  linarith

open Classical in
/-- The occupied states alone. -/
theorem Flow0.occupied (h : Flow0 g p u) : Flow (ι := {i // 0 < p i}) (fun e j f i => g e j f i) (fun i => p i) u ∧
    passed g p = passed (fun e j (f i : {i // 0 < p i}) => g e j f i) (fun i => p i) := by
  have hz : ∀ i, ¬ 0 < p i → p i = 0 := fun i hi => le_antisymm (not_lt.mp hi) (h.pos i)
  have sub : ∀ X : ι → ℝ, (∀ i, p i = 0 → X i = 0) → ∑ i, X i = ∑ i : {i // 0 < p i}, X i := by
    intro X hX
    rw [← Finset.sum_subtype (Finset.univ.filter fun i => 0 < p i) (fun i => by simp) X, Finset.sum_filter]
    refine Finset.sum_congr rfl fun i _ => ?_
    split_ifs with hi
    · rfl
    · exact hX i (hz i hi)
  refine ⟨⟨fun e j f i => h.nonneg e j f i, fun i => i.2, h.anti, fun e j f i => h.rev e j f i, fun i => ?_⟩, ?_⟩
  · rw [← sub (fun f => (∑ e, ∑ j, g e j f i) * p i) fun f hf => ?_, ← sub (fun f => (∑ e, ∑ j, g e j i f) * p f) fun f hf => by rw [hf, mul_zero]]
    · exact h.stat i
    · simp only [Finset.sum_mul, h.empty hf, Finset.sum_const_zero]
  · unfold passed
    rw [sub _ fun f hf => ?_]
    · refine Finset.sum_congr rfl fun f _ => sub (fun i => (g 0 1 f i - g 1 0 f i) * p i) fun i hi => by rw [hi, mul_zero]
    · simp only [sub_mul, h.empty hf, sub_zero, Finset.sum_const_zero]

end Edpyt.Elastic
