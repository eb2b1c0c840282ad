import Mathlib.Analysis.SpecialFunctions.Exp
import Mathlib.Topology.Order.IntermediateValue
import Mathlib.Topology.Algebra.Order.LiminfLimsup
/-!
# Averages with weights `w exp (t N)` as functions of `t`
-/
namespace Edpyt
open Filter Topology

variable {κ : Type} [Fintype κ] {w N : κ → ℝ}

/-- The average of `N` with weights `w exp (t N)`. -/
noncomputable def expAvg (w N : κ → ℝ) (t : ℝ) : ℝ := (∑ k, w k * Real.exp (t * N k) * N k) / ∑ k, w k * Real.exp (t * N k)

theorem expAvg_den [Nonempty κ] (hw : ∀ k, 0 < w k) (t : ℝ) : 0 < ∑ k, w k * Real.exp (t * N k) :=
  Finset.sum_pos (fun k _ => mul_pos (hw k) (Real.exp_pos _)) Finset.univ_nonempty

theorem expAvg_strictMono [Nonempty κ] (hw : ∀ k, 0 < w k) {k0 k1 : κ} (hN : N k0 ≠ N k1) : StrictMono (expAvg w N) := by
  intro s t hst
  unfold expAvg
  rw [div_lt_div_iff₀ (expAvg_den hw s) (expAvg_den hw t), ← sub_pos]
  have e : (∑ k, w k * Real.exp (t * N k) * N k) * (∑ k, w k * Real.exp (s * N k)) - (∑ k, w k * Real.exp (s * N k) * N k) * (∑ k, w k * Real.exp (t * N k)) =
      1 / 2 * ∑ k, ∑ l, w k * w l * (Real.exp (t * N k) * Real.exp (s * N l) - Real.exp (s * N k) * Real.exp (t * N l)) * (N k - N l) := by
    have : ∀ f g f' g' : κ → ℝ, (∑ k, f k) * (∑ l, g l) - (∑ k, f' k) * (∑ l, g' l) = 1 / 2 * ∑ k, ∑ l, ((f k * g l - f' k * g' l) + (f l * g k - f' l * g' k)) := by
      intro f g f' g'
      have e1 : ∑ k, ∑ l, ((f k * g l - f' k * g' l) + (f l * g k - f' l * g' k)) = ∑ k, ∑ l, (f k * g l - f' k * g' l) + ∑ k, ∑ l, (f k * g l - f' k * g' l) := by
        rw [show (∑ k, ∑ l, (f k * g l - f' k * g' l) + ∑ k, ∑ l, (f k * g l - f' k * g' l)) = ∑ k, ∑ l, (f k * g l - f' k * g' l) + ∑ k, ∑ l, (f l * g k - f' l * g' k) by
          congr 1; exact Finset.sum_comm]
        simp only [Finset.sum_add_distrib]
      rw [e1, Finset.sum_mul_sum, Finset.sum_mul_sum, ← Finset.sum_sub_distrib]
      simp only [← Finset.sum_sub_distrib]
      ring
    rw [this]
    congr 1
    refine Finset.sum_congr rfl fun k _ => Finset.sum_congr rfl fun l _ => ?_
    ring
  rw [e]
  have hp : ∀ k l, N k ≠ N l → 0 < w k * w l * (Real.exp (t * N k) * Real.exp (s * N l) - Real.exp (s * N k) * Real.exp (t * N l)) * (N k - N l) := by
    intro k l hkl
    rw [mul_assoc]
    refine mul_pos (mul_pos (hw k) (hw l)) ?_
    rw [← Real.exp_add, ← Real.exp_add]
    rcases lt_or_gt_of_ne hkl with h | h
    · refine mul_pos_of_neg_of_neg (sub_neg.mpr (Real.exp_lt_exp.mpr ?_)) (by linarith)
      nlinarith
    · refine mul_pos (sub_pos.mpr (Real.exp_lt_exp.mpr ?_)) (by linarith)
      nlinarith
  have hp' : ∀ k l, 0 ≤ w k * w l * (Real.exp (t * N k) * Real.exp (s * N l) - Real.exp (s * N k) * Real.exp (t * N l)) * (N k - N l) := fun k l => by
    by_cases h : N k = N l
    · rw [h, sub_self, mul_zero]
    · exact (hp k l h).le
  refine mul_pos (by norm_num) (Finset.sum_pos' (fun k _ => Finset.sum_nonneg fun l _ => hp' k l) ⟨k0, Finset.mem_univ _, ?_⟩)
  exact Finset.sum_pos' (fun l _ => hp' k0 l) ⟨k1, Finset.mem_univ _, hp k0 k1 hN⟩

theorem expAvg_continuous [Nonempty κ] (hw : ∀ k, 0 < w k) : Continuous (expAvg w N) := by
  unfold expAvg
  exact Continuous.div (by fun_prop) (by fun_prop) fun t => (expAvg_den hw t).ne'

theorem expAvg_atBot [Nonempty κ] (hw : ∀ k, 0 < w k) (hN : ∀ k, 0 ≤ N k) {k0 : κ} (h0 : N k0 = 0) : Tendsto (expAvg w N) atBot (𝓝 0) := by
  have hnum : Tendsto (fun t => ∑ k, w k * Real.exp (t * N k) * N k) atBot (𝓝 0) := by
    rw [← Finset.sum_const_zero (s := (Finset.univ : Finset κ)) (M := ℝ)]
    refine tendsto_finset_sum _ fun k _ => ?_
    rcases (hN k).eq_or_lt with h | h
    · simp [← h]
    · have h1 : Tendsto (fun t => Real.exp (t * N k)) atBot (𝓝 0) := Real.tendsto_exp_atBot.comp (tendsto_id.atBot_mul_const h)
      simpa using (h1.const_mul (w k)).mul_const (N k)
  refine squeeze_zero (fun t => ?_) (fun t => ?_) (by simpa using hnum.div_const (w k0))
  · exact div_nonneg (Finset.sum_nonneg fun k _ => mul_nonneg (mul_nonneg (hw k).le (Real.exp_pos _).le) (hN k)) (expAvg_den hw t).le
  · refine div_le_div_of_nonneg_left (Finset.sum_nonneg fun k _ => mul_nonneg (mul_nonneg (hw k).le (Real.exp_pos _).le) (hN k)) (hw k0) ?_
    have := Finset.single_le_sum (f := fun k => w k * Real.exp (t * N k)) (fun k _ => mul_nonneg (hw k).le (Real.exp_pos _).le) (Finset.mem_univ k0)
    simpa [h0] using this

theorem expAvg_reflect [Nonempty κ] (hw : ∀ k, 0 < w k) (M t : ℝ) : expAvg w N t = M - expAvg w (fun k => M - N k) (-t) := by
  unfold expAvg
  have e : ∀ k, Real.exp (-t * (M - N k)) = Real.exp (-t * M) * Real.exp (t * N k) := fun k => by rw [← Real.exp_add]; ring_nf
  have e1 : ∑ k, w k * Real.exp (-t * (M - N k)) = Real.exp (-t * M) * ∑ k, w k * Real.exp (t * N k) := by
    rw [Finset.mul_sum]; exact Finset.sum_congr rfl fun k _ => by rw [e]; ring
  have e2 : ∑ k, w k * Real.exp (-t * (M - N k)) * (M - N k) = Real.exp (-t * M) * (M * ∑ k, w k * Real.exp (t * N k) - ∑ k, w k * Real.exp (t * N k) * N k) := by
    rw [Finset.mul_sum, ← Finset.sum_sub_distrib, Finset.mul_sum]; exact Finset.sum_congr rfl fun k _ => by rw [e]; ring
  rw [e1, e2]
  have h1 := (expAvg_den (N := N) hw t).ne'
  have h2 := (Real.exp_pos (-t * M)).ne'
  rw [mul_div_mul_left _ _ h2]
  field_simp
  ring

theorem expAvg_atTop [Nonempty κ] (hw : ∀ k, 0 < w k) {M : ℝ} (hN : ∀ k, N k ≤ M) {k1 : κ} (h1 : N k1 = M) : Tendsto (expAvg w N) atTop (𝓝 M) := by
  have h := (expAvg_atBot (N := fun k => M - N k) hw (fun k => by linarith [hN k]) (k0 := k1) (by rw [h1, sub_self])).comp tendsto_neg_atTop_atBot
  have := h.const_sub M
  rw [sub_zero] at this
  exact this.congr fun t => (expAvg_reflect hw M t).symm

/-- Every value strictly between the extremes is taken exactly once. -/
theorem expAvg_surj [Nonempty κ] (hw : ∀ k, 0 < w k) {M x : ℝ} (hN : ∀ k, 0 ≤ N k ∧ N k ≤ M) {k0 k1 : κ} (h0 : N k0 = 0) (h1 : N k1 = M) (hx : 0 < x) (hx' : x < M) :
    ∃! t, expAvg w N t = x := by
  have hb := expAvg_atBot hw (fun k => (hN k).1) h0
  have ht := expAvg_atTop hw (fun k => (hN k).2) h1
  obtain ⟨p, hp⟩ := (hb.eventually_lt_const hx).exists
  obtain ⟨q, hq⟩ := (ht.eventually_const_lt hx').exists
  obtain ⟨t, ht⟩ := mem_range_of_exists_le_of_exists_ge (expAvg_continuous (N := N) hw) ⟨p, hp.le⟩ ⟨q, hq.le⟩
  refine ⟨t, ht, fun s hs => (expAvg_strictMono hw (k0 := k0) (k1 := k1) (by rw [h0, h1]; linarith)).injective (hs.trans ht.symm)⟩

end Edpyt
