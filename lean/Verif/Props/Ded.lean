import Verif.Model.Ded
import Verif.Spec.Resolvent
import Verif.Proof.Resolvent
import Verif.Proof.PartialFrac
import Mathlib.Analysis.Calculus.LocalExtr.Rolle
import Mathlib.Analysis.Calculus.Deriv.Polynomial
import Mathlib.Topology.Algebra.Polynomial
/-!
Theorems about the impurity model of distributional exact diagonalization, `edpyt/dedlib.py`.
-/
namespace Edpyt
open Spec Polynomial

theorem ded_list_sum_range {R : Type*} [AddCommMonoid R] (l : List ℝ) (f : ℝ → R) : (l.map f).sum = ∑ i ∈ Finset.range l.length, f (l[i]?.getD 0) := by
  induction l with
  | nil => simp
  | cons x l ih => rw [List.length_cons, Finset.sum_range_succ']; simp [ih, add_comm]

theorem ded_sum_map_range {R : Type*} [AddCommMonoid R] (n : ℕ) (f : ℕ → R) : ((List.range n).map f).sum = ∑ i ∈ Finset.range n, f i := by
  induction n with
  | zero => simp
  | succ n ih => rw [List.range_succ, Finset.sum_range_succ, ← ih]; simp

/-- Contract of the root finder for the given poles: started in the middle of two neighbouring poles it finds the zero between them. -/
def FindsZeros (fsolve : (ℝ → ℝ) → ℝ → ℝ) (poles : List ℝ) : Prop :=
  ∀ i, i + 1 < poles.length → ∃ e, fsolve (gf0Call poles) ((poles[i + 1]?.getD 0 + poles[i]?.getD 0) / 2) = e ∧
    poles[i]?.getD 0 < e ∧ e < poles[i + 1]?.getD 0 ∧ gf0Call poles e = 0

/-- The bath energies of a fit. -/
noncomputable def dedEk (fsolve : (ℝ → ℝ) → ℝ → ℝ) (poles : List ℝ) (i : ℕ) : ℝ :=
  fsolve (gf0Call poles) ((poles[i + 1]?.getD 0 + poles[i]?.getD 0) / 2)

theorem strict_get {poles : List ℝ} (hs : poles.Pairwise (· < ·)) {i j : ℕ} (hij : i < j) (hj : j < poles.length) : poles[i]?.getD 0 < poles[j]?.getD 0 := by
  have := List.pairwise_iff_getElem.mp hs i j (by omega) hj hij
  rwa [List.getElem?_eq_getElem hj, List.getElem?_eq_getElem (by omega), Option.getD_some, Option.getD_some]

theorem strict_le {poles : List ℝ} (hs : poles.Pairwise (· < ·)) {i j : ℕ} (hij : i ≤ j) (hj : j < poles.length) : poles[i]?.getD 0 ≤ poles[j]?.getD 0 := by
  rcases hij.eq_or_lt with rfl | h
  · exact le_rfl
  · exact (strict_get hs h hj).le

theorem gap_ne {poles : List ℝ} (hs : poles.Pairwise (· < ·)) {k i : ℕ} (hk : k + 1 < poles.length) (hi : i < poles.length) {e : ℝ}
    (h1 : poles[k]?.getD 0 < e) (h2 : e < poles[k + 1]?.getD 0) : e ≠ poles[i]?.getD 0 := by
  rintro rfl
  rcases Nat.lt_or_ge k i with h | h
  · exact absurd (strict_le hs (show k + 1 ≤ i from h) hi) (not_le.mpr h2)
  · exact absurd (strict_le hs h (by omega)) (not_le.mpr h1)

/-- **C66.** Between any two neighbouring poles the sampled function has a zero, so that the contract of the root finder can be met. -/
theorem C66_zeros_exist {poles : List ℝ} (hs : poles.Pairwise (· < ·)) {i : ℕ} (hi : i + 1 < poles.length) :
    ∃ e, poles[i]?.getD 0 < e ∧ e < poles[i + 1]?.getD 0 ∧ gf0Call poles e = 0 := by
  set p : ℕ → ℝ := fun i => poles[i]?.getD 0
  have hval : ∀ j, j < poles.length → (nodePoly poles.length p).eval (p j) = 0 := fun j hj => by
    rw [nodePoly_eval, Finset.prod_eq_zero (Finset.mem_range.mpr hj) (sub_self _)]
  obtain ⟨e, ⟨h1, h2⟩, h3⟩ := exists_deriv_eq_zero (f := fun x => (nodePoly poles.length p).eval x) (strict_get hs (Nat.lt_succ_self i) hi)
    (nodePoly poles.length p).continuous.continuousOn ((hval i (by omega)).trans (hval (i + 1) hi).symm)
  refine ⟨e, h1, h2, ?_⟩
  have hne : ∀ j, j < poles.length → e ≠ p j := fun j hj => gap_ne hs hi hj h1 h2
  rw [Polynomial.deriv, (nodePoly_derivs hne).1] at h3
  unfold gf0Call
  rw [ded_list_sum_range, (mul_eq_zero.mp h3).resolve_left (nodePoly_eval_ne hne), mul_zero]

theorem gf0Derivative_neg {poles : List ℝ} (hn : poles ≠ []) {e : ℝ} (hne : ∀ i, i < poles.length → e ≠ poles[i]?.getD 0) : gf0Derivative poles e < 0 := by
  unfold gf0Derivative
  have hl : 0 < poles.length := List.length_pos_iff.mpr hn
  rw [ded_list_sum_range]
  refine div_neg_of_neg_of_pos (Finset.sum_neg (fun i hi => ?_) ⟨0, Finset.mem_range.mpr hl⟩) (by exact_mod_cast hl)
  have : 0 < (e - poles[i]?.getD 0) ^ 2 := by
    have := sub_ne_zero.mpr (hne i (Finset.mem_range.mp hi))
    positivity
  exact div_neg_of_neg_of_pos (by norm_num) this

/-- **C66.** For every set of distinct sampled poles (in ascending order), the fitted impurity model has positive squared couplings, its
level is the mean of the poles, and its non-interacting Green function equals the sampled one at every point off the real axis. -/
theorem C66_fit {fsolve : (ℝ → ℝ) → ℝ → ℝ} {poles : List ℝ} (hn : poles ≠ []) (hs : poles.Pairwise (· < ·)) (hf : FindsZeros fsolve poles) :
    (∀ v ∈ (gfimpFit fsolve poles).vk2, 0 < v) ∧ (gfimpFit fsolve poles).e0 * poles.length = poles.sum ∧
    ∀ z : ℂ, z.im ≠ 0 → gfimpCall (gfimpFit fsolve poles) z = gf0Call (poles.map Complex.ofReal) z := by
  obtain ⟨n, hnl⟩ : ∃ n, poles.length = n + 1 := ⟨poles.length - 1, by have := List.length_pos_iff.mpr hn; omega⟩
  set p : ℕ → ℝ := fun i => poles[i]?.getD 0 with hp
  set e : ℕ → ℝ := dedEk fsolve poles with he
  have hek : ∀ k, k < n → p k < e k ∧ e k < p (k + 1) ∧ gf0Call poles (e k) = 0 := fun k hk => by
    obtain ⟨x, h1, h2⟩ := hf k (by omega)
    rw [he, dedEk, h1]
    exact h2
  have hpe : ∀ k, k < n → ∀ i, i < n + 1 → e k ≠ p i := fun k hk i hi => gap_ne hs (by omega) (by omega) (hek k hk).1 (hek k hk).2.1
  refine ⟨?_, ?_, fun z hz => ?_⟩
  · simp only [gfimpFit, List.mem_map, List.mem_range, exists_exists_and_eq_and]
    rintro v ⟨k, hk, rfl⟩
    exact div_pos_of_neg_of_neg (by norm_num) (gf0Derivative_neg hn fun i hi => hpe k (by omega) i (by omega))
  · simp only [gfimpFit]
    have : (poles.length : ℝ) ≠ 0 := by exact_mod_cast (List.length_pos_iff.mpr hn).ne'
    field_simp
  · have hinj : ∀ j k, j < k → k < n → e j < e k := fun j k hjk hk =>
      lt_of_lt_of_le (hek j (by omega)).2.1 ((strict_le hs (show j + 1 ≤ k from hjk) (by omega)).trans (hek k hk).1.le)
    have hinj' : Set.InjOn (fun k => (e k : ℂ)) (Finset.range n) := by
      intro j hj k hk hjk
      have hjk' : e j = e k := Complex.ofReal_injective hjk
      rcases lt_trichotomy j k with h | h | h
      · exact absurd hjk' (hinj j k h (by simpa using hk)).ne
      · exact h
      · exact absurd hjk' (hinj k j h (by simpa using hj)).ne'
    have hzr : ∀ x : ℝ, z ≠ (x : ℂ) := by
      rintro x rfl
      exact hz (Complex.ofReal_im x)
    have key := inverse_partial_fractions (K := ℂ) (n := n) (p := fun i => (p i : ℂ)) (e := fun k => (e k : ℂ)) hinj'
      (fun k hk i hi h => hpe k hk i hi (by exact_mod_cast h)) (fun k hk => by
        have h1 := (hek k hk).2.2
        unfold gf0Call at h1
        have hl0 : (1 / (poles.length : ℝ)) ≠ 0 := by rw [hnl]; positivity
        have h2 := (mul_eq_zero.mp h1).resolve_left hl0
        rw [ded_list_sum_range, hnl] at h2
        exact_mod_cast congrArg Complex.ofReal h2) (z := z) (fun i _ => hzr _) (fun k _ => hzr _)
    have hr : gf0Call (poles.map Complex.ofReal) z = 1 / ((n : ℂ) + 1) * ∑ i ∈ Finset.range (n + 1), (z - (p i : ℂ))⁻¹ := by
      unfold gf0Call
      rw [List.map_map, ded_list_sum_range, List.length_map, hnl]
      push_cast
      rfl
    rw [hr, ← key]
    unfold gfimpCall gfimpFit
    simp only [hnl, Nat.add_sub_cancel]
    congr 2
    · congr 1
      push_cast
      congr 1
      have := ded_list_sum_range poles (fun x => x)
      rw [List.map_id', hnl] at this
      rw [this]
      push_cast
      rfl
    · rw [List.zipWith_map_left, List.zipWith_self, List.map_map, ← ded_sum_map_range]
      congr 1
      refine List.map_congr_left fun k _ => ?_
      simp only [Function.comp, gf0Derivative, ded_list_sum_range, hnl]
      push_cast
      rfl

/-- The Green function of the fit, as a sum over the bath sites. -/
theorem gfimpCall_eq (g : Gfimp) {n : ℕ} (hv : g.vk2.length = n) (he : g.ek.length = n) (z : ℂ) :
    gfimpCall g z = (z - (g.e0 : ℂ) - ∑ k ∈ Finset.range n, ((g.vk2[k]?.getD 0 : ℝ) : ℂ) * (z - ((g.ek[k]?.getD 0 : ℝ) : ℂ))⁻¹)⁻¹ := by
  unfold gfimpCall
  congr 2
  rw [← ded_sum_map_range]
  congr 1
  apply List.ext_getElem
  · simp [hv, he]
  · intro k h1 h2
    simp at h1 h2
    simp [h1.1, h1.2]

/-- Positions of the flat array with stride `m + 1`. -/
theorem flat_diag {m i j : ℕ} (hi : i < m) (hj : j < m) : ((i * m + j) % (m + 1) = 0 ↔ i = j) ∧ (i = j → (i * m + j) / (m + 1) = i) := by
  refine ⟨⟨fun h => ?_, ?_⟩, ?_⟩
  · obtain ⟨c, hc⟩ := Nat.dvd_of_mod_eq_zero h
    rcases lt_trichotomy c i with h1 | h1 | h1
    · have := Nat.mul_le_mul_left (m + 1) (show c + 1 ≤ i from h1)
      nlinarith
    · subst h1
      nlinarith
    · have := Nat.mul_le_mul_left (m + 1) (show i + 1 ≤ c from h1)
      nlinarith
  · rintro rfl
    rw [show i * m + i = (m + 1) * i by ring, Nat.mul_mod_right]
  · rintro rfl
    rw [show i * m + i = (m + 1) * i by ring, Nat.mul_div_cancel_left _ (by omega)]

/-- Elements that `build_siam` stores in an array of zeros. -/
theorem buildSiam_entries {n : ℕ} {V : ℕ → ℕ → ℝ} {U : ℝ} {g : Gfimp} (hv : g.vk2.length = n) (he : g.ek.length = n) :
    ∃ H' V', dedBuildSiam (n + 1) (fun _ _ => 0) V U g = .ok (H', V') ∧ V' 0 0 = U ∧ (∀ i j, (i, j) ≠ (0, 0) → V' i j = V i j) ∧
      H' 0 0 = g.e0 ∧ (∀ k, k < n → H' 0 (k + 1) = -Real.sqrt (g.vk2[k]?.getD 0) ∧ H' (k + 1) 0 = -Real.sqrt (g.vk2[k]?.getD 0)) ∧
      ∀ k l, k < n → l < n → H' (k + 1) (l + 1) = if k = l then g.ek[k]?.getD 0 else 0 := by
  have h00 : ¬ (g.vk2.length ≠ n + 1 - 1 ∨ g.ek.length ≠ n + 1 - 1) := by omega
  refine ⟨_, _, by rw [dedBuildSiam, if_neg h00], by simp, ?_, by simp, ?_, ?_⟩
  · intro i j hij
    have : ¬ (i = 0 ∧ j = 0) := fun h => hij (by rw [h.1, h.2])
    simp [this]
  · intro k hk
    have h1 := (flat_diag (m := n + 1) (i := 0) (j := k + 1) (by omega) (by omega)).1
    have h2 := (flat_diag (m := n + 1) (i := k + 1) (j := 0) (by omega) (by omega)).1
    have h3 : ¬ ((0 * (n + 1) + (k + 1)) % (n + 1 + 1) = 0) := by rw [h1]; omega
    have h4 : ¬ (((k + 1) * (n + 1) + 0) % (n + 1 + 1) = 0) := by rw [h2]; omega
    have hk' : k < g.vk2.length := by omega
    constructor
    · simp only [h3, and_false, if_false]
      simp [hk']
    · simp only [h4, and_false, if_false]
      simp [hk']
  · intro k l hk hl
    have h1 := flat_diag (m := n + 1) (i := k + 1) (j := l + 1) (by omega) (by omega)
    by_cases hkl : k = l
    · subst hkl
      have h2 : (k + 1) * (n + 1) + (k + 1) ≥ n + 1 + 1 := by nlinarith
      have h3 := h1.1.mpr rfl
      have h4 := h1.2 rfl
      simp only [h3, h4, h2, ge_iff_le.mp h2, and_self, if_true]
      simp
    · have h3 : ¬ (((k + 1) * (n + 1) + (l + 1)) % (n + 1 + 1) = 0) := by rw [h1.1]; omega
      simp only [h3, and_false, if_false, hkl]
      simp

/-- The corner of the resolvent of a bath in star geometry. -/
theorem star_resolvent {n : ℕ} {H : ℕ → ℕ → ℝ} {e0 : ℝ} {v2 e : ℕ → ℝ} (hv : ∀ k, k < n → 0 ≤ v2 k) (h0 : H 0 0 = e0)
    (h1 : ∀ k, k < n → H 0 (k + 1) = -Real.sqrt (v2 k) ∧ H (k + 1) 0 = -Real.sqrt (v2 k))
    (h2 : ∀ k l, k < n → l < n → H (k + 1) (l + 1) = if k = l then e k else 0) :
    (Matrix.of fun i j : Fin (n + 1) => H i j).IsSymm ∧
    ∀ z : ℂ, z.im ≠ 0 → (z - (e0 : ℂ) - ∑ k ∈ Finset.range n, (v2 k : ℂ) * (z - (e k : ℂ))⁻¹ ≠ 0) →
      Spec.resolvent z (Matrix.of fun i j : Fin (n + 1) => H i j) 0 0 = (z - (e0 : ℂ) - ∑ k ∈ Finset.range n, (v2 k : ℂ) * (z - (e k : ℂ))⁻¹)⁻¹ := by
  have hsym : (Matrix.of fun i j : Fin (n + 1) => H i j).IsSymm := by
    ext i j
    simp only [Matrix.transpose_apply, Matrix.of_apply]
    refine Fin.cases ?_ (fun k => ?_) i <;> refine Fin.cases ?_ (fun l => ?_) j
    · rfl
    · rw [Fin.val_zero, Fin.val_succ, (h1 l l.2).1, (h1 l l.2).2]
    · rw [Fin.val_zero, Fin.val_succ, (h1 k k.2).1, (h1 k k.2).2]
    · rw [Fin.val_succ, Fin.val_succ, h2 _ _ l.2 k.2, h2 _ _ k.2 l.2]
      by_cases h : (k : ℕ) = l
      · rw [if_pos h, if_pos h.symm, h]
      · rw [if_neg h, if_neg (Ne.symm h)]
  refine ⟨hsym, fun z hz hD => ?_⟩
  set D := z - (e0 : ℂ) - ∑ k ∈ Finset.range n, (v2 k : ℂ) * (z - (e k : ℂ))⁻¹ with hDd
  have hze : ∀ x : ℝ, z - (x : ℂ) ≠ 0 := fun x h => hz (by rw [sub_eq_zero.mp h]; exact Complex.ofReal_im x)
  let x : Fin (n + 1) → ℂ := Fin.cons D⁻¹ fun k : Fin n => -((Real.sqrt (v2 k) : ℝ) : ℂ) * (z - (e k : ℂ))⁻¹ * D⁻¹
  have hx := resolvent_mulVec hsym hz (x := x) (y := Pi.single 0 1) (fun i => by
    rw [Fin.sum_univ_succ]
    refine Fin.cases ?_ (fun k => ?_) i
    · simp only [Matrix.of_apply, x, Fin.cons_zero, Fin.cons_succ, Pi.single_eq_same, Fin.val_zero, Fin.val_succ, h0]
      have : ∀ k : Fin n, ((H 0 (k + 1) : ℝ) : ℂ) * (-((Real.sqrt (v2 k) : ℝ) : ℂ) * (z - (e k : ℂ))⁻¹ * D⁻¹) = (v2 k : ℂ) * (z - (e k : ℂ))⁻¹ * D⁻¹ := fun k => by
        rw [(h1 k k.2).1]
        have hs : ((Real.sqrt (v2 k) : ℝ) : ℂ) * ((Real.sqrt (v2 k) : ℝ) : ℂ) = (v2 k : ℂ) := by
          rw [← Complex.ofReal_mul, Real.mul_self_sqrt (hv k k.2)]
        push_cast
        rw [← hs]; ring
      rw [Finset.sum_congr rfl fun k _ => this k, ← Finset.sum_mul, Fin.sum_univ_eq_sum_range (fun k => (v2 k : ℂ) * (z - (e k : ℂ))⁻¹)]
      have : z * D⁻¹ - ((e0 : ℂ) * D⁻¹ + (∑ k ∈ Finset.range n, (v2 k : ℂ) * (z - (e k : ℂ))⁻¹) * D⁻¹) = D * D⁻¹ := by rw [hDd]; ring
      rw [this, mul_inv_cancel₀ hD]
    · simp only [Matrix.of_apply, x, Fin.cons_zero, Fin.cons_succ, Fin.val_zero, Fin.val_succ, (h1 k k.2).2]
      rw [Pi.single_eq_of_ne (Fin.succ_ne_zero k), Finset.sum_eq_single k]
      · rw [h2 k k k.2 k.2, if_pos rfl]
        have := hze (e k)
        push_cast
        field_simp
        ring
      · intro l _ hl
        rw [h2 k l k.2 l.2, if_neg (fun h => hl (Fin.ext h.symm))]
        simp
      · simp)
  have h := congrFun hx 0
  simpa [x, Matrix.mulVec_single] using h

theorem gf0_ne_zero {poles : List ℝ} (hn : poles ≠ []) {z : ℂ} (hz : z.im ≠ 0) : gf0Call (poles.map Complex.ofReal) z ≠ 0 := by
  have hl : 0 < poles.length := List.length_pos_iff.mpr hn
  intro h
  unfold gf0Call at h
  have h1 := (mul_eq_zero.mp h).resolve_left (by rw [List.length_map]; exact one_div_ne_zero (by exact_mod_cast hl.ne'))
  rw [List.map_map, ded_list_sum_range] at h1
  have h2 := congrArg (fun x : ℂ => x.im / z.im) h1
  simp only [Complex.im_sum, Complex.zero_im, zero_div] at h2
  rw [Finset.sum_div] at h2
  have h3 : ∀ i ∈ Finset.range poles.length, (((fun p : ℂ => (z - p)⁻¹) ∘ Complex.ofReal) (poles[i]?.getD 0)).im / z.im < 0 := by
    intro i _
    simp only [Function.comp, Complex.inv_im, Complex.sub_im, Complex.ofReal_im, sub_zero]
    have hns : 0 < Complex.normSq (z - ((poles[i]?.getD 0 : ℝ) : ℂ)) := by
      rw [Complex.normSq_pos]
      intro h
      apply hz
      rw [sub_eq_zero.mp h]
      exact Complex.ofReal_im _
    rw [neg_div, neg_div, div_right_comm, div_self hz]
    exact neg_neg_of_pos (by positivity)
  exact absurd h2 (Finset.sum_neg h3 ⟨0, Finset.mem_range.mpr hl⟩).ne

/-- **C66.** For every set of distinct sampled poles, the one-particle matrix that `build_siam` stores is symmetric and its resolvent at the
impurity is the sampled Green function; the interaction array is changed at the impurity only. -/
theorem C66_siam {fsolve : (ℝ → ℝ) → ℝ → ℝ} {poles : List ℝ} {n : ℕ} (hnl : poles.length = n + 1) (hs : poles.Pairwise (· < ·))
    (hf : FindsZeros fsolve poles) (V : ℕ → ℕ → ℝ) (U : ℝ) :
    ∃ H' V', dedBuildSiam (n + 1) (fun _ _ => 0) V U (gfimpFit fsolve poles) = .ok (H', V') ∧
      V' 0 0 = U ∧ (∀ i j, (i, j) ≠ (0, 0) → V' i j = V i j) ∧
      (Matrix.of fun i j : Fin (n + 1) => H' i j).IsSymm ∧
      ∀ z : ℂ, z.im ≠ 0 → Spec.resolvent z (Matrix.of fun i j : Fin (n + 1) => H' i j) 0 0 = gf0Call (poles.map Complex.ofReal) z := by
  have hn : poles ≠ [] := by rintro rfl; simp at hnl
  obtain ⟨hpos, -, hG⟩ := C66_fit hn hs hf
  have hek : (gfimpFit fsolve poles).ek.length = n := by simp [gfimpFit, hnl]
  have hvk : (gfimpFit fsolve poles).vk2.length = n := by simp [gfimpFit, hnl]
  obtain ⟨H', V', h1, h2, h3, h4, h5, h6⟩ := buildSiam_entries (V := V) (U := U) hvk hek
  obtain ⟨s1, s2⟩ := star_resolvent (v2 := fun k => (gfimpFit fsolve poles).vk2[k]?.getD 0) (e := fun k => (gfimpFit fsolve poles).ek[k]?.getD 0)
    (fun k hk => by
      have hk' : k < (gfimpFit fsolve poles).vk2.length := by omega
      have := hpos _ (List.getElem_mem hk')
      simpa [hk'] using this.le) h4 h5 h6
  refine ⟨H', V', h1, h2, h3, s1, fun z hz => ?_⟩
  have e1 := hG z hz
  rw [gfimpCall_eq _ hvk hek] at e1
  rw [← e1]
  refine s2 z hz fun h0 => gf0_ne_zero hn hz ?_
  rw [← e1, h0, inv_zero]

/-- Non-vacuity: three poles and a root finder that meets its contract. -/
example : ∃ fsolve : (ℝ → ℝ) → ℝ → ℝ, FindsZeros fsolve [-1, 0, 2] := by
  have hs : ([-1, 0, 2] : List ℝ).Pairwise (· < ·) := by norm_num
  obtain ⟨a, ha⟩ := C66_zeros_exist hs (i := 0) (by simp)
  obtain ⟨b, hb⟩ := C66_zeros_exist hs (i := 1) (by simp)
  refine ⟨fun _ x => if x < 0 then a else b, fun i hi => ?_⟩
  have : i + 1 < 3 := by simpa using hi
  have : i < 2 := by omega
  interval_cases i
  · refine ⟨a, ?_, ha⟩
    norm_num
  · refine ⟨b, ?_, hb⟩
    norm_num

end Edpyt
