import Verif.Props.Reciprocity
import Verif.Proof.Kubo
/-!
C209: the response of an occupation to a level is bounded by its fluctuation over the temperature.
-/
namespace Edpyt
open Spec Matrix

variable {a : HamArgs} {w : ℕ} {beta : ℝ}

/-! ## Helpers -/

theorem shiftOp_symm {n : ℕ} (x : ℕ → ℕ → ℝ) : (shiftOp (n := n) x).IsSymm := Matrix.isSymm_diagonal _

theorem shiftOp_one_sq {n σ k : ℕ} (hσ : σ < 2) (hk : k < n) : shiftOp (n := n) (oneLevel σ k) * shiftOp (oneLevel σ k) = shiftOp (oneLevel σ k) := by
  unfold shiftOp
  rw [Matrix.diagonal_mul_diagonal]
  congr 1
  funext S
  have : ∀ f : Fin n → ℝ, (∑ i : Fin n, if (i : ℕ) = k then f i else 0) = f ⟨k, hk⟩ := fun f => by
    rw [Finset.sum_eq_single ⟨k, hk⟩ (fun i _ hi => if_neg fun h => hi (Fin.ext h)) (fun h => absurd (Finset.mem_univ _) h), if_pos rfl]
  have e : (∑ i : Fin n, (oneLevel σ k 0 i * (if orb false i ∈ S then 1 else 0) + oneLevel σ k 1 i * (if orb true i ∈ S then 1 else 0) : ℝ)) =
      if orb (decide (σ = 1)) (⟨k, hk⟩ : Fin n) ∈ S then 1 else 0 := by
    rw [← this fun i => if orb (decide (σ = 1)) i ∈ S then (1 : ℝ) else 0]
    refine Finset.sum_congr rfl fun i _ => ?_
    unfold oneLevel
    interval_cases σ <;> by_cases hik : (i : ℕ) = k <;> simp [hik]
  rw [e]
  split <;> simp

theorem own_response (ha : a.Valid) (hw : a.n ≤ w) (hb : 0 < beta) {σ i : ℕ} (hσ : σ < 2) (hi : i < a.n) {es : ℝ → Espace (ℕ × ℕ)} {U D : ℝ → ℕ → ℝ}
    (h : ∀ s, OccRun w (shiftLevels a (oneLevel σ i) s) beta (es s) (U s) (D s)) (s₀ : ℝ) :
    ∃ χ : ℝ, HasDerivAt (fun s => weightedOcc a.n (oneLevel σ i) (U s) (D s)) χ s₀ ∧
      -(beta * (weightedOcc a.n (oneLevel σ i) (U s₀) (D s₀) * (1 - weightedOcc a.n (oneLevel σ i) (U s₀) (D s₀)))) ≤ χ := by
  have he : ∀ s, EigenEspace a.n (a.ham + s • shiftOp (n := a.n) (oneLevel σ i)) (es s) ∧ ∀ k : Fin a.n,
      (U s k : ℂ) = thermalOcc beta (a.ham + s • shiftOp (n := a.n) (oneLevel σ i)) false k ∧
      (D s k : ℂ) = thermalOcc beta (a.ham + s • shiftOp (n := a.n) (oneLevel σ i)) true k := by
    intro s
    rw [← shiftLevels_ham]
    exact OccRun.eigen (a := shiftLevels a (oneLevel σ i) s) (shiftLevels_valid ha _ s) hw (h s)
  obtain ⟨χ, h1, h2⟩ := response_variance hb (shiftOp_symm (oneLevel σ i)) (fun s => (he s).1.basis) s₀
  simp only [shiftOp_one_sq hσ hi, fun s => weightedOcc_avg (he s).1 (he s).2 (oneLevel σ i)] at h1 h2
  refine ⟨χ, h1, le_trans (le_of_eq ?_) h2⟩
  ring

/-! ## C209 -/

/-- **C209** (own level) When the level of site `i` and spin `σ` is raised, the occupation `n` of that level falls, and its derivative is at least `-beta n (1 - n)`. -/
theorem C209_level (ha : a.Valid) (hw : a.n ≤ w) (hb : 0 < beta) {σ i : ℕ} (hσ : σ < 2) (hi : i < a.n) {es : ℝ → Espace (ℕ × ℕ)} {U D : ℝ → ℕ → ℝ}
    (h : ∀ s, OccRun w (shiftLevels a (oneLevel σ i) s) beta (es s) (U s) (D s)) {n : ℝ → ℝ} (hn : ∀ s, n s = if σ = 0 then U s i else D s i) (s₀ : ℝ) :
    ∃ χ : ℝ, HasDerivAt n χ s₀ ∧ -(beta * (n s₀ * (1 - n s₀))) ≤ χ ∧ χ ≤ 0 := by
  obtain ⟨χ, h1, h2⟩ := own_response ha hw hb hσ hi h s₀
  have e : n = fun s => weightedOcc a.n (oneLevel σ i) (U s) (D s) := funext fun s => by rw [hn, weightedOcc_one hi hσ]
  subst e
  refine ⟨χ, h1, h2, ?_⟩
  have he : ∀ s t : ℝ, shiftLevels (shiftLevels a (oneLevel σ i) s) (oneLevel σ i) t = shiftLevels a (oneLevel σ i) (s + t) := by
    intro s t
    unfold shiftLevels
    congr 1
    funext r k l
    by_cases hkl : k = l
    · simp only [hkl, if_true]
      ring
    · simp [hkl]
  obtain ⟨χxx, _, _, h3, -, -, -, h4, -⟩ := C205_levels ha hw hb (oneLevel σ i) (oneLevel σ i) (es := fun s t => es (s + t)) (U := fun s t => U (s + t)) (D := fun s t => D (s + t))
    (fun s t => he s t ▸ h (s + t)) s₀ 0
  simp only [add_zero] at h3
  rw [h1.unique h3]
  exact h4

/-- **C209** (size) The occupation of a level changes by at most a quarter of `beta` times the change of the level. -/
theorem C209_lipschitz (ha : a.Valid) (hw : a.n ≤ w) (hb : 0 < beta) {σ i : ℕ} (hσ : σ < 2) (hi : i < a.n) {es : ℝ → Espace (ℕ × ℕ)} {U D : ℝ → ℕ → ℝ}
    (h : ∀ s, OccRun w (shiftLevels a (oneLevel σ i) s) beta (es s) (U s) (D s)) (s t : ℝ) :
    |(if σ = 0 then U s i else D s i) - (if σ = 0 then U t i else D t i)| ≤ beta / 4 * |s - t| := by
  choose χ h1 h2 h3 using C209_level ha hw hb hσ hi h (fun _ => rfl)
  have hbound : ∀ x, ‖χ x‖ ≤ beta / 4 := fun x => by
    rw [Real.norm_eq_abs, abs_le]
    have h4 := h2 x
    generalize (if σ = 0 then U x i else D x i) = n at h4
    have : n * (1 - n) ≤ 1 / 4 := by nlinarith [sq_nonneg (n - 1 / 2)]
    exact ⟨by nlinarith, (h3 x).trans (by positivity)⟩
  have := Convex.norm_image_sub_le_of_norm_hasDerivWithin_le (f := fun s => if σ = 0 then U s i else D s i) (f' := χ) (s := Set.univ) (x := t) (y := s)
    (fun x _ => (h1 x).hasDerivWithinAt) (fun x _ => hbound x) convex_univ trivial trivial
  simpa [Real.norm_eq_abs] using this

/-- **C209** (two levels) The change of the occupation of one level with another level is bounded by the fluctuations of both: its square is at most
`beta^2 n (1 - n) m (1 - m)`. -/
theorem C209_cross (ha : a.Valid) (hw : a.n ≤ w) (hb : 0 < beta) {σ i τ j : ℕ} (hσ : σ < 2) (hi : i < a.n) (hτ : τ < 2) (hj : j < a.n) {es : ℝ → ℝ → Espace (ℕ × ℕ)}
    {U D : ℝ → ℝ → ℕ → ℝ} (h : ∀ s t, OccRun w (shiftLevels (shiftLevels a (oneLevel σ i) s) (oneLevel τ j) t) beta (es s t) (U s t) (D s t)) {n m : ℝ → ℝ → ℝ}
    (hn : ∀ s t, n s t = if σ = 0 then U s t i else D s t i) (hm : ∀ s t, m s t = if τ = 0 then U s t j else D s t j) (s₀ t₀ : ℝ) :
    ∃ χ : ℝ, HasDerivAt (fun t => n s₀ t) χ t₀ ∧ HasDerivAt (fun s => m s t₀) χ s₀ ∧ χ ^ 2 ≤ beta ^ 2 * (n s₀ t₀ * (1 - n s₀ t₀)) * (m s₀ t₀ * (1 - m s₀ t₀)) := by
  obtain ⟨χxx, χ, χyy, hxx, h1, h2, hyy, nx, ny, hc⟩ := C205_levels ha hw hb (oneLevel σ i) (oneLevel τ j) h s₀ t₀
  have eswap : ∀ s t : ℝ, shiftLevels (shiftLevels a (oneLevel σ i) s) (oneLevel τ j) t = shiftLevels (shiftLevels a (oneLevel τ j) t) (oneLevel σ i) s := by
    intro s t
    unfold shiftLevels
    congr 1
    funext r k l
    simp only
    ring
  obtain ⟨χ1, g1, b1⟩ := own_response (a := shiftLevels a (oneLevel τ j) t₀) (w := w) (shiftLevels_valid ha _ t₀) hw hb hσ hi (es := fun s => es s t₀) (U := fun s => U s t₀) (D := fun s => D s t₀)
    (fun s => eswap s t₀ ▸ h s t₀) s₀
  obtain ⟨χ2, g2, b2⟩ := own_response (a := shiftLevels a (oneLevel σ i) s₀) (w := w) (shiftLevels_valid ha _ s₀) hw hb hτ hj (es := fun t => es s₀ t) (U := fun t => U s₀ t) (D := fun t => D s₀ t)
    (fun t => h s₀ t) t₀
  have en : ∀ s t, n s t = weightedOcc a.n (oneLevel σ i) (U s t) (D s t) := fun s t => by rw [hn, weightedOcc_one hi hσ]
  have em : ∀ s t, m s t = weightedOcc a.n (oneLevel τ j) (U s t) (D s t) := fun s t => by rw [hm, weightedOcc_one hj hτ]
  refine ⟨χ, ?_, ?_, ?_⟩
  · simpa only [en] using h1
  · simpa only [em] using h2
  · have q1 : χ1 = χxx := g1.unique hxx
    have q2 : χ2 = χyy := g2.unique hyy
    have b1' : -(beta * (n s₀ t₀ * (1 - n s₀ t₀))) ≤ χxx := by rw [en, ← q1]; exact b1
    have b2' : -(beta * (m s₀ t₀ * (1 - m s₀ t₀))) ≤ χyy := by rw [em, ← q2]; exact b2
    have := mul_le_mul (neg_le.mp b1') (neg_le.mp b2') (neg_nonneg.mpr ny) (le_trans (neg_nonneg.mpr nx) (neg_le.mp b1'))
    nlinarith

/-- The hypotheses are met: runs exist for every shift of one level, or two, for two sites with hopping 1. -/
example : (∃ (es : ℝ → Espace (ℕ × ℕ)) (U D : ℝ → ℕ → ℝ), ∀ s, OccRun 64 (shiftLevels freeArgs (oneLevel 0 1) s) 2 (es s) (U s) (D s)) ∧
    ∃ (es : ℝ → ℝ → Espace (ℕ × ℕ)) (U D : ℝ → ℝ → ℕ → ℝ), ∀ s t, OccRun 64 (shiftLevels (shiftLevels freeArgs (oneLevel 0 1) s) (oneLevel 1 0) t) 2 (es s t) (U s t) (D s t) := by
  constructor
  · choose es U D h using fun s => OccRun.exists (a := shiftLevels freeArgs (oneLevel 0 1) s) (w := 64) (shiftLevels_valid freeArgs_valid _ s) (by simp [shiftLevels, freeArgs]) 2
    exact ⟨es, U, D, h⟩
  · choose es U D h using fun s t => OccRun.exists (a := shiftLevels (shiftLevels freeArgs (oneLevel 0 1) s) (oneLevel 1 0) t) (w := 64)
      (shiftLevels_valid (shiftLevels_valid freeArgs_valid _ s) _ t) (by simp [shiftLevels, freeArgs]) 2
    exact ⟨es, U, D, h⟩

end Edpyt
