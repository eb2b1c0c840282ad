import Verif.Model.RatesPy
import Verif.Spec.Eig
import Verif.Spec.Rates
import Mathlib.LinearAlgebra.Matrix.ToLinearEquiv
import Mathlib.Data.Complex.BigOperators
import Mathlib.Algebra.BigOperators.Field
/-!
C57: `stationary_solution`.
-/
namespace Edpyt
open Spec

/-- A left null vector gives a right null vector. -/
theorem exists_eigen_of_left {sz : ℕ} {W : ℕ → ℕ → ℝ} {μ : ℂ} {y : ℕ → ℂ} (hy : ∃ i, i < sz ∧ y i ≠ 0)
    (h : ∀ i, i < sz → ∑ f ∈ Finset.range sz, y f * (W f i : ℂ) = μ * y i) : ∃ x, IsEigenpair sz W μ x := by
  let M : Matrix (Fin sz) (Fin sz) ℂ := fun f i => (W f i : ℂ) - if f = i then μ else 0
  obtain ⟨i0, hi0, hy0⟩ := hy
  have hleft : ∃ y' ≠ 0, Matrix.vecMul y' M = 0 := by
    refine ⟨fun i => y i, fun h0 => hy0 (congrFun h0 ⟨i0, hi0⟩), ?_⟩
    funext i
    simp only [Matrix.vecMul, dotProduct, M, mul_sub, Finset.sum_sub_distrib, Pi.zero_apply, mul_ite, mul_zero, Finset.sum_ite_eq', Finset.mem_univ, if_true]
    have := h i i.2
    rw [Finset.sum_range] at this
    rw [this]
    ring
  have hdet := Matrix.exists_vecMul_eq_zero_iff.mp hleft
  obtain ⟨x, hx0, hx⟩ := Matrix.exists_mulVec_eq_zero_iff.mpr hdet
  obtain ⟨k, hk⟩ := Function.ne_iff.mp hx0
  refine ⟨fun i => if h : i < sz then x ⟨i, h⟩ else 0, ⟨k, k.2, by simpa using hk⟩, fun f hf => ?_⟩
  have := congrFun hx ⟨f, hf⟩
  simp only [Matrix.mulVec, dotProduct, M, sub_mul, Finset.sum_sub_distrib, Pi.zero_apply, ite_mul, zero_mul, Finset.sum_ite_eq, Finset.mem_univ, if_true] at this
  rw [Finset.sum_range]
  simp only [Fin.is_lt, dif_pos, hf]
  linear_combination this

theorem exists_left_of_eigen {sz : ℕ} {W : ℕ → ℕ → ℝ} {μ : ℂ} {x : ℕ → ℂ} (h : IsEigenpair sz W μ x) :
    ∃ y : ℕ → ℂ, (∃ i, i < sz ∧ y i ≠ 0) ∧ ∀ i, i < sz → ∑ f ∈ Finset.range sz, y f * (W f i : ℂ) = μ * y i := by
  have hT : ∃ y, IsEigenpair sz (fun f i => W i f) μ y := exists_eigen_of_left (W := fun f i => W i f) h.1 fun i hi => by
    rw [← h.2 i hi]
    exact Finset.sum_congr rfl fun f _ => by ring
  obtain ⟨y, hy, hy'⟩ := hT
  refine ⟨y, hy, fun i hi => ?_⟩
  rw [← hy' i hi]
  exact Finset.sum_congr rfl fun f _ => by ring

/-- The eigenvalues of a rate matrix lie at least as far from one as zero, and only zero lies at distance one. -/
theorem rate_eigenvalue {sz : ℕ} {W : ℕ → ℕ → ℝ} (hW : IsRateMatrix sz W) {μ : ℂ} {x : ℕ → ℂ} (h : IsEigenpair sz W μ x) :
    1 ≤ ‖μ - 1‖ ∧ (‖μ - 1‖ = 1 → μ = 0) := by
  obtain ⟨y, ⟨i0, hi0, hy0⟩, hy⟩ := exists_left_of_eigen h
  obtain ⟨k, hk, hmax⟩ := Finset.exists_max_image (Finset.range sz) (fun i => ‖y i‖) ⟨i0, Finset.mem_range.mpr hi0⟩
  rw [Finset.mem_range] at hk
  have hpos : 0 < ‖y k‖ := lt_of_lt_of_le (norm_pos_iff.mpr hy0) (hmax i0 (Finset.mem_range.mpr hi0))
  have hcons := hW.conserve k hk
  rw [← Finset.add_sum_erase _ _ (Finset.mem_range.mpr hk)] at hcons
  set d := ∑ f ∈ (Finset.range sz).erase k, W f k with hd
  have hd0 : 0 ≤ d := Finset.sum_nonneg fun f hf => by
    rw [Finset.mem_erase, Finset.mem_range] at hf
    exact hW.nonneg f k hf.2 hk hf.1
  have hWk : W k k = -d := by linarith
  have hyk := hy k hk
  rw [← Finset.add_sum_erase _ _ (Finset.mem_range.mpr hk), hWk] at hyk
  have hnorm : ‖μ + d‖ ≤ d := by
    have h1 : (μ + d) * y k = ∑ f ∈ (Finset.range sz).erase k, y f * (W f k : ℂ) := by
      push_cast at hyk
      linear_combination -hyk
    have h2 : ‖μ + d‖ * ‖y k‖ ≤ d * ‖y k‖ := by
      rw [← norm_mul, h1, hd, Finset.sum_mul]
      refine (norm_sum_le _ _).trans (Finset.sum_le_sum fun f hf => ?_)
      rw [Finset.mem_erase, Finset.mem_range] at hf
      rw [norm_mul, Complex.norm_real, Real.norm_of_nonneg (hW.nonneg f k hf.2 hk hf.1), mul_comm]
      exact mul_le_mul_of_nonneg_left (hmax f (Finset.mem_range.mpr hf.2)) (hW.nonneg f k hf.2 hk hf.1)
    exact le_of_mul_le_mul_right h2 hpos
  have hre : μ.re ≤ 0 := by
    have := (Complex.re_le_norm (μ + d)).trans hnorm
    simp at this
    linarith
  have hsq : ‖μ - 1‖ ^ 2 = 1 - 2 * μ.re + (μ.re ^ 2 + μ.im ^ 2) := by
    rw [← Complex.normSq_eq_norm_sq, Complex.normSq_apply]
    simp
    ring
  have h0 := norm_nonneg (μ - 1)
  constructor
  · nlinarith [sq_nonneg μ.re, sq_nonneg μ.im]
  · intro he
    rw [he] at hsq
    have h1 : μ.re = 0 := by nlinarith [sq_nonneg μ.re, sq_nonneg μ.im]
    have h2 : μ.im ^ 2 = 0 := by rw [h1] at hsq; linarith
    exact Complex.ext h1 (by simpa using h2)

/-- Zero is an eigenvalue of every rate matrix. -/
theorem rate_zero {sz : ℕ} {W : ℕ → ℕ → ℝ} (hW : IsRateMatrix sz W) (hsz : 0 < sz) : ∃ x, IsEigenpair sz W 0 x := by
  refine exists_eigen_of_left (y := fun _ => 1) ⟨0, hsz, one_ne_zero⟩ fun i hi => ?_
  simp only [one_mul, zero_mul]
  have := hW.conserve i hi
  rw [← Complex.ofReal_sum, this, Complex.ofReal_zero]

theorem foldl_min_le (l : List ℝ) : ∀ x, l.foldl min x ≤ x ∧ (∀ y ∈ l, l.foldl min x ≤ y) ∧ l.foldl min x ∈ x :: l := by
  induction l with
  | nil => intro x; simp
  | cons a l ih =>
    intro x
    obtain ⟨h1, h2, h3⟩ := ih (min x a)
    rw [List.foldl_cons]
    refine ⟨h1.trans (min_le_left _ _), fun y hy => ?_, ?_⟩
    · rcases List.mem_cons.mp hy with rfl | hy
      · exact h1.trans (min_le_right _ _)
      · exact h2 y hy
    · rcases List.mem_cons.mp h3 with h | h
      · rw [h]
        rcases min_choice x a with h' | h' <;> simp [h']
      · simp [h]

/-- `argmin` gives an index at which the smallest value stands. -/
theorem argmin_spec {l : List ℝ} {j : ℕ} (h : argmin l = .ok j) : ∃ hj : j < l.length, ∀ y ∈ l, l[j] ≤ y := by
  cases l with
  | nil => simp [argmin] at h
  | cons x l =>
    simp only [argmin, Except.ok.injEq] at h
    obtain ⟨h1, h2, h3⟩ := foldl_min_le l x
    have hj : j < (x :: l).length := by rw [← h]; exact List.idxOf_lt_length_iff.mpr h3
    have hv : (x :: l)[j] = l.foldl min x := by subst h; exact List.getElem_idxOf _
    have hmin : ∀ y ∈ x :: l, (x :: l)[j] ≤ y := fun y hy => by
      rw [hv]
      rcases List.mem_cons.mp hy with rfl | hy
      · exact h1
      · exact h2 y hy
    exact ⟨hj, hmin⟩

/-- **C57**: for every rate matrix of positive size the eigenvalue that `stationary_solution` selects is zero, and the vector it selects
is a real non-zero solution of `W p = 0`. -/
theorem C57_selects_zero {sz : ℕ} (hsz : 0 < sz) {W : ℕ → ℕ → ℝ} (hW : IsRateMatrix sz W) {w : List ℂ} {v : ℕ → ℕ → ℂ} (he : IsEig sz W w v) :
    ∃ j, ∃ hj : j < w.length, argmin (w.map fun w => ‖w - 1‖) = .ok j ∧ w[j] = 0 ∧
      IsStationary sz W (fun i => (v i j).re) ∧ ∃ i, i < sz ∧ (v i j).re ≠ 0 := by
  have hex : ∃ j, argmin (w.map fun w => ‖w - 1‖) = .ok j := by
    have hl : 0 < w.length := by rw [he.len]; exact hsz
    cases w with
    | nil => simp at hl
    | cons a l => exact ⟨_, rfl⟩
  obtain ⟨j, hj⟩ := hex
  obtain ⟨hjl, hmin⟩ := argmin_spec hj
  have hjw : j < w.length := by simpa using hjl
  obtain ⟨x0, hx0⟩ := rate_zero hW hsz
  have h0 : (0 : ℂ) ∈ w := he.all 0 x0 hx0
  have hle : ‖w[j] - 1‖ ≤ 1 := by
    have := hmin _ (List.mem_map.mpr ⟨0, h0, rfl⟩)
    simpa using this
  obtain ⟨h1, h2⟩ := rate_eigenvalue hW (he.pair j hjw)
  have hz : w[j] = 0 := h2 (le_antisymm hle h1)
  have him := he.real j hjw (by rw [hz]; rfl)
  obtain ⟨⟨i, hi, hne⟩, hpair⟩ := he.pair j hjw
  refine ⟨j, hjw, hj, hz, fun f hf => ?_, i, hi, fun hre => hne (Complex.ext hre (him i hi))⟩
  have := congrArg Complex.re (hpair f hf)
  rw [hz, zero_mul, Complex.re_sum] at this
  simpa using this

/-- The absolute values of a stationary vector are stationary. -/
theorem abs_stationary {sz : ℕ} {W : ℕ → ℕ → ℝ} (hW : IsRateMatrix sz W) {p : ℕ → ℝ} (hp : IsStationary sz W p) : IsStationary sz W fun i => |p i| := by
  have hge : ∀ f ∈ Finset.range sz, 0 ≤ ∑ i ∈ Finset.range sz, W f i * |p i| := by
    intro f hf
    have hf' := Finset.mem_range.mp hf
    have h1 := hp f hf'
    rw [← Finset.add_sum_erase _ _ hf] at h1 ⊢
    have hdiag : W f f ≤ 0 := by
      have := hW.conserve f hf'
      rw [← Finset.add_sum_erase _ _ hf] at this
      have h2 : 0 ≤ ∑ g ∈ (Finset.range sz).erase f, W g f := Finset.sum_nonneg fun g hg => by
        rw [Finset.mem_erase, Finset.mem_range] at hg
        exact hW.nonneg g f hg.2 hf' hg.1
      linarith
    have h3 : |∑ i ∈ (Finset.range sz).erase f, W f i * p i| ≤ ∑ i ∈ (Finset.range sz).erase f, W f i * |p i| := by
      refine (Finset.abs_sum_le_sum_abs _ _).trans (Finset.sum_le_sum fun i hi => ?_)
      rw [Finset.mem_erase, Finset.mem_range] at hi
      rw [abs_mul, abs_of_nonneg (hW.nonneg f i hf' hi.2 (Ne.symm hi.1))]
    have h4 : |W f f * p f| = -W f f * |p f| := by rw [abs_mul, abs_of_nonpos hdiag]
    have h5 : |W f f * p f| = |∑ i ∈ (Finset.range sz).erase f, W f i * p i| := by
      rw [eq_neg_of_add_eq_zero_left h1, abs_neg]
    linarith
  have hsum : ∑ f ∈ Finset.range sz, ∑ i ∈ Finset.range sz, W f i * |p i| = 0 := by
    rw [Finset.sum_comm]
    refine Finset.sum_eq_zero fun i hi => ?_
    rw [← Finset.sum_mul, hW.conserve i (Finset.mem_range.mp hi), zero_mul]
  intro f hf
  exact (Finset.sum_eq_zero_iff_of_nonneg hge).mp hsum f (Finset.mem_range.mpr hf)

/-- **C57**, unique stationary state: if any two stationary vectors are proportional, `stationary_solution` returns a probability vector
with `W p = 0`, for every rate matrix of positive size and every correct eigensolver. -/
theorem C57_unique {sz : ℕ} (hsz : 0 < sz) {W : ℕ → ℕ → ℝ} (hW : IsRateMatrix sz W) (eig : ℕ → (ℕ → ℕ → ℝ) → List ℂ × (ℕ → ℕ → ℂ))
    (he : IsEig sz W (eig sz W).1 (eig sz W).2)
    (hu : ∀ p q, IsStationary sz W p → IsStationary sz W q → (∃ i, i < sz ∧ p i ≠ 0) → ∃ c : ℝ, ∀ i, i < sz → q i = c * p i) :
    ∃ p, stationarySolution eig sz W = .ok (some p) ∧ IsStationary sz W p ∧ (∀ i, i < sz → 0 ≤ p i) ∧ ∑ i ∈ Finset.range sz, p i = 1 := by
  obtain ⟨j, hj, hjm, -, hst, hne⟩ := C57_selects_zero hsz hW he
  set v := (eig sz W).2 with hv
  obtain ⟨c, hc⟩ := hu _ _ hst (abs_stationary hW hst) hne
  obtain ⟨i0, hi0, hv0⟩ := hne
  set s := ∑ i ∈ Finset.range sz, (v i j).re with hs
  have hcs : c * s = ∑ i ∈ Finset.range sz, |(v i j).re| := by
    rw [hs, Finset.mul_sum]
    exact Finset.sum_congr rfl fun i hi => (hc i (Finset.mem_range.mp hi)).symm
  have hpos : 0 < c * s := by
    rw [hcs]
    exact Finset.sum_pos' (fun i _ => abs_nonneg _) ⟨i0, Finset.mem_range.mpr hi0, abs_pos.mpr hv0⟩
  have hs0 : s ≠ 0 := fun h => by rw [h, mul_zero] at hpos; exact lt_irrefl _ hpos
  have hc0 : c ≠ 0 := fun h => by rw [h, zero_mul] at hpos; exact lt_irrefl _ hpos
  refine ⟨fun i => (v i j).re / s, ?_, fun f hf => ?_, fun i hi => ?_, ?_⟩
  · unfold stationarySolution
    simp only [hjm, bind, Except.bind, pure, Except.pure]
    rw [if_neg hs0]
  · have := hst f hf
    simp only [mul_div_assoc', ← Finset.sum_div, this, zero_div]
  · have h1 := hc i hi
    have h2 : (v i j).re / s = |(v i j).re| / (c * s) := by
      rw [h1]; field_simp
    change 0 ≤ (v i j).re / s
    rw [h2]
    positivity
  · rw [← Finset.sum_div, ← hs, div_self hs0]

/-- The rate matrix of the self-test of `edpyt/rates.py:20-29`. -/
def rateTwoLevel (f i : ℕ) : ℝ := if f = 0 then (if i = 0 then -2 else 1) else (if i = 0 then 2 else -1)

/-- Non-vacuity: the self-test meets the hypotheses of `C57_unique`. -/
example : IsRateMatrix 2 rateTwoLevel ∧ IsEig 2 rateTwoLevel [0, -3] (fun i k => if k = 0 then (if i = 0 then 1 else 2) else (if i = 0 then 1 else -1)) ∧
    ∀ p q, IsStationary 2 rateTwoLevel p → IsStationary 2 rateTwoLevel q → (∃ i, i < 2 ∧ p i ≠ 0) → ∃ c : ℝ, ∀ i, i < 2 → q i = c * p i := by
  refine ⟨⟨?_, ?_⟩, ⟨rfl, ?_, ?_, ?_⟩, ?_⟩
  · intro f i hf hi hfi
    interval_cases f <;> interval_cases i <;> simp_all [rateTwoLevel]
  · intro i hi
    interval_cases i <;> norm_num [rateTwoLevel, Finset.sum_range_succ]
  · intro k hk
    have hk2 : k < 2 := hk
    refine ⟨⟨0, by norm_num, by interval_cases k <;> simp⟩, fun f hf => ?_⟩
    interval_cases k <;> interval_cases f <;> norm_num [rateTwoLevel, Finset.sum_range_succ]
  · intro k hk _ i hi
    have hk2 : k < 2 := hk
    interval_cases k <;> interval_cases i <;> simp
  · rintro μ x ⟨⟨i, hi, hx⟩, h⟩
    have h0 := h 0 (by norm_num)
    have h1 := h 1 (by norm_num)
    simp [rateTwoLevel, Finset.sum_range_succ] at h0 h1
    have e1 : x 1 = (μ + 2) * x 0 := by linear_combination h0
    have hx0 : x 0 ≠ 0 := by
      intro h
      rw [h, mul_zero] at e1
      interval_cases i
      · exact hx h
      · exact hx e1
    have : μ * (μ + 3) = 0 := by
      have : (μ * (μ + 3)) * x 0 = 0 := by
        rw [e1] at h1
        linear_combination -h1
      exact (mul_eq_zero.mp this).resolve_right hx0
    rcases mul_eq_zero.mp this with h | h
    · simp [h]
    · simp [eq_neg_of_add_eq_zero_left h]
  · rintro p q hp hq ⟨i, hi, hpi⟩
    have h0 := hp 0 (by norm_num)
    have h1 := hq 0 (by norm_num)
    simp [rateTwoLevel, Finset.sum_range_succ] at h0 h1
    have hp0 : p 0 ≠ 0 := by
      intro h
      interval_cases i
      · exact hpi h
      · exact hpi (by rw [h] at h0; linarith)
    refine ⟨q 0 / p 0, fun k hk => ?_⟩
    interval_cases k
    · field_simp
    · have e1 : p 1 = 2 * p 0 := by linarith
      have e2 : q 1 = 2 * q 0 := by linarith
      rw [e1, e2]
      field_simp

/-- Without uniqueness the normalisation can fail: for two uncoupled states a correct eigensolver may return a stationary vector whose
elements sum to zero, and the result is not a number. -/
theorem C57_degenerate : ∃ eig : ℕ → (ℕ → ℕ → ℝ) → List ℂ × (ℕ → ℕ → ℂ), IsRateMatrix 2 (fun _ _ => 0) ∧
    IsEig 2 (fun _ _ => 0) (eig 2 fun _ _ => 0).1 (eig 2 fun _ _ => 0).2 ∧ stationarySolution eig 2 (fun _ _ => 0) = .ok none := by
  refine ⟨fun _ _ => ([0, 0], fun i k => if k = 0 then (if i = 0 then 1 else -1) else 1), ⟨?_, ?_⟩, ⟨rfl, ?_, ?_, ?_⟩, ?_⟩
  · intros; exact le_rfl
  · intros; simp
  · intro k hk
    have hk2 : k < 2 := hk
    refine ⟨⟨0, by norm_num, by interval_cases k <;> simp⟩, fun f hf => ?_⟩
    interval_cases k <;> simp
  · intro k hk _ i hi
    have hk2 : k < 2 := hk
    interval_cases k <;> interval_cases i <;> simp
  · rintro μ x ⟨⟨i, hi, hx⟩, h⟩
    have := h i hi
    simp at this
    rcases this with h | h
    · simp [h]
    · exact absurd h hx
  · simp [stationarySolution, argmin, bind, Except.bind, pure, Except.pure, Finset.sum_range_succ]

end Edpyt
