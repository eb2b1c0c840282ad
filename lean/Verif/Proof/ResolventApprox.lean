import Verif.Proof.KrylovMoments
import Verif.Proof.NumRange
import Verif.Proof.FockResolvent
import Verif.Props.Variational
import Verif.Props.Stable
import Mathlib.Algebra.Polynomial.BigOperators
import Mathlib.Algebra.Polynomial.Eval.Degree
import Mathlib.Tactic.ComputeDegree
/-!
The resolvent is approximated by polynomials on an interval, at a geometric rate.
Matrices whose moments agree up to some order have resolvent elements as close as that approximation.
-/
namespace Edpyt
open Spec Matrix Polynomial

/-- The rate: `W² / (W² + 2 η²)`. -/
noncomputable def lancRate (W eta : ℝ) : ℝ := W ^ 2 / (W ^ 2 + 2 * eta ^ 2)

theorem lancRate_nonneg (W eta : ℝ) : 0 ≤ lancRate W eta := by unfold lancRate; positivity

theorem lancRate_lt (W : ℝ) {eta : ℝ} (h : eta ≠ 0) : lancRate W eta < 1 := by
  unfold lancRate
  have : 0 < eta ^ 2 := by positivity
  rw [div_lt_one (by positivity)]
  linarith

/-- A remainder `q ^ m` with `q = 1 - (z - X) s`. -/
theorem resolvent_poly_of {z : ℂ} (hz : z.im ≠ 0) (s : ℂ[X]) (hs : s.natDegree ≤ 1) {m : ℕ} (hm : 0 < m) : ∃ p : ℂ[X], p.natDegree < 2 * m ∧
    ∀ x : ℝ, (z - x)⁻¹ - p.eval (x : ℂ) = (1 - (z - x) * s.eval (x : ℂ)) ^ m * (z - x)⁻¹ := by
  set q : ℂ[X] := 1 - (C z - X) * s with hq
  have hqd : q.natDegree ≤ 2 := by
    have h1 : (C z - X : ℂ[X]).natDegree ≤ 1 := by compute_degree
    have h2 : ((C z - X) * s).natDegree ≤ 2 := natDegree_mul_le.trans (by omega)
    exact (natDegree_sub_le _ _).trans (by simpa using h2)
  refine ⟨s * ∑ k ∈ Finset.range m, q ^ k, ?_, fun x => ?_⟩
  · have h3 : (∑ k ∈ Finset.range m, q ^ k).natDegree ≤ 2 * (m - 1) := natDegree_sum_le_of_forall_le _ _ fun k hk => by
      rw [Finset.mem_range] at hk
      refine natDegree_pow_le.trans ?_
      have : k * q.natDegree ≤ (m - 1) * 2 := Nat.mul_le_mul (by omega) hqd
      omega
    refine lt_of_le_of_lt natDegree_mul_le ?_
    omega
  · have hzx : z - x ≠ 0 := fun h => hz (by have := congrArg Complex.im h; simpa using this)
    have hqe : q.eval (x : ℂ) = 1 - (z - x) * s.eval (x : ℂ) := by simp [hq]
    rw [eval_mul, eval_finset_sum]
    simp only [eval_pow]
    rw [hqe]
    have hg := mul_neg_geom_sum (1 - (z - x) * s.eval (x : ℂ)) m
    rw [sub_sub_cancel] at hg
    field_simp
    linear_combination -hg

/-- The resolvent on an interval of length at most `W`, approximated by a polynomial of degree below `2m`. -/
theorem resolvent_poly {lo hi W : ℝ} (hW : hi - lo ≤ W) (hW0 : 0 ≤ W) {z : ℂ} (hz : z.im ≠ 0) {m : ℕ} (hm : 0 < m) : ∃ p : ℂ[X], p.natDegree < 2 * m ∧
    ∀ x : ℝ, lo ≤ x → x ≤ hi → ‖(z - x)⁻¹ - p.eval (x : ℂ)‖ ≤ lancRate W z.im ^ m / |z.im| := by
  have hnorm : ∀ x : ℝ, ‖(z - x)⁻¹‖ ≤ 1 / |z.im| := by
    intro x
    rw [norm_inv, one_div]
    apply inv_anti₀ (abs_pos.mpr hz)
    have := Complex.abs_im_le_norm (z - x)
    simpa using this
  have hfin : ∀ (s : ℂ[X]), s.natDegree ≤ 1 → (∀ x : ℝ, lo ≤ x → x ≤ hi → ‖1 - (z - x) * s.eval (x : ℂ)‖ ≤ lancRate W z.im) → ∃ p : ℂ[X], p.natDegree < 2 * m ∧
      ∀ x : ℝ, lo ≤ x → x ≤ hi → ‖(z - x)⁻¹ - p.eval (x : ℂ)‖ ≤ lancRate W z.im ^ m / |z.im| := by
    intro s hs h
    obtain ⟨p, h1, h2⟩ := resolvent_poly_of hz s hs hm
    refine ⟨p, h1, fun x hx hx' => ?_⟩
    rw [h2, norm_mul, norm_pow, div_eq_mul_one_div]
    exact mul_le_mul (pow_le_pow_left₀ (norm_nonneg _) (h x hx hx') m) (hnorm x) (norm_nonneg _) (pow_nonneg (lancRate_nonneg _ _) _)
  have he2 : 0 < z.im ^ 2 := by positivity
  by_cases hcase : lo ≤ z.re ∧ z.re ≤ hi
  · -- the real part of `z` lies in the interval
    set ω : ℝ := 2 / (W ^ 2 + 2 * z.im ^ 2) with hω
    refine hfin (C (ω : ℂ) * (C ((starRingEnd ℂ) z) - X)) (by compute_degree) fun x hx hx' => ?_
    have e1 : 1 - (z - x) * (C (ω : ℂ) * (C ((starRingEnd ℂ) z) - X)).eval (x : ℂ) = ((1 - ω * ((z.re - x) ^ 2 + z.im ^ 2) : ℝ) : ℂ) := by
      simp only [eval_mul, eval_C, eval_sub, eval_X]
      apply Complex.ext
      · rw [Complex.ofReal_re]; simp; ring
      · rw [Complex.ofReal_im]; simp; ring
    rw [e1, Complex.norm_real, Real.norm_eq_abs, abs_le]
    have hD : 0 < W ^ 2 + 2 * z.im ^ 2 := by positivity
    have h1 : (z.re - x) ^ 2 ≤ W ^ 2 := by
      rw [sq_le_sq, abs_of_nonneg hW0, abs_le]
      constructor <;> linarith [hcase.1, hcase.2]
    have e2 : ω * ((z.re - x) ^ 2 + z.im ^ 2) = (2 * ((z.re - x) ^ 2 + z.im ^ 2)) / (W ^ 2 + 2 * z.im ^ 2) := by rw [hω]; ring
    rw [e2]
    unfold lancRate
    constructor
    · rw [neg_le_sub_iff_le_add, div_le_iff₀ hD, add_mul, div_mul_cancel₀ _ hD.ne', one_mul]
      nlinarith
    · rw [sub_le_iff_le_add, ← add_div, one_le_div hD]
      nlinarith [sq_nonneg (z.re - x)]
  · -- it lies outside
    set c : ℝ := (lo + hi) / 2 with hc
    have hzc : z - c ≠ 0 := fun h => hz (by have := congrArg Complex.im h; simpa using this)
    refine hfin (C (z - c)⁻¹ + C ((z - c)⁻¹ ^ 2) * (X - C (c : ℂ))) (by compute_degree) fun x hx hx' => ?_
    have e1 : 1 - (z - x) * (C (z - c)⁻¹ + C ((z - c)⁻¹ ^ 2) * (X - C (c : ℂ))).eval (x : ℂ) = (((x - c : ℝ) : ℂ) / (z - c)) ^ 2 := by
      simp only [eval_mul, eval_C, eval_sub, eval_X, eval_add]
      push_cast
      field_simp
      ring
    rw [e1, norm_pow, norm_div, div_pow, Complex.norm_real, Real.norm_eq_abs, sq_abs, ← Complex.normSq_eq_norm_sq, Complex.normSq_apply]
    unfold lancRate
    have hlohi : lo ≤ hi := hx.trans hx'
    have h1 : (x - c) ^ 2 ≤ (W / 2) ^ 2 := by
      rw [sq_le_sq, abs_of_nonneg (by linarith : 0 ≤ W / 2), abs_le, hc]
      constructor <;> linarith
    have hx2 : (x - c) ^ 2 ≤ ((hi - lo) / 2) ^ 2 := by
      rw [sq_le_sq, abs_of_nonneg (by linarith : 0 ≤ (hi - lo) / 2), abs_le, hc]
      constructor <;> linarith
    have h2 : ((hi - lo) / 2) ^ 2 ≤ (z.re - c) ^ 2 := by
      rw [not_and_or, not_le, not_le] at hcase
      rw [sq_le_sq, abs_of_nonneg (by linarith : 0 ≤ (hi - lo) / 2)]
      rcases hcase with h | h
      · rw [abs_of_nonpos (by rw [hc]; linarith), hc]; linarith
      · rw [abs_of_nonneg (by rw [hc]; linarith), hc]; linarith
    simp only [Complex.sub_re, Complex.ofReal_re, Complex.sub_im, Complex.ofReal_im, sub_zero]
    have hD : 0 < W ^ 2 + 2 * z.im ^ 2 := by positivity
    have hE : 0 < (z.re - c) * (z.re - c) + z.im * z.im := by nlinarith [sq_nonneg (z.re - c)]
    rw [div_le_div_iff₀ hE hD]
    nlinarith [sq_nonneg (x - c), mul_nonneg (sq_nonneg W) (sub_nonneg.mpr (hx2.trans h2))]

section
variable {ι : Type} [Fintype ι] [DecidableEq ι]

theorem NumRange.eig {κ : Type} [Fintype κ] [DecidableEq κ] {A : Matrix ι ι ℝ} {lo hi : ℝ} (h : NumRange A lo hi) {u : κ → ι → ℝ} {E : κ → ℝ} (hu : EigBasis A u E) (k : κ) :
    lo ≤ E k ∧ E k ≤ hi := by
  have := h (u k)
  rw [hu.eig, dotProduct_smul, hu.orth, if_pos rfl, smul_eq_mul, mul_one, mul_one, mul_one] at this
  exact this

omit [Fintype ι] [DecidableEq ι] in
theorem NumRange.shift (lo hi s E : ℝ) (hs : s = 1 ∨ s = -1) :
    ∃ lo' hi', hi' - lo' = hi - lo ∧ ∀ (κ : Type) [Fintype κ] [DecidableEq κ] (A : Matrix κ κ ℝ), NumRange A lo hi → NumRange (s • (A - E • (1 : Matrix κ κ ℝ))) lo' hi' := by
  have e : ∀ (κ : Type) [Fintype κ] [DecidableEq κ] (A : Matrix κ κ ℝ) (x : κ → ℝ), x ⬝ᵥ (s • (A - E • (1 : Matrix κ κ ℝ))) *ᵥ x = s * (x ⬝ᵥ A *ᵥ x - E * (x ⬝ᵥ x)) := by
    intro κ _ _ A x
    rw [Matrix.smul_mulVec, Matrix.sub_mulVec, Matrix.smul_mulVec, Matrix.one_mulVec, dotProduct_smul, dotProduct_sub, dotProduct_smul, smul_eq_mul, smul_eq_mul]
  rcases hs with rfl | rfl
  · refine ⟨lo - E, hi - E, by ring, fun κ _ _ A h x => ?_⟩
    rw [e]
    have := h x
    constructor <;> nlinarith [this.1, this.2]
  · refine ⟨E - hi, E - lo, by ring, fun κ _ _ A h x => ?_⟩
    rw [e]
    have := h x
    constructor <;> nlinarith [this.1, this.2]

theorem EigBasis.pow_quad {κ : Type} [Fintype κ] [DecidableEq κ] {A : Matrix ι ι ℝ} {u : κ → ι → ℝ} {E : κ → ℝ} (hu : EigBasis A u E) (x : ι → ℝ) (k : ℕ) :
    ((A ^ k) *ᵥ x) ⬝ᵥ x = ∑ a, E a ^ k * (u a ⬝ᵥ x) ^ 2 := by
  have h1 : (A ^ k) *ᵥ x = ∑ a, (E a ^ k * (u a ⬝ᵥ x)) • u a := by
    induction k with
    | zero =>
      rw [pow_zero, Matrix.one_mulVec]
      simp only [pow_zero, one_mul]
      exact (hu.expand x).symm
    | succ k ih =>
      rw [pow_succ', ← Matrix.mulVec_mulVec, ih, Matrix.mulVec_sum]
      refine Finset.sum_congr rfl fun a _ => ?_
      rw [Matrix.mulVec_smul, hu.eig, smul_smul]
      congr 1; ring
  rw [h1, sum_dotProduct]
  refine Finset.sum_congr rfl fun a _ => ?_
  rw [smul_dotProduct, smul_eq_mul]; ring

/-- Matrices with the same first `2m` moments, whose numerical ranges lie in the same interval. -/
theorem resElem_quadrature {κ : Type} [Fintype κ] [DecidableEq κ] {M : Matrix ι ι ℝ} {N : Matrix κ κ ℝ} (hM : M.IsSymm) (hN : N.IsSymm) {lo hi W : ℝ} (hrM : NumRange M lo hi)
    (hrN : NumRange N lo hi) (hW : hi - lo ≤ W) (hW0 : 0 ≤ W) (x : ι → ℝ) (y : κ → ℝ) {m : ℕ} (hm : 0 < m) (h : ∀ k < 2 * m, ((M ^ k) *ᵥ x) ⬝ᵥ x = ((N ^ k) *ᵥ y) ⬝ᵥ y)
    {z : ℂ} (hz : z.im ≠ 0) : ‖resElem z N y y - resElem z M x x‖ ≤ 2 * (x ⬝ᵥ x) * (lancRate W z.im ^ m / |z.im|) := by
  obtain ⟨u, E, hu⟩ := EigBasis.of_symm hM
  obtain ⟨v, F, hv⟩ := EigBasis.of_symm hN
  obtain ⟨p, hp, happ⟩ := resolvent_poly hW hW0 hz hm
  have gen : ∀ {ν : Type} [Fintype ν] [DecidableEq ν] {A : Matrix ν ν ℝ} (_ : NumRange A lo hi) {u : ν → ν → ℝ} {E : ν → ℝ} (_ : EigBasis A u E) (x : ν → ℝ),
      ‖resElem z A x x - ∑ k ∈ Finset.range (2 * m), p.coeff k * ((((A ^ k) *ᵥ x) ⬝ᵥ x : ℝ) : ℂ)‖ ≤ (x ⬝ᵥ x) * (lancRate W z.im ^ m / |z.im|) := by
    intro ν _ _ A hr u E hu x
    have e1 : ∑ k ∈ Finset.range (2 * m), p.coeff k * ((((A ^ k) *ᵥ x) ⬝ᵥ x : ℝ) : ℂ) = ∑ a, p.eval ((E a : ℝ) : ℂ) * (((u a ⬝ᵥ x) * (u a ⬝ᵥ x) : ℝ) : ℂ) := by
      simp only [hu.pow_quad]
      push_cast
      simp only [Finset.mul_sum]
      rw [Finset.sum_comm]
      refine Finset.sum_congr rfl fun a _ => ?_
      rw [eval_eq_sum_range' hp, Finset.sum_mul]
      refine Finset.sum_congr rfl fun k _ => by ring
    rw [hu.resElem hz, e1, ← Finset.sum_sub_distrib, (hu.quad x).2, Finset.sum_mul]
    refine (norm_sum_le _ _).trans (Finset.sum_le_sum fun a _ => ?_)
    rw [← sub_mul, norm_mul, Complex.norm_real, Real.norm_eq_abs, ← pow_two, abs_of_nonneg (sq_nonneg _), mul_comm]
    have hE := hr.eig hu a
    exact mul_le_mul_of_nonneg_left (happ _ hE.1 hE.2) (sq_nonneg _)
  have h1 := gen hrM hu x
  have h2 := gen hrN hv y
  have hxy : y ⬝ᵥ y = x ⬝ᵥ x := by
    have := h 0 (by omega)
    rw [pow_zero, pow_zero, Matrix.one_mulVec, Matrix.one_mulVec] at this
    exact this.symm
  have hsum : ∑ k ∈ Finset.range (2 * m), p.coeff k * ((((N ^ k) *ᵥ y) ⬝ᵥ y : ℝ) : ℂ) = ∑ k ∈ Finset.range (2 * m), p.coeff k * ((((M ^ k) *ᵥ x) ⬝ᵥ x : ℝ) : ℂ) :=
    Finset.sum_congr rfl fun k hk => by rw [h k (Finset.mem_range.mp hk)]
  rw [hsum, hxy] at h2
  have h3 := norm_sub_le_norm_sub_add_norm_sub (resElem z N y y) (∑ k ∈ Finset.range (2 * m), p.coeff k * ((((M ^ k) *ᵥ x) ⬝ᵥ x : ℝ) : ℂ)) (resElem z M x x)
  rw [norm_sub_rev] at h1
  linarith

end
end Edpyt
