import Verif.Props.SmallBias
import Mathlib.Analysis.Calculus.SmoothSeries
import Mathlib.Analysis.Complex.CauchyIntegral
import Mathlib.Analysis.Complex.Convex
/-!
C150: the exact rate of several interfering paths (`Gamma1`, `Gamma2`, `Gamma4` of `edpyt/integrals.py`).
-/
namespace Edpyt
open Spec Filter Topology

/-! ### Specification -/

/-- The interference of two paths, `I2` outside the window where it raises. -/
noncomputable def Spec.crossTerm (psi : ℕ → ℂ → ℂ) (mu0 mu1 beta : ℝ) (A a B b : ℝ) : ℝ :=
  if |(mu1 - mu0) * beta| < 1e-16 then 0 else
  A * B * (1 / (Real.exp ((mu1 - mu0) * beta) - 1)) / (a - b) *
    ((psi 0 (0.5 + Complex.I * beta / (2 * Real.pi) * (a - mu1)) - psi 0 (0.5 + Complex.I * beta / (2 * Real.pi) * (a - mu0))).re -
     (psi 0 (0.5 + Complex.I * beta / (2 * Real.pi) * (b - mu1)) - psi 0 (0.5 + Complex.I * beta / (2 * Real.pi) * (b - mu0))).re)

/-- The rate of the paths with amplitudes `C i` over states of energy `e i`: the rate of each path and the interference of each pair. -/
noncomputable def Spec.pathRate (psi : ℕ → ℂ → ℂ) (mu0 mu1 beta : ℝ) {m : ℕ} (C e : Fin m → ℝ) : ℝ :=
  ∑ i, integralI1 psi (C i) (e i) mu0 mu1 beta + 1 / 2 * ∑ i, ∑ j, if i = j then 0 else crossTerm psi mu0 mu1 beta (C i) (e i) (C j) (e j)

/-- The bias is outside the window where the code raises `TypeError` for several paths. -/
def Spec.OffWindow (mu0 mu1 beta : ℝ) : Prop := |(mu1 - mu0) * beta| < 1e-16 ∨ 1e-15 ≤ |(mu1 - mu0) * beta|

/-- The contract of `mpmath.psi` in the right half plane: the trigamma function, and a primitive of it. -/
structure Spec.IsPolygamma (psi : ℕ → ℂ → ℂ) : Prop where
  tri : IsTrigamma psi
  der : ∀ z : ℂ, 0 < z.re → HasDerivAt (psi 0) (psi 1 z) z

/-! ### Sums over paths -/

theorem I2_eq (psi : ℕ → ℂ → ℂ) (A B a b : ℝ) {mu0 mu1 beta : ℝ} (h : OffWindow mu0 mu1 beta) :
    integralI2 psi A B a b mu0 mu1 beta = .ok (crossTerm psi mu0 mu1 beta A a B b) := by
  unfold integralI2 crossTerm
  simp only
  rcases h with h | h
  · rw [if_pos h, if_pos h]
  · have h' : ¬ |(mu1 - mu0) * beta| < 1e-16 := by
      have : (1e-16 : ℝ) ≤ 1e-15 := by norm_num
      exact not_lt.mpr (this.trans h)
    rw [if_neg h', if_neg (not_lt.mpr h), if_neg h']
    congr 2
    simp only [Psi, Complex.add_re, Complex.sub_re]
    ring

theorem cross_symm (psi : ℕ → ℂ → ℂ) (mu0 mu1 beta A a B b : ℝ) : crossTerm psi mu0 mu1 beta A a B b = crossTerm psi mu0 mu1 beta B b A a := by
  unfold crossTerm
  split
  · rfl
  · rw [← neg_sub a b, div_neg]
    ring

theorem gamma2_off (psi : ℕ → ℂ → ℂ) (A B a b : ℝ) {mu0 mu1 beta : ℝ} (h : OffWindow mu0 mu1 beta) :
    gamma2 psi A B a b mu0 mu1 beta = .ok (integralI1 psi A a mu0 mu1 beta + integralI1 psi B b mu0 mu1 beta + crossTerm psi mu0 mu1 beta A a B b) := by
  unfold gamma2
  rw [I2_eq psi A B a b h]
  rfl

theorem I1_neg (psi : ℕ → ℂ → ℂ) (C e mu0 mu1 beta : ℝ) : integralI1 psi (-C) e mu0 mu1 beta = integralI1 psi C e mu0 mu1 beta := by
  simp only [integralI1, neg_sq]

theorem cross_neg (psi : ℕ → ℂ → ℂ) (mu0 mu1 beta A a B b : ℝ) : crossTerm psi mu0 mu1 beta A a (-B) b = -crossTerm psi mu0 mu1 beta A a B b := by
  unfold crossTerm
  split
  · rw [neg_zero]
  · ring

/-- **C150**, part: the integrals of one, two and four paths are the sum of the rates of the paths and of the interference of every
pair, outside the window where they raise. -/
theorem C150_sum_partial (psi : ℕ → ℂ → ℂ) (C e : Fin 4 → ℝ) {mu0 mu1 beta : ℝ} (h : OffWindow mu0 mu1 beta) :
    integralI1 psi (C 0) (e 0) mu0 mu1 beta = pathRate psi mu0 mu1 beta ![C 0] ![e 0] ∧
    gamma2 psi (C 0) (C 1) (e 0) (e 1) mu0 mu1 beta = .ok (pathRate psi mu0 mu1 beta ![C 0, C 1] ![e 0, e 1]) ∧
    gamma4 psi (C 0) (C 1) (C 2) (C 3) (e 0) (e 1) (e 2) (e 3) mu0 mu1 beta = .ok (pathRate psi mu0 mu1 beta C e) := by
  refine ⟨?_, ?_, ?_⟩
  · simp [pathRate]
  · rw [gamma2_off psi _ _ _ _ h]
    congr 1
    simp only [pathRate, Fin.sum_univ_two, Matrix.cons_val_zero, Matrix.cons_val_one, Fin.isValue, zero_ne_one, one_ne_zero, if_true, if_false]
    rw [cross_symm psi mu0 mu1 beta (C 1) (e 1) (C 0) (e 0)]
    ring
  · unfold gamma4
    rw [gamma2_off psi _ _ _ _ h, gamma2_off psi _ _ _ _ h, gamma2_off psi _ _ _ _ h, gamma2_off psi _ _ _ _ h, gamma2_off psi _ _ _ _ h,
      gamma2_off psi _ _ _ _ h]
    simp only [Bind.bind, Except.bind, Pure.pure, Except.pure, I1_neg, cross_neg]
    congr 1
    simp only [pathRate, Fin.sum_univ_four, Fin.isValue, if_true, show (0 : Fin 4) ≠ 1 by decide, show (0 : Fin 4) ≠ 2 by decide, show (0 : Fin 4) ≠ 3 by decide,
      show (1 : Fin 4) ≠ 0 by decide, show (1 : Fin 4) ≠ 2 by decide, show (1 : Fin 4) ≠ 3 by decide, show (2 : Fin 4) ≠ 0 by decide, show (2 : Fin 4) ≠ 1 by decide,
      show (2 : Fin 4) ≠ 3 by decide, show (3 : Fin 4) ≠ 0 by decide, show (3 : Fin 4) ≠ 1 by decide, show (3 : Fin 4) ≠ 2 by decide, if_false]
    rw [cross_symm psi mu0 mu1 beta (C 1) (e 1) (C 0) (e 0), cross_symm psi mu0 mu1 beta (C 2) (e 2) (C 0) (e 0), cross_symm psi mu0 mu1 beta (C 3) (e 3) (C 0) (e 0),
      cross_symm psi mu0 mu1 beta (C 2) (e 2) (C 1) (e 1), cross_symm psi mu0 mu1 beta (C 3) (e 3) (C 1) (e 1), cross_symm psi mu0 mu1 beta (C 3) (e 3) (C 2) (e 2)]
    ring

/-- **C150**, part: the order in which the four paths are listed has no effect. -/
theorem C150_order_partial (psi : ℕ → ℂ → ℂ) (C e : Fin 4 → ℝ) (σ : Equiv.Perm (Fin 4)) {mu0 mu1 beta : ℝ} (h : OffWindow mu0 mu1 beta) :
    gamma4 psi (C (σ 0)) (C (σ 1)) (C (σ 2)) (C (σ 3)) (e (σ 0)) (e (σ 1)) (e (σ 2)) (e (σ 3)) mu0 mu1 beta =
      gamma4 psi (C 0) (C 1) (C 2) (C 3) (e 0) (e 1) (e 2) (e 3) mu0 mu1 beta := by
  rw [(C150_sum_partial psi C e h).2.2]
  refine ((C150_sum_partial psi (C ∘ σ) (e ∘ σ) h).2.2).trans ?_
  congr 1
  unfold pathRate
  congr 1
  · exact Equiv.sum_comp σ fun i => integralI1 psi (C i) (e i) mu0 mu1 beta
  · congr 1
    rw [← Equiv.sum_comp σ fun i => ∑ j, if i = j then 0 else crossTerm psi mu0 mu1 beta (C i) (e i) (C j) (e j)]
    refine Finset.sum_congr rfl fun i _ => ?_
    rw [← Equiv.sum_comp σ fun j => if σ i = j then 0 else crossTerm psi mu0 mu1 beta (C (σ i)) (e (σ i)) (C j) (e j)]
    refine Finset.sum_congr rfl fun j _ => ?_
    simp only [EmbeddingLike.apply_eq_iff_eq, Function.comp]

theorem I1_scale (psi : ℕ → ℂ → ℂ) (c C e mu0 mu1 beta : ℝ) : integralI1 psi (c * C) e mu0 mu1 beta = c ^ 2 * integralI1 psi C e mu0 mu1 beta := by
  simp only [integralI1]
  split
  · rw [mul_zero]
  · split <;> ring

/-- **C150**, part: scaling all the amplitudes by `c` scales the rate by `c²`, and a path with amplitude zero has no effect. -/
theorem C150_quadratic_partial (psi : ℕ → ℂ → ℂ) (C e : Fin 4 → ℝ) {mu0 mu1 beta : ℝ} (h : OffWindow mu0 mu1 beta) :
    (∀ c : ℝ, ∃ r, gamma4 psi (C 0) (C 1) (C 2) (C 3) (e 0) (e 1) (e 2) (e 3) mu0 mu1 beta = .ok r ∧
      gamma4 psi (c * C 0) (c * C 1) (c * C 2) (c * C 3) (e 0) (e 1) (e 2) (e 3) mu0 mu1 beta = .ok (c ^ 2 * r)) ∧
    gamma4 psi (C 0) (C 1) 0 0 (e 0) (e 1) (e 2) (e 3) mu0 mu1 beta = gamma2 psi (C 0) (C 1) (e 0) (e 1) mu0 mu1 beta ∧
    gamma2 psi (C 0) 0 (e 0) (e 1) mu0 mu1 beta = .ok (integralI1 psi (C 0) (e 0) mu0 mu1 beta) := by
  have z1 : ∀ e, integralI1 psi 0 e mu0 mu1 beta = 0 := fun e => by simp [integralI1]
  have z2 : ∀ A a b, crossTerm psi mu0 mu1 beta A a 0 b = 0 := fun A a b => by simp [crossTerm]
  have z3 : ∀ B a b, crossTerm psi mu0 mu1 beta 0 a B b = 0 := fun A a b => by simp [crossTerm]
  refine ⟨fun c => ⟨_, (C150_sum_partial psi C e h).2.2, ?_⟩, ?_, ?_⟩
  · rw [(C150_sum_partial psi (fun i => c * C i) e h).2.2]
    congr 1
    unfold pathRate
    have hA : ∑ i, integralI1 psi (c * C i) (e i) mu0 mu1 beta = c ^ 2 * ∑ i, integralI1 psi (C i) (e i) mu0 mu1 beta := by
      rw [Finset.mul_sum]
      exact Finset.sum_congr rfl fun i _ => I1_scale psi c _ _ _ _ _
    have hB : (∑ i, ∑ j, if i = j then (0 : ℝ) else crossTerm psi mu0 mu1 beta (c * C i) (e i) (c * C j) (e j)) =
        c ^ 2 * ∑ i, ∑ j, if i = j then (0 : ℝ) else crossTerm psi mu0 mu1 beta (C i) (e i) (C j) (e j) := by
      rw [Finset.mul_sum]
      refine Finset.sum_congr rfl fun i _ => ?_
      rw [Finset.mul_sum]
      refine Finset.sum_congr rfl fun j _ => ?_
      split
      · rw [mul_zero]
      · unfold crossTerm
        split
        · rw [mul_zero]
        · ring
    simp only
    rw [hA, hB]
    ring
  · unfold gamma4
    rw [gamma2_off psi _ _ _ _ h, gamma2_off psi _ _ _ _ h, gamma2_off psi _ _ _ _ h, gamma2_off psi _ _ _ _ h, gamma2_off psi _ _ _ _ h,
      gamma2_off psi _ _ _ _ h]
    simp only [Bind.bind, Except.bind, Pure.pure, Except.pure, neg_zero, z1, z2, z3]
    congr 1
    ring
  · rw [gamma2_off psi _ _ _ _ h, z1, z2, add_zero, add_zero]

/-! ### Equal levels -/

theorem trigamma_conj {psi : ℕ → ℂ → ℂ} (h : IsTrigamma psi) (y : ℝ) : (psi 1 (0.5 + ((-y : ℝ) : ℂ) * Complex.I)).im = -(psi 1 (0.5 + (y : ℂ) * Complex.I)).im := by
  have h1 := trigamma_im h (-y)
  have h2 := (trigamma_im h y).neg
  refine h1.unique ?_
  have e : (fun k : ℕ => -(2 * (0.5 + (k : ℝ)) * -y) / (((0.5 + k) ^ 2 + (-y) ^ 2) ^ 2)) = fun k : ℕ => -(-(2 * (0.5 + (k : ℝ)) * y) / (((0.5 + k) ^ 2 + y ^ 2) ^ 2)) := by
    funext k
    rw [neg_sq]
    ring
  rw [e]
  exact h2

/-- `0.5 + i β/2π (a - b)`. -/
theorem arg_eq (beta a b : ℝ) : (0.5 + Complex.I * beta / (2 * Real.pi) * (a - b) : ℂ) = 0.5 + ((beta / (2 * Real.pi) * (a - b) : ℝ) : ℂ) * Complex.I := by
  push_cast
  ring

theorem half_re (y : ℝ) : 0 < (0.5 + (y : ℂ) * Complex.I).re := by
  simp
  norm_num

/-- The function whose difference quotient is the interference. -/
noncomputable def crossFun (psi : ℕ → ℂ → ℂ) (mu0 mu1 beta a : ℝ) : ℝ :=
  (psi 0 (0.5 + Complex.I * beta / (2 * Real.pi) * (a - mu1)) - psi 0 (0.5 + Complex.I * beta / (2 * Real.pi) * (a - mu0))).re

theorem psi0_deriv {psi : ℕ → ℂ → ℂ} (h : IsPolygamma psi) (beta mu a : ℝ) :
    HasDerivAt (fun a : ℝ => (psi 0 (0.5 + Complex.I * beta / (2 * Real.pi) * (a - mu))).re)
      (beta / (2 * Real.pi) * (psi 1 (0.5 + Complex.I * beta / (2 * Real.pi) * (mu - a))).im) a := by
  set k : ℂ := Complex.I * beta / (2 * Real.pi) with hk
  have hz : (0.5 + k * ((a : ℂ) - mu)) = 0.5 + ((beta / (2 * Real.pi) * (a - mu) : ℝ) : ℂ) * Complex.I := arg_eq beta a mu
  have h1 : HasDerivAt (fun z : ℂ => psi 0 (0.5 + k * (z - mu))) (psi 1 (0.5 + k * ((a : ℂ) - mu)) * k) (a : ℂ) := by
    have hin : HasDerivAt (fun z : ℂ => (0.5 : ℂ) + k * (z - mu)) k (a : ℂ) := by
      have := (((hasDerivAt_id (a : ℂ)).sub_const (mu : ℂ)).const_mul k).const_add (0.5 : ℂ)
      simpa using this
    have hout := h.der (0.5 + k * ((a : ℂ) - mu)) (by rw [hz]; exact half_re _)
    exact hout.comp (a : ℂ) hin
  have h2 := h1.real_of_complex
  convert h2 using 1
  rw [hz, show (0.5 + k * ((mu : ℂ) - a)) = 0.5 + ((-(beta / (2 * Real.pi) * (a - mu)) : ℝ) : ℂ) * Complex.I by rw [arg_eq]; congr 3; ring, trigamma_conj h.tri]
  rw [show k = ((beta / (2 * Real.pi) : ℝ) : ℂ) * Complex.I by rw [hk]; push_cast; ring]
  simp only [Complex.mul_re, Complex.mul_im, Complex.ofReal_re, Complex.ofReal_im, Complex.I_re, Complex.I_im]
  ring

theorem crossFun_deriv {psi : ℕ → ℂ → ℂ} (h : IsPolygamma psi) (mu0 mu1 beta a : ℝ) :
    HasDerivAt (crossFun psi mu0 mu1 beta) (beta / (2 * Real.pi) * ((psi 1 (0.5 + Complex.I * beta / (2 * Real.pi) * (mu1 - a))).im -
      (psi 1 (0.5 + Complex.I * beta / (2 * Real.pi) * (mu0 - a))).im)) a := by
  have := (psi0_deriv h beta mu1 a).sub (psi0_deriv h beta mu0 a)
  rw [← mul_sub] at this
  exact this

theorem psi1_continuous {psi : ℕ → ℂ → ℂ} (h : IsPolygamma psi) (beta mu : ℝ) :
    Continuous fun a : ℝ => (psi 1 (0.5 + Complex.I * beta / (2 * Real.pi) * (mu - a))).im := by
  have hopen : IsOpen {z : ℂ | 0 < z.re} := isOpen_lt continuous_const Complex.continuous_re
  have hd : DifferentiableOn ℂ (psi 0) {z : ℂ | 0 < z.re} := fun z hz => (h.der z hz).differentiableAt.differentiableWithinAt
  have hc : ContinuousOn (psi 1) {z : ℂ | 0 < z.re} := (hd.deriv hopen).continuousOn.congr fun z hz => (h.der z hz).deriv.symm
  have hin : Continuous fun a : ℝ => (0.5 + Complex.I * beta / (2 * Real.pi) * (mu - a) : ℂ) := by fun_prop
  exact Complex.continuous_im.comp (hc.comp_continuous hin fun a => by
    change 0 < (0.5 + Complex.I * beta / (2 * Real.pi) * (mu - a) : ℂ).re
    rw [arg_eq]; exact half_re _)

/-- What the code computes for two paths whose intermediate states have nearly the same energy: the interference counts once,
`A² + A B + B²`, where the square of the sum of the amplitudes has `A² + 2 A B + B²`. -/
theorem C150_equal_levels_refuted {psi : ℕ → ℂ → ℂ} (h : IsPolygamma psi) (A B a : ℝ) {mu0 mu1 beta : ℝ} (hx : 1e-15 ≤ |(mu1 - mu0) * beta|) :
    ∃ F : ℝ → ℝ, (∀ t, gamma2 psi A B a (a + t) mu0 mu1 beta = .ok (F t)) ∧
      Tendsto F (𝓝[≠] 0) (𝓝 ((A ^ 2 + A * B + B ^ 2) * integralI1 psi 1 a mu0 mu1 beta)) := by
  refine ⟨_, fun t => gamma2_off psi A B a (a + t) (Or.inr hx), ?_⟩
  have h' : ¬ |(mu1 - mu0) * beta| < 1e-16 := by
    have : (1e-16 : ℝ) ≤ 1e-15 := by norm_num
    exact not_lt.mpr (this.trans hx)
  set J := fun e : ℝ => (psi 1 (0.5 + Complex.I * beta / (2 * Real.pi) * (mu1 - e))).im - (psi 1 (0.5 + Complex.I * beta / (2 * Real.pi) * (mu0 - e))).im with hJ
  have hI1 : ∀ C e, integralI1 psi C e mu0 mu1 beta = C ^ 2 * (beta / (2 * Real.pi) * (1 / (Real.exp ((mu1 - mu0) * beta) - 1)) * J e) := by
    intro C e
    unfold integralI1
    simp only
    rw [if_neg h', if_neg (not_lt.mpr hx), nB, Complex.sub_im]
    simp only [hJ, Psi]
    ring
  have hJc : Continuous J := (psi1_continuous h beta mu1).sub (psi1_continuous h beta mu0)
  have hcross : ∀ t, crossTerm psi mu0 mu1 beta A a B (a + t) = A * B * (1 / (Real.exp ((mu1 - mu0) * beta) - 1)) *
      (t⁻¹ * (crossFun psi mu0 mu1 beta (a + t) - crossFun psi mu0 mu1 beta a)) := by
    intro t
    unfold crossTerm crossFun
    rw [if_neg h', show a - (a + t) = -t by ring, div_neg]
    push_cast
    ring
  have hd := (crossFun_deriv h mu0 mu1 beta a).tendsto_slope_zero
  simp only [smul_eq_mul] at hd
  have hB : Tendsto (fun t : ℝ => integralI1 psi B (a + t) mu0 mu1 beta) (𝓝[≠] 0) (𝓝 (integralI1 psi B a mu0 mu1 beta)) := by
    have : Continuous fun t : ℝ => integralI1 psi B (a + t) mu0 mu1 beta := by
      simp only [hI1]
      fun_prop
    have h0 := this.tendsto 0
    rw [add_zero] at h0
    exact h0.mono_left nhdsWithin_le_nhds
  have hC : Tendsto (fun t : ℝ => crossTerm psi mu0 mu1 beta A a B (a + t)) (𝓝[≠] 0) (𝓝 (A * B * integralI1 psi 1 a mu0 mu1 beta)) := by
    simp only [hcross]
    have := hd.const_mul (A * B * (1 / (Real.exp ((mu1 - mu0) * beta) - 1)))
    convert this using 2
    rw [hI1]
    simp only [hJ]
    ring
  have := (tendsto_const_nhds (x := integralI1 psi A a mu0 mu1 beta)).add hB |>.add hC
  convert this using 2
  rw [hI1 A, hI1 B, hI1 1]
  ring

/-- C150 is false of the code: two paths with opposite amplitudes over states of nearly the same energy cancel at every energy `z` away
from the level, but the rate computed for them does not tend to zero. -/
theorem C150_cancel_refuted {psi : ℕ → ℂ → ℂ} (h : IsPolygamma psi) :
    (∀ z : ℝ, z ≠ 0 → Tendsto (fun t : ℝ => (1 / (0 - z) + (-1) / (t - z)) ^ 2) (𝓝[≠] 0) (𝓝 0)) ∧
    ∃ F : ℝ → ℝ, (∀ t, gamma2 psi 1 (-1) 0 t 0 (1 / 100) (2 * Real.pi) = .ok (F t)) ∧ ∃ L, L ≤ -(1 / Real.pi) ∧ Tendsto F (𝓝[≠] 0) (𝓝 L) := by
  have hpi1 := Real.two_le_pi
  have hpi2 := Real.pi_le_four
  constructor
  · intro z hz
    have : ContinuousAt (fun t : ℝ => (1 / (0 - z) + (-1) / (t - z)) ^ 2) 0 := by
      have : (0 : ℝ) - z ≠ 0 := by simpa using hz
      fun_prop (disch := assumption)
    have h0 := this.tendsto
    rw [show (1 / (0 - z) + (-1) / (0 - z)) ^ 2 = 0 by rw [← add_div]; simp] at h0
    exact h0.mono_left nhdsWithin_le_nhds
  · have hx : (1e-15 : ℝ) ≤ |(1 / 100 - 0) * (2 * Real.pi)| := by
      rw [abs_of_pos (by positivity)]
      nlinarith
    obtain ⟨F, hF, hL⟩ := C150_equal_levels_refuted h 1 (-1) 0 hx
    refine ⟨F, fun t => by have := hF t; rwa [zero_add] at this, _, ?_, hL⟩
    have := (C148_refuted h.tri).2 (1 / 100) (by nlinarith) (by nlinarith)
    norm_num at this ⊢
    exact this

/-- There is a function with the contract of `mpmath.psi`. -/
theorem polygamma_exists : ∃ psi, IsPolygamma psi := by
  have hb : ∀ (r : ℝ), 0 < r → ∀ (k : ℕ) (z : ℂ), r < z.re → ‖1 / (z + k) ^ 2‖ ≤ 1 / |(k : ℝ) + r| ^ (2 : ℝ) := by
    intro r hr k z hz
    rw [norm_div, norm_one, norm_pow, Real.rpow_two]
    have hp : 0 < (k : ℝ) + r := by positivity
    have h1 : |(k : ℝ) + r| ≤ ‖z + k‖ := by
      refine le_trans ?_ (Complex.abs_re_le_norm (z + k))
      rw [Complex.add_re, Complex.natCast_re, abs_of_pos hp, abs_of_pos (by linarith)]
      linarith
    exact one_div_le_one_div_of_le (pow_pos (abs_pos.mpr hp.ne') 2) (pow_le_pow_left₀ (abs_nonneg _) h1 2)
  have hsum : ∀ r : ℝ, Summable fun k : ℕ => 1 / |(k : ℝ) + r| ^ (2 : ℝ) := fun r => (Real.summable_one_div_nat_add_rpow r 2).mpr (by norm_num)
  refine ⟨fun n z => if n = 0 then ∑' k : ℕ, (1 / ((1 : ℂ) + k) - 1 / (z + k)) else ∑' k : ℕ, 1 / (z + k) ^ 2, ?_, ?_⟩
  · intro z hz
    simp only [one_ne_zero, if_false]
    exact (Summable.of_norm_bounded (hsum (z.re / 2)) fun k => hb _ (by linarith) k z (by linarith)).hasSum
  · intro z hz
    simp only [one_ne_zero, if_false, if_true]
    set r := min (z.re / 2) (1 / 2) with hr
    have hr0 : 0 < r := lt_min (by linarith) (by norm_num)
    have hopen : IsOpen {w : ℂ | r < w.re} := isOpen_lt continuous_const Complex.continuous_re
    have hconn : IsPreconnected {w : ℂ | r < w.re} := (convex_halfSpace_re_gt r).isPreconnected
    have h1 : (1 : ℂ) ∈ {w : ℂ | r < w.re} := by
      have := min_le_right (z.re / 2) (1 / 2 : ℝ)
      simp only [Set.mem_setOf_eq, Complex.one_re]
      linarith
    have hz' : z ∈ {w : ℂ | r < w.re} := by
      have := min_le_left (z.re / 2) (1 / 2 : ℝ)
      simp only [Set.mem_setOf_eq]
      linarith
    refine hasDerivAt_tsum_of_isPreconnected (hsum r) hopen hconn (fun k w hw => ?_) (fun k w hw => hb r hr0 k w hw) h1 ?_ hz'
    · have hne : w + k ≠ 0 := by
        intro h0
        have := congrArg Complex.re h0
        simp only [Complex.add_re, Complex.natCast_re, Complex.zero_re] at this
        have hw' : r < w.re := hw
        have : (0 : ℝ) ≤ k := Nat.cast_nonneg k
        linarith
      have := ((((hasDerivAt_id w).add_const (k : ℂ)).inv hne).const_sub (1 / ((1 : ℂ) + k)))
      convert this using 1
      · funext v
        simp [one_div]
      · simp [one_div, neg_div]
    · simp

/-- The hypotheses are met: a bias outside the window, four paths, a polygamma function. -/
example : OffWindow 0 1 1 ∧ ∃ psi, IsPolygamma psi ∧
    gamma4 psi 2 1 3 4 6 5 7 8 0 1 1 = gamma4 psi 1 2 3 4 5 6 7 8 0 1 1 := by
  have h : OffWindow 0 1 1 := Or.inr (by norm_num)
  obtain ⟨psi, hpsi⟩ := polygamma_exists
  have h4 := C150_order_partial psi ![1, 2, 3, 4] ![5, 6, 7, 8] (Equiv.swap 0 1) h
  simp only [Equiv.swap_apply_left, Equiv.swap_apply_right, Equiv.swap_apply_of_ne_of_ne (show (2 : Fin 4) ≠ 0 by decide) (show (2 : Fin 4) ≠ 1 by decide),
    Equiv.swap_apply_of_ne_of_ne (show (3 : Fin 4) ≠ 0 by decide) (show (3 : Fin 4) ≠ 1 by decide)] at h4
  exact ⟨h, psi, hpsi, h4⟩

end Edpyt
