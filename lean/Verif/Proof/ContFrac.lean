import Verif.Proof.Resolvent
import Verif.Model.ContFrac
import Mathlib.Tactic.Positivity
/-!
The continued fraction is a resolvent element.
-/
namespace Edpyt
open Matrix Spec

/-- Value of the continued fraction from level `k` on. -/
noncomputable def cfTail (z : ℂ) (a b : ℕ → ℝ) (m k : ℕ) : ℂ :=
  (List.range' k (m - k)).foldr (fun i r => (b i : ℂ) / (z - (a i : ℂ) - r)) 0

theorem cfTail_end (z : ℂ) (a b : ℕ → ℝ) (m k : ℕ) (h : m ≤ k) : cfTail z a b m k = 0 := by
  unfold cfTail; rw [Nat.sub_eq_zero_of_le h]; rfl

theorem cfTail_lt (z : ℂ) (a b : ℕ → ℝ) {m k : ℕ} (h : k < m) :
    cfTail z a b m k = (b k : ℂ) / (z - (a k : ℂ) - cfTail z a b m (k + 1)) := by
  unfold cfTail
  rw [show m - k = (m - (k + 1)) + 1 by omega, List.range'_succ]
  rfl

theorem cfTail_im {z : ℂ} {a b : ℕ → ℝ} {m : ℕ} (hz : z.im ≠ 0) (hb : ∀ k, 1 ≤ k → 0 ≤ b k) :
    ∀ j k, m - k = j → 1 ≤ k → z.im * (cfTail z a b m k).im ≤ 0 := by
  intro j
  induction j with
  | zero => intro k hk _; rw [cfTail_end _ _ _ _ _ (by omega)]; simp
  | succ j ih =>
    intro k hk h1
    rw [cfTail_lt _ _ _ (by omega)]
    have h2 := ih (k + 1) (by omega) (by omega)
    set w := z - (a k : ℂ) - cfTail z a b m (k + 1) with hw
    have him : w.im = z.im - (cfTail z a b m (k + 1)).im := by simp [hw]
    have hpos : 0 < z.im * w.im := by
      rw [him, mul_sub]
      have : 0 < z.im * z.im := mul_self_pos.mpr hz
      linarith
    rw [Complex.div_im]
    simp only [Complex.ofReal_im, Complex.ofReal_re, zero_mul, zero_div, zero_sub]
    have hq : 0 ≤ b k * (z.im * w.im) / Complex.normSq w :=
      div_nonneg (mul_nonneg (hb k h1) hpos.le) (Complex.normSq_nonneg _)
    calc z.im * -(b k * w.im / Complex.normSq w) = -(b k * (z.im * w.im) / Complex.normSq w) := by ring
      _ ≤ 0 := by linarith

theorem cfDen_ne {z : ℂ} {a b : ℕ → ℝ} {m : ℕ} (hz : z.im ≠ 0) (hb : ∀ k, 1 ≤ k → 0 ≤ b k) (k : ℕ) :
    z - (a k : ℂ) - cfTail z a b m (k + 1) ≠ 0 := by
  intro h
  have h1 := cfTail_im (a := a) (m := m) hz hb _ (k + 1) rfl (by omega)
  have h2 : z.im - (cfTail z a b m (k + 1)).im = 0 := by
    have := congrArg Complex.im h
    simpa using this
  have h3 : 0 < z.im * z.im := mul_self_pos.mpr hz
  rw [← sub_eq_zero.mp h2] at h1
  linarith

/-- The solution of `(z - T) x = e₀` along the chain. -/
noncomputable def cfVec (z : ℂ) (a b c : ℕ → ℝ) (m : ℕ) : ℕ → ℂ
  | 0 => (z - (a 0 : ℂ) - cfTail z a b m 1)⁻¹
  | k + 1 => (c (k + 1) : ℂ) * (z - (a (k + 1) : ℂ) - cfTail z a b m (k + 2))⁻¹ * cfVec z a b c m k

theorem cfVec_solves {z : ℂ} {a b c : ℕ → ℝ} {m : ℕ} (hz : z.im ≠ 0) (hbc : ∀ k, 1 ≤ k → b k = c k ^ 2) (i : Fin m) :
    z * cfVec z a b c m i - ∑ j : Fin m, ((tridiag m a c i j : ℝ) : ℂ) * cfVec z a b c m j = if (i : ℕ) = 0 then 1 else 0 := by
  have hb : ∀ k, 1 ≤ k → 0 ≤ b k := fun k hk => by rw [hbc k hk]; positivity
  have hne := fun k => cfDen_ne (a := a) (m := m) hz hb k
  have hrow := tridiag_row a c Complex.ofRealHom (cfVec z a b c m) i
  simp only [Complex.ofRealHom_eq_coe] at hrow
  rw [hrow]
  have hnext : (if (i : ℕ) + 1 = m then 0 else ((c (i + 1) : ℝ) : ℂ) * cfVec z a b c m (i + 1))
      = cfTail z a b m (i + 1) * cfVec z a b c m i := by
    by_cases h : (i : ℕ) + 1 = m
    · rw [if_pos h, cfTail_end _ _ _ _ _ (by omega)]; simp
    · rw [if_neg h, cfTail_lt _ _ _ (by omega), cfVec, hbc _ (by omega)]
      push_cast
      ring
  rw [hnext]
  cases hi : (i : ℕ) with
  | zero =>
    simp only [if_true, zero_add]
    have h0 := hne 0
    simp only [zero_add] at h0
    rw [show cfVec z a b c m 0 = (z - (a 0 : ℂ) - cfTail z a b m 1)⁻¹ from rfl]
    field_simp
    ring
  | succ k =>
    rw [if_neg (by omega), if_neg (by omega), Nat.add_sub_cancel]
    have h0 := hne (k + 1)
    rw [show cfVec z a b c m (k + 1) = (c (k + 1) : ℂ) * (z - (a (k + 1) : ℂ) - cfTail z a b m (k + 2))⁻¹ * cfVec z a b c m k from rfl]
    rw [show k + 1 + 1 = k + 2 from rfl] at h0 ⊢
    field_simp
    ring

/-- Continued fraction = resolvent element, for chains given by functions. -/
theorem cfTail_resolvent {z : ℂ} {a b c : ℕ → ℝ} {m : ℕ} (hz : z.im ≠ 0) (hm : 0 < m) (hbc : ∀ k, 1 ≤ k → b k = c k ^ 2) :
    cfTail z a b m 0 = (b 0 : ℂ) * resolvent z (tridiag m a c) ⟨0, hm⟩ ⟨0, hm⟩ := by
  have h1 := resolvent_mulVec (tridiag_symm m a c) hz (x := fun i => cfVec z a b c m i)
    (y := Pi.single ⟨0, hm⟩ 1) (fun i => by
      rw [cfVec_solves hz hbc]
      by_cases h : (i : ℕ) = 0
      · have : i = ⟨0, hm⟩ := Fin.ext h
        subst this; simp
      · rw [if_neg h, Pi.single_eq_of_ne]
        intro hc; exact h (by rw [hc]))
  have h2 : resolvent z (tridiag m a c) ⟨0, hm⟩ ⟨0, hm⟩ = cfVec z a b c m 0 := by
    have := congrFun h1 ⟨0, hm⟩
    simpa [Matrix.mulVec_single_one] using this
  rw [h2, cfTail_lt _ _ _ hm, cfVec, div_eq_mul_inv]

theorem cfCalc_eq (junk : ℝ) (z : ℂ) (a b : List ℝ) :
    cfCalc junk z a b = cfTail z (fun i => a[i]?.getD junk) (fun i => b[i]?.getD junk) a.length 0 := by
  unfold cfCalc cfTail
  rw [List.foldl_reverse, List.range_eq_range', Nat.sub_zero]

/-- Spectral solution of `(z - T) y = e₀` from an orthonormal eigenbasis. -/
theorem eigen_resolvent {m : ℕ} {H : Matrix (Fin m) (Fin m) ℝ} (hH : H.IsSymm) {z : ℂ} (hz : z.im ≠ 0)
    {w : Fin m → ℝ} {U : Matrix (Fin m) (Fin m) ℝ} (horth : Uᵀ * U = 1) (heig : H * U = U * Matrix.diagonal w) (i j : Fin m) :
    resolvent z H i j = ∑ r, (U i r : ℂ) * (U j r : ℂ) * (z - (w r : ℂ))⁻¹ := by
  have hUU : U * Uᵀ = 1 := _root_.mul_eq_one_comm.mp horth
  have hne : ∀ r, z - (w r : ℂ) ≠ 0 := fun r h => hz (by
    have := congrArg Complex.im h; simpa using this)
  have h1 := resolvent_mulVec hH hz (x := fun i => ∑ r, (U i r : ℂ) * (U j r : ℂ) * (z - (w r : ℂ))⁻¹) (y := Pi.single j 1)
    (fun i => by
      have e1 : ∑ k, ((H i k : ℝ) : ℂ) * ∑ r, (U k r : ℂ) * (U j r : ℂ) * (z - (w r : ℂ))⁻¹
          = ∑ r, ((U i r : ℂ) * (w r : ℂ)) * ((U j r : ℂ) * (z - (w r : ℂ))⁻¹) := by
        simp only [Finset.mul_sum]
        rw [Finset.sum_comm]
        refine Finset.sum_congr rfl fun r _ => ?_
        have : (∑ k, H i k * U k r) = U i r * w r := by
          have := congrFun (congrFun heig i) r
          rwa [Matrix.mul_apply, Matrix.mul_diagonal] at this
        rw [← Complex.ofReal_mul, ← this, Complex.ofReal_sum, Finset.sum_mul]
        refine Finset.sum_congr rfl fun k _ => ?_
        push_cast; ring
      rw [e1, Finset.mul_sum, ← Finset.sum_sub_distrib]
      have e2 : ∀ r, z * ((U i r : ℂ) * (U j r : ℂ) * (z - (w r : ℂ))⁻¹) - ((U i r : ℂ) * (w r : ℂ)) * ((U j r : ℂ) * (z - (w r : ℂ))⁻¹)
          = ((U i r * U j r : ℝ) : ℂ) := by
        intro r
        have := hne r
        field_simp
        push_cast
        ring
      simp only [e2]
      rw [← Complex.ofReal_sum]
      have : ∑ r, U i r * U j r = (1 : Matrix (Fin m) (Fin m) ℝ) i j := by
        rw [← hUU, Matrix.mul_apply]; rfl
      rw [this, Matrix.one_apply, Pi.single_apply]
      split_ifs <;> simp)
  have := congrFun h1 i
  simpa [Matrix.mulVec_single_one] using this

end Edpyt
