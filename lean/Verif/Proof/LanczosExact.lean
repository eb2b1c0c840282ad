import Verif.Proof.Lanczos
import Verif.Proof.ContFrac
import Mathlib.Algebra.Order.BigOperators.Ring.Finset
/-!
The Lanczos recurrence in exact arithmetic.
-/
namespace Edpyt
open Matrix Spec

variable {ι : Type} [Fintype ι]

/-- Vectors `(v, l)` before step `k`. -/
noncomputable def lancIter (A : Matrix ι ι ℝ) (phi : ι → ℝ) : ℕ → (ι → ℝ) × (ι → ℝ)
  | 0 => (phi, 0)
  | k + 1 => let r := slStep (A *ᵥ ·) (lancIter A phi k).1 (lancIter A phi k).2; (r.2.2.2, r.2.2.1)

noncomputable def lancA (A : Matrix ι ι ℝ) (phi : ι → ℝ) (k : ℕ) : ℝ := (slStep (A *ᵥ ·) (lancIter A phi k).1 (lancIter A phi k).2).1
noncomputable def lancB (A : Matrix ι ι ℝ) (phi : ι → ℝ) (k : ℕ) : ℝ := (slStep (A *ᵥ ·) (lancIter A phi k).1 (lancIter A phi k).2).2.1
noncomputable def lancQ (A : Matrix ι ι ℝ) (phi : ι → ℝ) (k : ℕ) : ι → ℝ := (slStep (A *ᵥ ·) (lancIter A phi k).1 (lancIter A phi k).2).2.2.1

variable (A : Matrix ι ι ℝ) (phi : ι → ℝ)

theorem dot_self_nonneg (v : ι → ℝ) : 0 ≤ v ⬝ᵥ v := Finset.sum_nonneg fun i _ => mul_self_nonneg _

theorem dot_self_eq_zero {v : ι → ℝ} (h : v ⬝ᵥ v = 0) : v = 0 := by
  funext i
  have := (Finset.sum_eq_zero_iff_of_nonneg fun i _ => mul_self_nonneg (v i)).mp h i (Finset.mem_univ i)
  exact mul_self_eq_zero.mp this

theorem lancB_sq (k : ℕ) : lancB A phi k ^ 2 = (lancIter A phi k).1 ⬝ᵥ (lancIter A phi k).1 :=
  Real.sq_sqrt (dot_self_nonneg _)

theorem lancB_nonneg (k : ℕ) : 0 ≤ lancB A phi k := Real.sqrt_nonneg _

theorem lanc_v (k : ℕ) : (lancIter A phi k).1 = lancB A phi k • lancQ A phi k := by
  by_cases h : lancB A phi k = 0
  · have h2 := lancB_sq A phi k
    rw [h] at h2
    rw [h, zero_smul]
    exact dot_self_eq_zero (by rw [← h2]; norm_num)
  · have : lancQ A phi k = (1 / lancB A phi k) • (lancIter A phi k).1 := rfl
    rw [this, smul_smul, mul_one_div_cancel h, one_smul]

theorem lancQ_norm {k : ℕ} (h : lancB A phi k ≠ 0) : lancQ A phi k ⬝ᵥ lancQ A phi k = 1 := by
  have h2 := lancB_sq A phi k
  rw [lanc_v, smul_dotProduct, dotProduct_smul, smul_eq_mul, smul_eq_mul] at h2
  have h3 : lancB A phi k * lancB A phi k ≠ 0 := mul_ne_zero h h
  have h4 : lancB A phi k * lancB A phi k * (lancQ A phi k ⬝ᵥ lancQ A phi k) = lancB A phi k * lancB A phi k * 1 := by nlinarith
  exact mul_left_cancel₀ h3 h4

/-- Previous vector. -/
noncomputable def lancL (k : ℕ) : ι → ℝ := if k = 0 then 0 else lancQ A phi (k - 1)

theorem lanc_l (k : ℕ) : (lancIter A phi k).2 = lancL A phi k := by
  cases k with
  | zero => rfl
  | succ k => rfl

/-- Three-term recurrence. -/
theorem lanc_rec (k : ℕ) : A *ᵥ lancQ A phi k =
    lancB A phi (k + 1) • lancQ A phi (k + 1) + lancA A phi k • lancQ A phi k + lancB A phi k • lancL A phi k := by
  rw [← lanc_v, ← lanc_l]
  have : (lancIter A phi (k + 1)).1 = A *ᵥ lancQ A phi k + (-lancA A phi k) • lancQ A phi k + (-lancB A phi k) • (lancIter A phi k).2 := rfl
  rw [this]
  module

theorem lancA_eq (k : ℕ) : lancA A phi k = lancQ A phi k ⬝ᵥ (A *ᵥ lancQ A phi k) := rfl

variable {A} (hA : A.IsSymm)
include hA

theorem symm_dot (x y : ι → ℝ) : x ⬝ᵥ (A *ᵥ y) = (A *ᵥ x) ⬝ᵥ y := by
  rw [Matrix.dotProduct_mulVec, ← Matrix.mulVec_transpose, hA.eq]

/-- Orthonormality of the Lanczos vectors. -/
theorem lanc_orth : ∀ (n : ℕ), (∀ k < n, lancB A phi k ≠ 0) → ∀ i < n, ∀ j < n,
    lancQ A phi i ⬝ᵥ lancQ A phi j = if i = j then 1 else 0 := by
  intro n
  induction n with
  | zero => intro _ i hi; omega
  | succ n ih =>
    intro hb
    have ih := ih fun k hk => hb k (by omega)
    have key : ∀ i < n, lancQ A phi i ⬝ᵥ lancQ A phi n = 0 := by
      intro i hi
      obtain ⟨p, rfl⟩ : ∃ p, n = p + 1 := ⟨n - 1, by omega⟩
      have hrec := lanc_rec A phi p
      have hbn := hb (p + 1) (by omega)
      have e1 : lancQ A phi i ⬝ᵥ (A *ᵥ lancQ A phi p) = lancB A phi (p + 1) * (lancQ A phi i ⬝ᵥ lancQ A phi (p + 1)) +
          lancA A phi p * (lancQ A phi i ⬝ᵥ lancQ A phi p) + lancB A phi p * (lancQ A phi i ⬝ᵥ lancL A phi p) := by
        rw [hrec, dotProduct_add, dotProduct_add, dotProduct_smul, dotProduct_smul, dotProduct_smul]; rfl
      have hl : ∀ j < p + 1, ∀ k < p + 1, k ≠ 0 ∨ True → lancQ A phi j ⬝ᵥ lancL A phi k = if k = j + 1 then 1 else 0 := by
        intro j hj k hk _
        unfold lancL
        by_cases h0 : k = 0
        · rw [if_pos h0, dotProduct_zero, if_neg (by omega)]
        · rw [if_neg h0, ih j (by omega) (k - 1) (by omega)]
          by_cases h : j = k - 1
          · rw [if_pos h, if_pos (by omega)]
          · rw [if_neg h, if_neg (by omega)]
      have goal : lancB A phi (p + 1) * (lancQ A phi i ⬝ᵥ lancQ A phi (p + 1)) = 0 := by
        rw [hl i (by omega) p (by omega) (.inr trivial), ih i (by omega) p (by omega)] at e1
        by_cases hip : i = p
        · subst hip
          rw [← lancA_eq] at e1
          simp at e1
          simp [e1]
        · rw [symm_dot hA, lanc_rec A phi i] at e1
          rw [add_dotProduct, add_dotProduct, smul_dotProduct, smul_dotProduct, smul_dotProduct, ih (i + 1) (by omega) p (by omega),
            ih i (by omega) p (by omega), dotProduct_comm (lancL A phi i), hl p (by omega) i (by omega) (.inr trivial)] at e1
          simp only [smul_eq_mul] at e1
          rw [if_neg hip, if_neg (show ¬ i = p + 1 by omega)] at e1
          by_cases h : i + 1 = p
          · rw [if_pos h, if_pos h.symm, h] at e1
            linarith
          · rw [if_neg h, if_neg (Ne.symm h)] at e1
            linarith
      exact (mul_eq_zero.mp goal).resolve_left hbn
    intro i hi j hj
    by_cases h1 : i = j
    · subst h1; rw [if_pos rfl]; exact lancQ_norm A phi (hb i hi)
    · rw [if_neg h1]
      by_cases h2 : i = n
      · subst h2; rw [dotProduct_comm]; exact key j (by omega)
      · by_cases h3 : j = n
        · subst h3; exact key i (by omega)
        · rw [ih i (by omega) j (by omega), if_neg h1]

end Edpyt
