import Mathlib.Analysis.Matrix.Spectrum
import Mathlib.Data.Matrix.Block
import Mathlib.Algebra.BigOperators.Ring.Finset
import Mathlib.Tactic.Linarith
/-!
A rectangular matrix of amplitudes against the two square ones of the same size.
-/
namespace Edpyt
open Matrix

namespace PairBind
variable {ι κ τ : Type} [Fintype ι] [Fintype κ] [Fintype τ]

/-- Energy of a matrix of amplitudes. -/
noncomputable def energy (K₁ : Matrix ι ι ℝ) (K₂ : Matrix κ κ ℝ) (l₁ : τ → ι → ℝ) (l₂ : τ → κ → ℝ) (u : τ → ℝ) (X : Matrix ι κ ℝ) : ℝ :=
  ∑ A, ∑ B, X A B * ((K₁ * X) A B + (X * K₂) A B + ∑ x, u x * (l₁ x A * X A B * l₂ x B))

/-- Squared norm. -/
def norm2 (X : Matrix ι κ ℝ) : ℝ := ∑ A, ∑ B, X A B * X A B

theorem norm2_nonneg (X : Matrix ι κ ℝ) : 0 ≤ norm2 X := Finset.sum_nonneg fun _ _ => Finset.sum_nonneg fun _ _ => mul_self_nonneg _

theorem norm2_zero {X : Matrix ι κ ℝ} (h : norm2 X = 0) : X = 0 := by
  ext A B
  have h1 := (Finset.sum_eq_zero_iff_of_nonneg fun A _ => Finset.sum_nonneg fun B _ => mul_self_nonneg (X A B)).mp h A (Finset.mem_univ _)
  exact mul_self_eq_zero.mp ((Finset.sum_eq_zero_iff_of_nonneg fun B _ => mul_self_nonneg (X A B)).mp h1 B (Finset.mem_univ _))

theorem norm2_transpose (X : Matrix ι κ ℝ) : norm2 Xᵀ = norm2 X := Finset.sum_comm

variable {K₁ : Matrix ι ι ℝ} {K₂ : Matrix κ κ ℝ} {l₁ : τ → ι → ℝ} {l₂ : τ → κ → ℝ} {u : τ → ℝ}

theorem energy_transpose (h₁ : K₁ᵀ = K₁) (h₂ : K₂ᵀ = K₂) (X : Matrix ι κ ℝ) : energy K₂ K₁ l₂ l₁ u Xᵀ = energy K₁ K₂ l₁ l₂ u X := by
  unfold energy
  rw [Finset.sum_comm]
  refine Finset.sum_congr rfl fun A _ => Finset.sum_congr rfl fun B _ => ?_
  have e1 : (K₂ * Xᵀ) B A = (X * K₂) A B := by
    have : K₂ * Xᵀ = (X * K₂)ᵀ := by rw [Matrix.transpose_mul, h₂]
    rw [this]; rfl
  have e2 : (Xᵀ * K₁) B A = (K₁ * X) A B := by
    have : Xᵀ * K₁ = (K₁ * X)ᵀ := by rw [Matrix.transpose_mul, h₁]
    rw [this]; rfl
  rw [e1, e2, Matrix.transpose_apply, add_comm ((X * K₂) A B)]
  congr 2
  exact Finset.sum_congr rfl fun x _ => by ring

theorem energy_blocks (Z₁₁ : Matrix ι ι ℝ) (Z₁₂ : Matrix ι κ ℝ) (Z₂₁ : Matrix κ ι ℝ) (Z₂₂ : Matrix κ κ ℝ) :
    energy (fromBlocks K₁ 0 0 K₂) (fromBlocks K₁ 0 0 K₂) (fun x => Sum.elim (l₁ x) (l₂ x)) (fun x => Sum.elim (l₁ x) (l₂ x)) u (fromBlocks Z₁₁ Z₁₂ Z₂₁ Z₂₂) =
      energy K₁ K₁ l₁ l₁ u Z₁₁ + energy K₁ K₂ l₁ l₂ u Z₁₂ + (energy K₂ K₁ l₂ l₁ u Z₂₁ + energy K₂ K₂ l₂ l₂ u Z₂₂) := by
  unfold energy
  rw [fromBlocks_multiply, fromBlocks_multiply]
  simp only [Fintype.sum_sum_type, fromBlocks_apply₁₁, fromBlocks_apply₁₂, fromBlocks_apply₂₁, fromBlocks_apply₂₂, Sum.elim_inl, Sum.elim_inr, Matrix.zero_mul, Matrix.mul_zero, add_zero, zero_add,
    Finset.sum_add_distrib]
  abel

variable [DecidableEq ι]

/-- Replacing the eigenvalues by their absolute values does not raise the energy of an attractive interaction. -/
theorem abs_bound {K : Matrix ι ι ℝ} {l : τ → ι → ℝ} (hu : ∀ x, u x ≤ 0) {B : Matrix ι ι ℝ} (hB : Bᵀ = B) :
    ∃ V : Matrix ι ι ℝ, Vᵀ = V ∧ V * V = B * B ∧ energy K K l l u V ≤ energy K K l l u B ∧ ∀ i, V i i = 0 → ∀ j, V i j = 0 := by
  have hBh : B.IsHermitian := by
    unfold Matrix.IsHermitian
    rw [Matrix.conjTranspose_eq_transpose_of_trivial, hB]
  obtain ⟨U, d, hU, hUB⟩ : ∃ (U : Matrix ι ι ℝ) (d : ι → ℝ), Uᵀ * U = 1 ∧ B = U * diagonal d * Uᵀ := by
    refine ⟨hBh.eigenvectorUnitary, hBh.eigenvalues, ?_, ?_⟩
    · have := Unitary.star_mul_self_of_mem hBh.eigenvectorUnitary.2
      rwa [Matrix.star_eq_conjTranspose, Matrix.conjTranspose_eq_transpose_of_trivial] at this
    · have := hBh.spectral_theorem
      rw [Unitary.conjStarAlgAut_apply, Matrix.star_eq_conjTranspose, Matrix.conjTranspose_eq_transpose_of_trivial] at this
      exact this
  have entry : ∀ (f : ι → ℝ) (i j : ι), (U * diagonal f * Uᵀ) i j = ∑ k, f k * (U i k * U j k) := fun f i j => by
    rw [Matrix.mul_apply]
    refine Finset.sum_congr rfl fun k _ => ?_
    rw [Matrix.mul_diagonal, Matrix.transpose_apply]; ring
  have sq : ∀ f : ι → ℝ, (U * diagonal f * Uᵀ) * (U * diagonal f * Uᵀ) = U * diagonal (fun k => f k * f k) * Uᵀ := fun f => by
    rw [show U * diagonal f * Uᵀ * (U * diagonal f * Uᵀ) = U * diagonal f * (Uᵀ * U) * diagonal f * Uᵀ by simp only [Matrix.mul_assoc], hU, Matrix.mul_one, Matrix.mul_assoc U, diagonal_mul_diagonal]
  have tr : ∀ f : ι → ℝ, (U * diagonal f * Uᵀ)ᵀ = U * diagonal f * Uᵀ := fun f => by
    rw [Matrix.transpose_mul, Matrix.transpose_mul, Matrix.transpose_transpose, diagonal_transpose, Matrix.mul_assoc]
  have hVV : (U * diagonal (fun k => |d k|) * Uᵀ) * (U * diagonal (fun k => |d k|) * Uᵀ) = B * B := by
    rw [hUB, sq, sq]
    simp only [abs_mul_abs_self]
  have en : ∀ {Z : Matrix ι ι ℝ}, Zᵀ = Z → energy K K l l u Z = (Z * Z * K).trace + (Z * Z * K).trace + ∑ x, u x * ∑ i, ∑ j, l x i * l x j * (Z i j * Z i j) := fun {Z} hZ => by
    have hs : ∀ i j, Z i j = Z j i := fun i j => congrFun (congrFun hZ j) i
    unfold energy
    simp only [mul_add, Finset.sum_add_distrib]
    congr 1
    · congr 1
      · have : (Z * Z * K).trace = (Z * (K * Z)).trace := by
          rw [Matrix.mul_assoc, Matrix.trace_mul_comm, Matrix.mul_assoc, Matrix.trace_mul_comm, Matrix.mul_assoc, Matrix.trace_mul_comm, Matrix.mul_assoc]
        rw [this, Matrix.trace, Finset.sum_comm]
        refine Finset.sum_congr rfl fun j _ => ?_
        rw [Matrix.diag_apply, Matrix.mul_apply]
        exact Finset.sum_congr rfl fun i _ => by rw [hs i j]
      · rw [Matrix.mul_assoc, Matrix.trace, Finset.sum_comm]
        refine Finset.sum_congr rfl fun j _ => ?_
        rw [Matrix.diag_apply, Matrix.mul_apply]
        exact Finset.sum_congr rfl fun i _ => by rw [hs i j]
    · simp only [Finset.mul_sum]
      rw [Finset.sum_congr rfl fun i _ => Finset.sum_comm, Finset.sum_comm]
      exact Finset.sum_congr rfl fun x _ => Finset.sum_congr rfl fun i _ => Finset.sum_congr rfl fun j _ => by ring
  have quad : ∀ (f : ι → ℝ) (g : ι → ℝ), ∑ i, ∑ j, g i * g j * ((U * diagonal f * Uᵀ) i j * (U * diagonal f * Uᵀ) i j) = ∑ k, ∑ m, f k * f m * (∑ i, g i * (U i k * U i m)) ^ 2 := fun f g => by
    have e1 : ∀ i j, g i * g j * ((U * diagonal f * Uᵀ) i j * (U * diagonal f * Uᵀ) i j) = ∑ k, ∑ m, g i * g j * (f k * (U i k * U j k) * (f m * (U i m * U j m))) := fun i j => by
      rw [entry, Finset.sum_mul_sum, Finset.mul_sum]
      exact Finset.sum_congr rfl fun k _ => Finset.mul_sum _ _ _
    have e2 : ∀ k m, f k * f m * (∑ i, g i * (U i k * U i m)) ^ 2 = ∑ i, ∑ j, g i * g j * (f k * (U i k * U j k) * (f m * (U i m * U j m))) := fun k m => by
      rw [pow_two, Finset.sum_mul_sum, Finset.mul_sum]
      refine Finset.sum_congr rfl fun i _ => ?_
      rw [Finset.mul_sum]
      exact Finset.sum_congr rfl fun j _ => by ring
    rw [Finset.sum_congr rfl fun i _ => Finset.sum_congr rfl fun j _ => e1 i j, Finset.sum_congr rfl fun k _ => Finset.sum_congr rfl fun m _ => e2 k m]
    have := Finset.sum_comm (s := (Finset.univ : Finset (ι × ι))) (t := (Finset.univ : Finset (ι × ι))) (f := fun p q => g p.1 * g p.2 * (f q.1 * (U p.1 q.1 * U p.2 q.1) * (f q.2 * (U p.1 q.2 * U p.2 q.2))))
    simpa only [Fintype.sum_prod_type] using this
  refine ⟨U * diagonal (fun k => |d k|) * Uᵀ, tr _, hVV, ?_, ?_⟩
  · rw [en (tr _), en hB, hVV]
    refine add_le_add le_rfl (Finset.sum_le_sum fun x _ => mul_le_mul_of_nonpos_left ?_ (hu x))
    rw [quad, hUB, quad]
    refine Finset.sum_le_sum fun k _ => Finset.sum_le_sum fun m _ => mul_le_mul_of_nonneg_right ?_ (sq_nonneg _)
    rw [← abs_mul]
    exact le_abs_self _
  · intro i hi j
    rw [entry] at hi ⊢
    have h0 := (Finset.sum_eq_zero_iff_of_nonneg fun k _ => mul_nonneg (abs_nonneg (d k)) (mul_self_nonneg (U i k))).mp hi
    refine Finset.sum_eq_zero fun k hk => ?_
    rcases mul_eq_zero.mp (h0 k hk) with h1 | h1
    · rw [h1, zero_mul]
    · rw [mul_self_eq_zero.mp h1]; ring

variable [DecidableEq κ]

/-- The lowest energy of rectangular amplitudes is at least the mean of those of the two square kinds. -/
theorem mean_bound (h₁ : K₁ᵀ = K₁) (h₂ : K₂ᵀ = K₂) (hu : ∀ x, u x ≤ 0) {e e₁ e₂ : ℝ} (m₁ : ∀ Y, e₁ * norm2 Y ≤ energy K₁ K₁ l₁ l₁ u Y) (m₂ : ∀ Y, e₂ * norm2 Y ≤ energy K₂ K₂ l₂ l₂ u Y)
    (m : ∀ Y, e * norm2 Y ≤ energy K₁ K₂ l₁ l₂ u Y) {X : Matrix ι κ ℝ} (hX : X ≠ 0) (hE : energy K₁ K₂ l₁ l₂ u X ≤ e * norm2 X) : e₁ + e₂ ≤ 2 * e := by
  obtain ⟨V, hV, hVV, hle, hdiag⟩ := abs_bound (K := fromBlocks K₁ 0 0 K₂) (l := fun x => Sum.elim (l₁ x) (l₂ x)) hu (B := fromBlocks 0 X Xᵀ 0) (by rw [fromBlocks_transpose]; simp)
  have hVb := fromBlocks_toBlocks V
  set V₁ := V.toBlocks₁₁
  set V₂ := V.toBlocks₂₂
  set W := V.toBlocks₁₂
  have hW : V.toBlocks₂₁ = Wᵀ := by
    ext B A
    exact congrFun (congrFun hV (Sum.inl A)) (Sum.inr B)
  rw [← hVb, energy_blocks, energy_blocks, hW, energy_transpose h₁ h₂, energy_transpose h₁ h₂] at hle
  have z1 : energy K₁ K₁ l₁ l₁ u 0 = 0 := by unfold energy; simp
  have z2 : energy K₂ K₂ l₂ l₂ u 0 = 0 := by unfold energy; simp
  rw [z1, z2] at hle
  have hsq := hVV
  rw [← hVb, hW, fromBlocks_multiply, fromBlocks_multiply] at hsq
  have s₁ := congrArg toBlocks₁₁ hsq
  have s₂ := congrArg toBlocks₂₂ hsq
  rw [toBlocks_fromBlocks₁₁, toBlocks_fromBlocks₁₁, Matrix.zero_mul, zero_add] at s₁
  rw [toBlocks_fromBlocks₂₂, toBlocks_fromBlocks₂₂, Matrix.zero_mul, add_zero] at s₂
  have hV₁ : V₁ᵀ = V₁ := by
    ext A B
    exact congrFun (congrFun hV (Sum.inl A)) (Sum.inl B)
  have hV₂ : V₂ᵀ = V₂ := by
    ext A B
    exact congrFun (congrFun hV (Sum.inr A)) (Sum.inr B)
  have t₁ : norm2 V₁ + norm2 W = norm2 X := by
    have hh := congrArg Matrix.trace s₁
    rw [Matrix.trace_add] at hh
    nth_rw 2 [← hV₁] at hh
    exact hh
  have t₂ : norm2 W + norm2 V₂ = norm2 X := by
    have hh := congrArg Matrix.trace s₂
    rw [Matrix.trace_add, Matrix.trace_mul_comm Wᵀ, Matrix.trace_mul_comm Xᵀ] at hh
    nth_rw 2 [← hV₂] at hh
    exact hh
  have b₁ := m₁ V₁
  have b₂ := m₂ V₂
  have b := m W
  have hpos : 0 < norm2 V₁ := by
    refine lt_of_le_of_ne (norm2_nonneg _) fun h0 => hX ?_
    have h1 := norm2_zero h0.symm
    have h2 : W = 0 := by
      ext A B
      exact hdiag (Sum.inl A) (congrFun (congrFun h1 A) A) (Sum.inr B)
    refine norm2_zero ?_
    rw [← t₁, h1, h2]
    unfold norm2
    simp
  have e3 : norm2 V₂ = norm2 V₁ := by linarith
  rw [e3] at b₂
  rw [← t₁] at hE
  refine le_of_mul_le_mul_right ?_ hpos
  linarith

end PairBind
end Edpyt
