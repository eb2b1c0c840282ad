import Verif.Props.Lanczos
/-!
The moments of a Krylov space: the projected matrix has the first `2m` moments of the operator.
-/
namespace Edpyt
open Spec Matrix

variable {ι : Type} [Fintype ι] [DecidableEq ι]

theorem resElem_step {M : Matrix ι ι ℝ} (hM : M.IsSymm) {z : ℂ} (hz : z.im ≠ 0) (u v : ι → ℝ) : z * resElem z M u v = ((u ⬝ᵥ v : ℝ) : ℂ) + resElem z M (M *ᵥ u) v := by
  have h1 := Matrix.mul_nonsing_inv _ (isUnit_shifted hM hz)
  have h2 : z • (Spec.resolvent z M *ᵥ fun i => (v i : ℂ)) = (fun i => (v i : ℂ)) + M.map Complex.ofReal *ᵥ (Spec.resolvent z M *ᵥ fun i => (v i : ℂ)) := by
    have : (z • (1 : Matrix ι ι ℂ) - M.map Complex.ofReal) *ᵥ (Spec.resolvent z M *ᵥ fun i => (v i : ℂ)) = fun i => (v i : ℂ) := by
      rw [Matrix.mulVec_mulVec]
      unfold Spec.resolvent
      rw [h1, Matrix.one_mulVec]
    rw [Matrix.sub_mulVec, Matrix.smul_mulVec, Matrix.one_mulVec, sub_eq_iff_eq_add] at this
    exact this
  unfold resElem
  rw [← smul_eq_mul, ← dotProduct_smul, h2, dotProduct_add]
  congr 1
  · simp [dotProduct]
  · rw [Matrix.dotProduct_mulVec]
    congr 1
    funext j
    have : M j = fun i => M i j := funext fun i => hM.apply i j
    simp only [Matrix.vecMul, dotProduct, Matrix.mulVec, Matrix.map_apply]
    push_cast
    refine Finset.sum_congr rfl fun i _ => ?_
    rw [hM.apply i j, mul_comm]

theorem resElem_series {M : Matrix ι ι ℝ} (hM : M.IsSymm) {z : ℂ} (hz : z.im ≠ 0) (u v : ι → ℝ) (p : ℕ) :
    resElem z M u v = ∑ k ∈ Finset.range p, ((((M ^ k) *ᵥ u) ⬝ᵥ v : ℝ) : ℂ) / z ^ (k + 1) + resElem z M ((M ^ p) *ᵥ u) v / z ^ p := by
  have hz0 : z ≠ 0 := by rintro rfl; simp at hz
  induction p with
  | zero => simp
  | succ p ih =>
    rw [ih, Finset.sum_range_succ, add_assoc]
    congr 1
    have h := resElem_step hM hz ((M ^ p) *ᵥ u) v
    rw [Matrix.mulVec_mulVec, ← pow_succ'] at h
    rw [eq_comm, pow_succ z p, ← add_div, ← h]
    field_simp

variable {m : ℕ} {T : Matrix (Fin m) (Fin m) ℝ} {M : Matrix ι ι ℝ} {q : Fin m → ι → ℝ} {r : ι → ℝ}

theorem band_pow (hb : ∀ i j : Fin m, (i : ℕ) + 1 < j → T i j = 0) (hm : 0 < m) (k : ℕ) (i : Fin m) (hi : k < i) : (T ^ k) ⟨0, hm⟩ i = 0 := by
  induction k generalizing i with
  | zero => rw [pow_zero, Matrix.one_apply_ne]; intro h; rw [← h] at hi; simp at hi
  | succ k ih =>
    rw [pow_succ, Matrix.mul_apply]
    refine Finset.sum_eq_zero fun j _ => ?_
    by_cases hj : k < j
    · rw [ih j hj, zero_mul]
    · rw [hb j i (by omega), mul_zero]

theorem krylov_pow (hb : ∀ i j : Fin m, (i : ℕ) + 1 < j → T i j = 0) (hm : 0 < m) (hmap : ∀ i, M *ᵥ q i = ∑ j, T i j • q j + if (i : ℕ) + 1 = m then r else 0) :
    ∀ k, k < m → (M ^ k) *ᵥ q ⟨0, hm⟩ = ∑ j, (T ^ k) ⟨0, hm⟩ j • q j
  | 0, _ => by
    rw [pow_zero, pow_zero, Matrix.one_mulVec, Finset.sum_eq_single ⟨0, hm⟩ (fun j _ hj => by rw [Matrix.one_apply_ne (Ne.symm hj), zero_smul]) (by simp)]
    simp
  | k + 1, hk => by
    rw [pow_succ', ← Matrix.mulVec_mulVec, krylov_pow hb hm hmap k (by omega), Matrix.mulVec_sum]
    have h1 : ∀ j, M *ᵥ ((T ^ k) ⟨0, hm⟩ j • q j) = ∑ l, ((T ^ k) ⟨0, hm⟩ j * T j l) • q l := by
      intro j
      rw [Matrix.mulVec_smul, hmap, smul_add, Finset.smul_sum]
      have h0 : (T ^ k) ⟨0, hm⟩ j • (if (j : ℕ) + 1 = m then r else 0) = 0 := by
        split
        · rw [band_pow hb hm k j (by omega), zero_smul]
        · rw [smul_zero]
      rw [h0, add_zero]
      exact Finset.sum_congr rfl fun l _ => smul_smul _ _ _
    simp only [h1]
    rw [Finset.sum_comm]
    refine Finset.sum_congr rfl fun l _ => ?_
    rw [← Finset.sum_smul, pow_succ, Matrix.mul_apply]

theorem pow_symm_dot {M : Matrix ι ι ℝ} (hM : M.IsSymm) (x y : ι → ℝ) (k : ℕ) : ((M ^ k) *ᵥ x) ⬝ᵥ y = x ⬝ᵥ (M ^ k) *ᵥ y := by
  rw [Matrix.dotProduct_mulVec, ← Matrix.mulVec_transpose, Matrix.transpose_pow, hM.eq]

/-- The first `2m` moments. -/
theorem krylov_moment (hM : M.IsSymm) (hT : T.IsSymm) (hb : ∀ i j : Fin m, (i : ℕ) + 1 < j → T i j = 0) (hm : 0 < m) (ho : ∀ i j, q i ⬝ᵥ q j = if i = j then 1 else 0)
    (hmap : ∀ i, M *ᵥ q i = ∑ j, T i j • q j + if (i : ℕ) + 1 = m then r else 0) (hr : ∀ i, q i ⬝ᵥ r = 0) {k : ℕ} (hk : k < 2 * m) :
    ((M ^ k) *ᵥ q ⟨0, hm⟩) ⬝ᵥ q ⟨0, hm⟩ = (T ^ k) ⟨0, hm⟩ ⟨0, hm⟩ := by
  have hTp : ∀ k i j, (T ^ k) i j = (T ^ k) j i := fun k i j => by
    have : (T ^ k)ᵀ = T ^ k := by rw [Matrix.transpose_pow, hT.eq]
    exact congrFun (congrFun this j) i
  have helem : ∀ i j, q i ⬝ᵥ M *ᵥ q j = T j i := fun i j => by
    rw [hmap, dotProduct_add, dotProduct_sum]
    have : q i ⬝ᵥ (if (j : ℕ) + 1 = m then r else 0) = 0 := by split; exact hr i; exact dotProduct_zero _
    rw [this, add_zero, Finset.sum_eq_single i (fun l _ hl => by rw [dotProduct_smul, ho, if_neg (Ne.symm hl), smul_zero]) (by simp), dotProduct_smul, ho, if_pos rfl, smul_eq_mul, mul_one]
  have hdot : ∀ (x y : Fin m → ℝ), (∑ i, x i • q i) ⬝ᵥ (∑ j, y j • q j) = ∑ i, x i * y i := fun x y => by
    rw [sum_dotProduct]
    refine Finset.sum_congr rfl fun i _ => ?_
    rw [smul_dotProduct, dotProduct_sum, Finset.sum_eq_single i (fun l _ hl => by rw [dotProduct_smul, ho, if_neg (Ne.symm hl), smul_zero]) (by simp), dotProduct_smul, ho, if_pos rfl]
    simp
  have hdotM : ∀ (x y : Fin m → ℝ), (∑ i, x i • q i) ⬝ᵥ M *ᵥ (∑ j, y j • q j) = ∑ i, x i * ∑ j, y j * T j i := fun x y => by
    rw [sum_dotProduct]
    refine Finset.sum_congr rfl fun i _ => ?_
    rw [smul_dotProduct, Matrix.mulVec_sum, dotProduct_sum, smul_eq_mul]
    congr 1
    refine Finset.sum_congr rfl fun j _ => ?_
    rw [Matrix.mulVec_smul, dotProduct_smul, helem, smul_eq_mul]
  have he : ∀ i j, i < m → j < m → ((M ^ (i + j)) *ᵥ q ⟨0, hm⟩) ⬝ᵥ q ⟨0, hm⟩ = (T ^ (i + j)) ⟨0, hm⟩ ⟨0, hm⟩ := by
    intro i j hi hj
    rw [pow_add, ← Matrix.mulVec_mulVec, pow_symm_dot hM, dotProduct_comm, krylov_pow hb hm hmap i hi, krylov_pow hb hm hmap j hj, hdot, pow_add, Matrix.mul_apply]
    exact Finset.sum_congr rfl fun l _ => by rw [hTp j l]
  by_cases hlt : k < m
  · simpa using he k 0 hlt hm
  · have h1 : k = (m - 1) + 1 + (k - m) := by omega
    rw [h1, pow_add, pow_succ, ← Matrix.mulVec_mulVec, ← Matrix.mulVec_mulVec, pow_symm_dot hM, dotProduct_comm, krylov_pow hb hm hmap (m - 1) (by omega),
      krylov_pow hb hm hmap (k - m) (by omega), hdotM, pow_add, pow_succ, Matrix.mul_assoc, Matrix.mul_apply]
    refine Finset.sum_congr rfl fun i _ => ?_
    congr 1
    rw [Matrix.mul_apply]
    refine Finset.sum_congr rfl fun j _ => ?_
    rw [hTp _ j, mul_comm, hT.apply i j]

theorem resElem_norm_le {M : Matrix ι ι ℝ} (hM : M.IsSymm) {z : ℂ} (hz : z.im ≠ 0) (x y : ι → ℝ) : ‖resElem z M x y‖ ≤ Real.sqrt ((x ⬝ᵥ x) * (y ⬝ᵥ y)) / |z.im| := by
  have h := resElem_bound hM hz x y
  rw [le_div_iff₀ (abs_pos.mpr hz)]
  refine Real.le_sqrt_of_sq_le ?_
  rw [mul_pow, sq_abs, mul_comm]
  exact h

/-- Two matrices and vectors with the same first `p` moments have resolvent elements that differ by at most a constant times `|z|^-p |Im z|^-1`. -/
theorem resElem_moments {κ : Type} [Fintype κ] [DecidableEq κ] {M : Matrix ι ι ℝ} {N : Matrix κ κ ℝ} (hM : M.IsSymm) (hN : N.IsSymm) (x : ι → ℝ) (y : κ → ℝ) (p : ℕ)
    (h : ∀ k < p, ((M ^ k) *ᵥ x) ⬝ᵥ x = ((N ^ k) *ᵥ y) ⬝ᵥ y) : ∃ C, 0 ≤ C ∧ ∀ z : ℂ, z.im ≠ 0 → ‖resElem z N y y - resElem z M x x‖ ≤ C / (‖z‖ ^ p * |z.im|) := by
  refine ⟨Real.sqrt ((((N ^ p) *ᵥ y) ⬝ᵥ ((N ^ p) *ᵥ y)) * (y ⬝ᵥ y)) + Real.sqrt ((((M ^ p) *ᵥ x) ⬝ᵥ ((M ^ p) *ᵥ x)) * (x ⬝ᵥ x)), by positivity, fun z hz => ?_⟩
  have hz0 : z ≠ 0 := by rintro rfl; simp at hz
  rw [resElem_series hM hz x x p, resElem_series hN hz y y p]
  rw [Finset.sum_congr rfl fun k hk => by rw [← h k (Finset.mem_range.mp hk)], add_sub_add_left_eq_sub, ← sub_div, norm_div, norm_pow]
  have h1 := resElem_norm_le hN hz ((N ^ p) *ᵥ y) y
  have h2 := resElem_norm_le hM hz ((M ^ p) *ᵥ x) x
  have h3 := norm_sub_le (resElem z N ((N ^ p) *ᵥ y) y) (resElem z M ((M ^ p) *ᵥ x) x)
  rw [mul_comm (‖z‖ ^ p), ← div_div]
  refine div_le_div_of_nonneg_right ?_ (by positivity)
  rw [add_div]
  linarith

end Edpyt
