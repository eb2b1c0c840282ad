import Mathlib.Tactic.Ring
import Mathlib.Tactic.Linarith
import Mathlib.Tactic.FieldSimp
import Mathlib.LinearAlgebra.Matrix.NonsingularInverse
import Mathlib.Order.Interval.Finset.Fin
import Verif.Model.ZeroFermi

/-! Helper lemmas for `zero_fermi`: the arrays and the generalised eigenvalue problem. -/

namespace Edpyt
open Matrix

noncomputable section

/-! ### The loops -/

theorem zfA_eq (M : ℕ) (i j : ℕ) : zfA M i j = if (1 ≤ i ∧ i < M ∧ j = i + 1) ∨ (1 ≤ j ∧ j < M ∧ i = j + 1) then -(1 / 2) else 0 := by
  have key : ∀ m i j, (List.range' 1 m).foldl (fun A i => upd2 (upd2 A i (i + 1) (-0.5 : ℝ)) (i + 1) i (-0.5)) (fun _ _ => 0) i j =
      if (1 ≤ i ∧ i < m + 1 ∧ j = i + 1) ∨ (1 ≤ j ∧ j < m + 1 ∧ i = j + 1) then -(1 / 2) else 0 := by
    intro m
    induction m with
    | zero =>
      intro i j
      rw [if_neg (by omega)]; rfl
    | succ m ih =>
      intro i j
      rw [List.range'_1_concat, List.foldl_append, List.foldl_cons, List.foldl_nil]
      simp only [upd2, ih]
      by_cases h1 : i = 1 + m + 1 ∧ j = 1 + m
      · rw [if_pos h1, if_pos (by omega)]; norm_num
      · rw [if_neg h1]
        by_cases h2 : i = 1 + m ∧ j = 1 + m + 1
        · rw [if_pos h2, if_pos (by omega)]; norm_num
        · rw [if_neg h2]
          have : ((1 ≤ i ∧ i < m + 1 ∧ j = i + 1) ∨ (1 ≤ j ∧ j < m + 1 ∧ i = j + 1)) ↔ ((1 ≤ i ∧ i < m + 1 + 1 ∧ j = i + 1) ∨ (1 ≤ j ∧ j < m + 1 + 1 ∧ i = j + 1)) := by omega
          simp only [this]
  unfold zfA
  rw [key]
  have : ((1 ≤ i ∧ i < M - 1 + 1 ∧ j = i + 1) ∨ (1 ≤ j ∧ j < M - 1 + 1 ∧ i = j + 1)) ↔ ((1 ≤ i ∧ i < M ∧ j = i + 1) ∨ (1 ≤ j ∧ j < M ∧ i = j + 1)) := by omega
  simp only [this]

theorem zfB_eq (M : ℕ) (i j : ℕ) : zfB M i j = if 1 ≤ i ∧ i ≤ M ∧ i = j then 2 * (i : ℝ) - 1 else 0 := by
  unfold zfB
  induction M generalizing i j with
  | zero => rw [if_neg (by omega)]; rfl
  | succ m ih =>
    rw [List.range'_1_concat, List.foldl_append, List.foldl_cons, List.foldl_nil]
    simp only [upd2, ih]
    by_cases h1 : i = 1 + m ∧ j = 1 + m
    · rw [if_pos h1, if_pos (by omega), h1.1]
    · rw [if_neg h1]
      have : (1 ≤ i ∧ i ≤ m ∧ i = j) ↔ (1 ≤ i ∧ i ≤ m + 1 ∧ i = j) := by omega
      simp only [this]

theorem zfFlat_eq {M : ℕ} (hM : 0 < M) (A : ℕ → ℕ → ℝ) (k : ℕ) : zfFlat M A k = if k / M < M then A (k % M + 1) (k / M + 1) else 0 := by
  have inner : ∀ (i : ℕ), i < M → ∀ (a : ℕ → ℝ) (m k : ℕ), (List.range m).foldl (fun a j => Function.update a (j * M + i) (A (i + 1) (j + 1))) a k =
      if k % M = i ∧ k / M < m then A (i + 1) (k / M + 1) else a k := by
    intro i hi a m
    induction m with
    | zero => intro k; simp
    | succ m ih =>
      intro k
      rw [List.range_succ, List.foldl_append, List.foldl_cons, List.foldl_nil, Function.update_apply, ih]
      by_cases h : k = m * M + i
      · have h1 : k / M = m := by rw [h, Nat.mul_comm, Nat.mul_add_div hM, Nat.div_eq_of_lt hi, Nat.add_zero]
        have h2 : k % M = i := by rw [h, Nat.mul_comm, Nat.mul_add_mod, Nat.mod_eq_of_lt hi]
        rw [if_pos h, if_pos ⟨h2, by omega⟩, h1]
      · rw [if_neg h]
        have : (k % M = i ∧ k / M < m) ↔ (k % M = i ∧ k / M < m + 1) := by
          constructor
          · rintro ⟨a, b⟩; exact ⟨a, by omega⟩
          · rintro ⟨a, b⟩
            refine ⟨a, ?_⟩
            by_contra hc
            have : k / M = m := by omega
            have h3 := Nat.div_add_mod k M
            rw [this, a, Nat.mul_comm] at h3
            exact h h3.symm
        simp only [this]
  have outer : ∀ m ≤ M, ∀ k, (List.range m).foldl (fun a i => (List.range M).foldl (fun a j => Function.update a (j * M + i) (A (i + 1) (j + 1))) a) (fun _ => (0 : ℝ)) k =
      if k % M < m ∧ k / M < M then A (k % M + 1) (k / M + 1) else 0 := by
    intro m
    induction m with
    | zero => intro _ k; simp
    | succ m ih =>
      intro hm k
      rw [List.range_succ, List.foldl_append, List.foldl_cons, List.foldl_nil, inner m (by omega), ih (by omega)]
      by_cases h : k % M = m ∧ k / M < M
      · rw [if_pos h, if_pos (by omega), h.1]
      · rw [if_neg h]
        have : (k % M < m ∧ k / M < M) ↔ (k % M < m + 1 ∧ k / M < M) := by omega
        simp only [this]
  unfold zfFlat
  rw [outer M le_rfl]
  have : k % M < M := Nat.mod_lt _ hM
  simp only [this, true_and]

theorem zfReshape_flat {M : ℕ} (A : ℕ → ℕ → ℝ) (r c : Fin M) : zfReshape M (zfFlat M A) r c = A (c + 1) (r + 1) := by
  have hM : 0 < M := lt_of_le_of_lt (Nat.zero_le _) r.2
  have h1 : ((r : ℕ) * M + c) / M = r := by rw [Nat.mul_comm, Nat.mul_add_div hM, Nat.div_eq_of_lt c.2, Nat.add_zero]
  have h2 : ((r : ℕ) * M + c) % M = c := by rw [Nat.mul_comm, Nat.mul_add_mod, Nat.mod_eq_of_lt c.2]
  simp only [zfReshape, Matrix.of_apply]
  rw [zfFlat_eq hM, h1, h2, if_pos r.2]

/-- The matrix `a` passed to `eigh`. -/
def ozA (M : ℕ) : Matrix (Fin M) (Fin M) ℝ := Matrix.of fun r c => if (c : ℕ) = r + 1 ∨ (r : ℕ) = c + 1 then -(1 / 2) else 0

/-- The matrix `b` passed to `eigh`. -/
def ozB (M : ℕ) : Matrix (Fin M) (Fin M) ℝ := Matrix.diagonal fun r => 2 * (r : ℝ) + 1

theorem reshape_A (M : ℕ) : zfReshape M (zfFlat M (zfA M)) = ozA M := by
  ext r c
  rw [zfReshape_flat, zfA_eq]
  simp only [ozA, Matrix.of_apply]
  have := r.2
  have := c.2
  have h : ((1 ≤ (c : ℕ) + 1 ∧ (c : ℕ) + 1 < M ∧ (r : ℕ) + 1 = c + 1 + 1) ∨ (1 ≤ (r : ℕ) + 1 ∧ (r : ℕ) + 1 < M ∧ (c : ℕ) + 1 = r + 1 + 1)) ↔ ((c : ℕ) = r + 1 ∨ (r : ℕ) = c + 1) := by omega
  simp only [h]

theorem reshape_B (M : ℕ) : zfReshape M (zfFlat M (zfB M)) = ozB M := by
  ext r c
  rw [zfReshape_flat, zfB_eq]
  simp only [ozB, Matrix.diagonal_apply]
  by_cases h : r = c
  · subst h
    have := r.2
    rw [if_pos (by omega), if_pos rfl]
    push_cast; ring
  · have : (r : ℕ) ≠ c := fun hh => h (Fin.ext hh)
    rw [if_neg (by omega), if_neg h]

theorem shift_loop (m : ℕ) (zp : ℕ → ℝ) (i : ℕ) :
    (List.range' 1 m).reverse.foldl (fun zp i => Function.update zp i (zp (i - 1))) zp i = if 1 ≤ i ∧ i ≤ m then zp (i - 1) else zp i := by
  induction m generalizing zp with
  | zero => rw [if_neg (by omega)]; rfl
  | succ m ih =>
    rw [List.range'_1_concat, List.reverse_append, List.reverse_singleton, List.singleton_append, List.foldl_cons, ih]
    by_cases h1 : 1 ≤ i ∧ i ≤ m
    · rw [if_pos h1, if_pos (by omega), Function.update_apply, if_neg (by omega)]
    · rw [if_neg h1, Function.update_apply]
      by_cases h2 : i = 1 + m
      · rw [if_pos h2, if_pos (by omega), h2]
      · rw [if_neg h2, if_neg (by omega)]

theorem inv_loop (m : ℕ) (zp : ℕ → ℝ) (i : ℕ) :
    (List.range' 1 m).foldl (fun zp i => Function.update zp i (1 / zp i)) zp i = if 1 ≤ i ∧ i ≤ m then 1 / zp i else zp i := by
  induction m with
  | zero => rw [if_neg (by omega)]; rfl
  | succ m ih =>
    rw [List.range'_1_concat, List.foldl_append, List.foldl_cons, List.foldl_nil, Function.update_apply]
    by_cases h2 : i = 1 + m
    · subst h2
      have ih : _ = _ := ih
      rw [if_neg (by omega)] at ih
      rw [if_pos rfl, if_pos (by omega), ih]
    · rw [if_neg h2, ih]
      have : (1 ≤ i ∧ i ≤ m) ↔ (1 ≤ i ∧ i ≤ m + 1) := by omega
      simp only [this]

theorem fill_loop (m : ℕ) (f : ℕ → ℝ) (i : ℕ) (hi : i < m) :
    (List.range m).foldl (fun Rp i => Function.update Rp (i + 1) (f i)) (fun _ => (0 : ℝ)) (i + 1) = f i := by
  induction m with
  | zero => omega
  | succ m ih =>
    rw [List.range_succ, List.foldl_append, List.foldl_cons, List.foldl_nil, Function.update_apply]
    by_cases h : i = m
    · subst h; rw [if_pos rfl]
    · rw [if_neg (by omega), ih (by omega)]

theorem zfPoles_eq {M : ℕ} (w : Fin M → ℝ) (V : Matrix (Fin M) (Fin M) ℝ) {i : ℕ} (hi : i < M) :
    (zfPoles w V).1 (i + 1) = 1 / w ⟨i, hi⟩ ∧
    (zfPoles w V).2 (i + 1) = -(V ⟨0, by omega⟩ ⟨i, hi⟩ ^ 2 * (1 / w ⟨i, hi⟩) ^ 2 / 4) := by
  have hM : 0 < M := by omega
  have hz : (zfPoles w V).1 (i + 1) = 1 / w ⟨i, hi⟩ := by
    simp only [zfPoles]
    rw [inv_loop, if_pos (by omega), shift_loop, if_pos (by omega)]
    simp [hi]
  refine ⟨hz, ?_⟩
  simp only [zfPoles] at hz ⊢
  rw [fill_loop M _ i hi]
  rw [hz]
  have h1 : i * M / M = i := Nat.mul_div_cancel _ hM
  have h2 : i * M % M = 0 := Nat.mul_mod_left _ _
  simp only [h1, h2, hi, hM, and_self, dite_true, Matrix.transpose_apply]
  ring

/-! ### The generalised eigenvalue problem -/

theorem ozA_symm (M : ℕ) : (ozA M).IsSymm := by
  ext r c
  simp only [ozA, Matrix.transpose_apply, Matrix.of_apply, or_comm]

theorem ozB_symm (M : ℕ) : (ozB M).IsSymm := Matrix.diagonal_transpose _

/-- Alternating signs. -/
def ozD (M : ℕ) : Matrix (Fin M) (Fin M) ℝ := Matrix.diagonal fun r => (-1) ^ (r : ℕ)

theorem ozD_anti (M : ℕ) : ozA M * ozD M = -(ozD M * ozA M) := by
  ext r c
  simp only [ozD, Matrix.mul_diagonal, Matrix.neg_apply, Matrix.diagonal_mul, ozA, Matrix.of_apply]
  by_cases h : (c : ℕ) = r + 1 ∨ (r : ℕ) = c + 1
  · rw [if_pos h]
    rcases h with h | h <;> rw [h, pow_succ] <;> ring
  · rw [if_neg h]; simp

theorem ozD_comm (M : ℕ) : ozB M * ozD M = ozD M * ozB M := by
  unfold ozB ozD
  rw [Matrix.diagonal_mul_diagonal, Matrix.diagonal_mul_diagonal]
  congr 1; funext r; ring

theorem ozD_sq (M : ℕ) : ozD M * ozD M = 1 := by
  unfold ozD
  rw [Matrix.diagonal_mul_diagonal, ← Matrix.diagonal_one]
  congr 1; funext r
  rw [← mul_pow]; simp

theorem ozD_symm (M : ℕ) : (ozD M)ᵀ = ozD M := Matrix.diagonal_transpose _

section
variable {M : ℕ} {w : Fin M → ℝ} {V : Matrix (Fin M) (Fin M) ℝ}

theorem GenEigh.right (h : GenEigh (ozA M) (ozB M) w V) : V * Vᵀ * ozB M = 1 := by
  have := mul_eq_one_comm.mp h.orth
  rwa [← Matrix.mul_assoc] at this

/-- The spectrum is symmetric: any function of the matrix pair can be evaluated at `-λ` instead. -/
theorem GenEigh.flip (h : GenEigh (ozA M) (ozB M) w V) : ∃ P : Matrix (Fin M) (Fin M) ℝ, P * Pᵀ = 1 ∧ ozD M * V = V * P ∧ ∀ i j, P i j ≠ 0 → w i = -w j := by
  refine ⟨Vᵀ * ozB M * (ozD M * V), ?_, ?_, ?_⟩
  · have h1 : (Vᵀ * ozB M * (ozD M * V))ᵀ * (Vᵀ * ozB M * (ozD M * V)) = 1 := by
      calc (Vᵀ * ozB M * (ozD M * V))ᵀ * (Vᵀ * ozB M * (ozD M * V))
          = Vᵀ * ozD M * ozB M * (V * Vᵀ * ozB M) * ozD M * V := by
            simp only [Matrix.transpose_mul, Matrix.transpose_transpose, (ozB_symm M).eq, ozD_symm, Matrix.mul_assoc]
        _ = Vᵀ * (ozD M * ozB M) * ozD M * V := by rw [h.right, Matrix.mul_one, Matrix.mul_assoc Vᵀ]
        _ = Vᵀ * ozB M * (ozD M * ozD M) * V := by rw [← ozD_comm]; simp only [Matrix.mul_assoc]
        _ = 1 := by rw [ozD_sq, Matrix.mul_one, h.orth]
    exact mul_eq_one_comm.mp h1
  · calc ozD M * V = (V * Vᵀ * ozB M) * (ozD M * V) := by rw [h.right, Matrix.one_mul]
      _ = _ := by simp only [Matrix.mul_assoc]
  · intro i j hne
    have h1 : Matrix.diagonal w * (Vᵀ * ozB M * (ozD M * V)) = -(Vᵀ * ozB M * (ozD M * V) * Matrix.diagonal w) := by
      have hl : Vᵀ * ozA M = Matrix.diagonal w * (Vᵀ * ozB M) := by
        have := congrArg Matrix.transpose h.eig
        simpa only [Matrix.transpose_mul, (ozA_symm M).eq, (ozB_symm M).eq, Matrix.diagonal_transpose, Matrix.mul_assoc] using this
      calc Matrix.diagonal w * (Vᵀ * ozB M * (ozD M * V)) = Vᵀ * ozA M * (ozD M * V) := by rw [hl]; simp only [Matrix.mul_assoc]
        _ = Vᵀ * (ozA M * ozD M) * V := by simp only [Matrix.mul_assoc]
        _ = -(Vᵀ * ozD M * (ozA M * V)) := by rw [ozD_anti]; simp only [Matrix.mul_assoc, Matrix.mul_neg, Matrix.neg_mul]
        _ = -(Vᵀ * (ozD M * ozB M) * V * Matrix.diagonal w) := by rw [h.eig]; simp only [Matrix.mul_assoc]
        _ = _ := by rw [← ozD_comm]; simp only [Matrix.mul_assoc]
    have h2 := congrFun (congrFun h1 i) j
    rw [Matrix.diagonal_mul, Matrix.neg_apply, Matrix.mul_diagonal] at h2
    have : (w i + w j) * (Vᵀ * ozB M * (ozD M * V)) i j = 0 := by linarith
    rcases mul_eq_zero.mp this with h3 | h3
    · linarith
    · exact absurd h3 hne

theorem GenEigh.sum_flip (h : GenEigh (ozA M) (ozB M) w V) (f : ℝ → ℝ) (r : Fin M) : ∑ i, f (w i) * V r i ^ 2 = ∑ i, f (-w i) * V r i ^ 2 := by
  obtain ⟨P, h1, h2, h3⟩ := h.flip
  have hf : ∀ i j, f (w i) * P i j = P i j * f (-w j) := by
    intro i j
    by_cases hP : P i j = 0
    · simp [hP]
    · rw [h3 i j hP, mul_comm]
  have hW : ∀ j, (-1) ^ (r : ℕ) * V r j = ∑ i, V r i * P i j := by
    intro j
    have := congrFun (congrFun h2 r) j
    rwa [ozD, Matrix.diagonal_mul, Matrix.mul_apply] at this
  have hV : ∀ i, V r i = ∑ j, P i j * ((-1) ^ (r : ℕ) * V r j) := by
    intro i
    have h4 : V = ozD M * V * Pᵀ := by rw [h2, Matrix.mul_assoc, h1, Matrix.mul_one]
    have := congrFun (congrFun h4 r) i
    rw [Matrix.mul_apply] at this
    rw [this]
    refine Finset.sum_congr rfl fun j _ => ?_
    rw [ozD, Matrix.diagonal_mul, Matrix.transpose_apply]; ring
  calc ∑ i, f (w i) * V r i ^ 2 = ∑ i, ∑ j, V r i * (f (w i) * P i j) * ((-1) ^ (r : ℕ) * V r j) := by
        refine Finset.sum_congr rfl fun i _ => ?_
        conv_lhs => rw [sq, ← mul_assoc]; enter [2]; rw [hV i]
        rw [Finset.mul_sum]
        refine Finset.sum_congr rfl fun j _ => by ring
    _ = ∑ j, ∑ i, V r i * (P i j * f (-w j)) * ((-1) ^ (r : ℕ) * V r j) := by
        rw [Finset.sum_comm]
        simp only [hf]
    _ = ∑ j, f (-w j) * ((-1) ^ (r : ℕ) * V r j) ^ 2 := by
        refine Finset.sum_congr rfl fun j _ => ?_
        conv_rhs => rw [sq, ← mul_assoc]; enter [1, 2]; rw [hW j]
        rw [Finset.mul_sum, Finset.sum_mul]
        refine Finset.sum_congr rfl fun i _ => by ring
    _ = _ := by
        refine Finset.sum_congr rfl fun j _ => ?_
        rw [mul_pow, ← pow_mul, mul_comm (r : ℕ), pow_mul]; simp

theorem GenEigh.count_flip (h : GenEigh (ozA M) (ozB M) w V) (f : ℝ → ℝ) : ∑ i, f (w i) = ∑ i, f (-w i) := by
  obtain ⟨P, h1, -, h3⟩ := h.flip
  have h1' := mul_eq_one_comm.mp h1
  have hf : ∀ i j, f (w i) * P i j = P i j * f (-w j) := by
    intro i j
    by_cases hP : P i j = 0
    · simp [hP]
    · rw [h3 i j hP, mul_comm]
  have hr : ∀ i, ∑ j, P i j * P i j = 1 := by
    intro i
    have := congrFun (congrFun h1 i) i
    rwa [Matrix.mul_apply, Matrix.one_apply_eq] at this
  have hc : ∀ j, ∑ i, P i j * P i j = 1 := by
    intro j
    have := congrFun (congrFun h1' j) j
    rwa [Matrix.mul_apply, Matrix.one_apply_eq] at this
  calc ∑ i, f (w i) = ∑ i, ∑ j, f (w i) * P i j * P i j := by
        refine Finset.sum_congr rfl fun i _ => ?_
        have : ∀ j, f (w i) * P i j * P i j = f (w i) * (P i j * P i j) := fun j => by ring
        simp only [this]
        rw [← Finset.mul_sum, hr, mul_one]
    _ = ∑ j, ∑ i, P i j * f (-w j) * P i j := by
        rw [Finset.sum_comm]; simp only [hf]
    _ = _ := by
        refine Finset.sum_congr rfl fun j _ => ?_
        have : ∀ i, P i j * f (-w j) * P i j = f (-w j) * (P i j * P i j) := fun i => by ring
        simp only [this]
        rw [← Finset.mul_sum, hc, mul_one]

end

/-- With an even number of rows `a` is invertible. -/
theorem ozA_ker (N : ℕ) (v : Fin (2 * N) → ℝ) (h : ozA (2 * N) *ᵥ v = 0) : v = 0 := by
  set u : ℕ → ℝ := fun k => if hk : k < 2 * N then v ⟨k, hk⟩ else 0 with hu
  have hrow : ∀ k < 2 * N, (if 0 < k then u (k - 1) else 0) + u (k + 1) = 0 := by
    intro k hk
    have := congrFun h ⟨k, hk⟩
    simp only [Matrix.mulVec, dotProduct, ozA, Matrix.of_apply, Pi.zero_apply] at this
    have h1 : ∀ c : Fin (2 * N), (if (c : ℕ) = k + 1 ∨ k = c + 1 then -(1 / 2 : ℝ) else 0) * v c =
        -(1 / 2) * ((if (c : ℕ) = k + 1 then v c else 0) + (if k = (c : ℕ) + 1 then v c else 0)) := by
      intro c
      by_cases a1 : (c : ℕ) = k + 1
      · rw [if_pos (.inl a1), if_pos a1, if_neg (by omega)]; ring
      · by_cases a2 : k = (c : ℕ) + 1
        · rw [if_pos (.inr a2), if_neg a1, if_pos a2]; ring
        · rw [if_neg (by tauto), if_neg a1, if_neg a2]; ring
    rw [Finset.sum_congr rfl fun c _ => h1 c, ← Finset.mul_sum, Finset.sum_add_distrib] at this
    have s1 : ∑ c : Fin (2 * N), (if (c : ℕ) = k + 1 then v c else 0) = u (k + 1) := by
      by_cases hk1 : k + 1 < 2 * N
      · rw [Finset.sum_eq_single (⟨k + 1, hk1⟩ : Fin (2 * N)) (fun b _ hb => if_neg fun e => hb (Fin.ext e)) (fun hh => absurd (Finset.mem_univ _) hh)]
        simp [hu, hk1]
      · rw [Finset.sum_eq_zero fun c _ => if_neg (by omega)]
        simp [hu, hk1]
    have s2 : ∑ c : Fin (2 * N), (if k = (c : ℕ) + 1 then v c else 0) = if 0 < k then u (k - 1) else 0 := by
      by_cases hk0 : 0 < k
      · rw [Finset.sum_eq_single (⟨k - 1, by omega⟩ : Fin (2 * N)) (fun b _ hb => if_neg fun e => hb (Fin.ext (by simp only; omega))) (fun hh => absurd (Finset.mem_univ _) hh)]
        have : k - 1 < 2 * N := by omega
        rw [if_pos hk0, if_pos (by simp only; omega)]
        simp [hu, this]
      · rw [Finset.sum_eq_zero fun c _ => if_neg (by omega), if_neg hk0]
    rw [s1, s2] at this
    linarith
  have hodd : ∀ j, u (2 * j + 1) = 0 := by
    intro j
    induction j with
    | zero =>
      by_cases hN : 0 < 2 * N
      · simpa using hrow 0 hN
      · simp only [hu]; rw [dif_neg (by omega)]
    | succ j ih =>
      by_cases hk : 2 * j + 2 < 2 * N
      · have := hrow (2 * j + 2) hk
        rw [if_pos (by omega), show 2 * j + 2 - 1 = 2 * j + 1 by omega, ih, zero_add] at this
        exact this
      · simp only [hu]; rw [dif_neg (by omega)]
  have heven : ∀ j, u (2 * (N - j)) = 0 := by
    intro j
    induction j with
    | zero => simp only [hu]; rw [dif_neg (by omega)]
    | succ j ih =>
      by_cases hj : j < N
      · have := hrow (2 * (N - (j + 1)) + 1) (by omega)
        rw [if_pos (by omega), show 2 * (N - (j + 1)) + 1 - 1 = 2 * (N - (j + 1)) by omega, show 2 * (N - (j + 1)) + 1 + 1 = 2 * (N - j) by omega, ih, add_zero] at this
        exact this
      · rw [show N - (j + 1) = N - j by omega]; exact ih
  funext k
  have hk : u k = v k := by simp [hu]
  rw [← hk, Pi.zero_apply]
  rcases Nat.even_or_odd' (k : ℕ) with ⟨j, hj | hj⟩
  · have := heven (N - j)
    rw [show N - (N - j) = j by have := k.2; omega] at this
    rw [hj, this]
  · rw [hj, hodd]

theorem GenEigh.ne_zero {N : ℕ} {w : Fin (2 * N) → ℝ} {V : Matrix (Fin (2 * N)) (Fin (2 * N)) ℝ} (h : GenEigh (ozA (2 * N)) (ozB (2 * N)) w V) (i : Fin (2 * N)) : w i ≠ 0 := by
  intro h0
  have h1 : ozA (2 * N) *ᵥ (fun r => V r i) = 0 := by
    funext r
    have := congrFun (congrFun h.eig r) i
    rw [Matrix.mul_diagonal, h0, mul_zero, Matrix.mul_apply] at this
    exact this
  have h2 := ozA_ker N _ h1
  have h3 := congrFun (congrFun h.orth i) i
  rw [Matrix.one_apply_eq, Matrix.mul_apply] at h3
  have h4 : ∀ r, V r i = 0 := fun r => congrFun h2 r
  simp [h4] at h3

/-- The first half of the eigenvalues are the negative ones. -/
theorem GenEigh.neg_iff {N : ℕ} {w : Fin (2 * N) → ℝ} {V : Matrix (Fin (2 * N)) (Fin (2 * N)) ℝ} (h : GenEigh (ozA (2 * N)) (ozB (2 * N)) w V) (i : Fin (2 * N)) :
    w i < 0 ↔ (i : ℕ) < N := by
  have hcard : (Finset.univ.filter fun i => w i < 0).card = N := by
    have h1 := h.count_flip fun x => if x < 0 then 1 else 0
    have h2 : ∀ i, (if w i < 0 then (1 : ℝ) else 0) + (if -w i < 0 then 1 else 0) = 1 := by
      intro i
      rcases lt_or_gt_of_ne (h.ne_zero i) with hh | hh
      · rw [if_pos hh, if_neg (by linarith)]; ring
      · rw [if_neg (by linarith), if_pos (by linarith)]; ring
    have h3 : ∑ i, ((if w i < 0 then (1 : ℝ) else 0) + (if -w i < 0 then 1 else 0)) = 2 * N := by
      rw [Finset.sum_congr rfl fun i _ => h2 i]; simp
    rw [Finset.sum_add_distrib, ← h1] at h3
    have h4 : ((Finset.univ.filter fun i => w i < 0).card : ℝ) = ∑ i, if w i < 0 then (1 : ℝ) else 0 := by
      rw [Finset.card_filter]; push_cast; rfl
    have : ((Finset.univ.filter fun i => w i < 0).card : ℝ) = N := by rw [h4]; linarith
    exact_mod_cast this
  constructor
  · intro hi
    by_contra hc
    have hsub : (Finset.univ.filter fun j : Fin (2 * N) => j ≤ i) ⊆ Finset.univ.filter fun i => w i < 0 := by
      intro j hj
      simp only [Finset.mem_filter, Finset.mem_univ, true_and] at hj ⊢
      exact lt_of_le_of_lt (h.mono hj) hi
    have := Finset.card_le_card hsub
    rw [hcard] at this
    have hc2 : (Finset.univ.filter fun j : Fin (2 * N) => j ≤ i).card = i + 1 := by
      rw [show (Finset.univ.filter fun j : Fin (2 * N) => j ≤ i) = Finset.Iic i by ext; simp]
      simp
    omega
  · intro hi
    by_contra hc
    have hsub : (Finset.univ.filter fun i => w i < 0) ⊆ Finset.univ.filter fun j : Fin (2 * N) => j < i := by
      intro j hj
      simp only [Finset.mem_filter, Finset.mem_univ, true_and] at hj ⊢
      by_contra hle
      exact hc (lt_of_le_of_lt (h.mono (not_lt.mp hle)) hj)
    have := Finset.card_le_card hsub
    rw [hcard] at this
    have hc2 : (Finset.univ.filter fun j : Fin (2 * N) => j < i).card = i := by
      rw [show (Finset.univ.filter fun j : Fin (2 * N) => j < i) = Finset.Iio i by ext; simp]
      simp
    omega

end

end Edpyt
