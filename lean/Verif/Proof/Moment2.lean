import Verif.Props.Moment
/-!
# The second moment of a thermal Green function
-/
namespace Edpyt
open Spec Matrix Filter Topology

section
variable {ι : Type} [Fintype ι] [DecidableEq ι] {H : Matrix ι ι ℝ} {κ : Type} [Fintype κ] [DecidableEq κ] {u : κ → ι → ℝ} {E : κ → ℝ}

/-- Equation of motion. -/
theorem EigBasis.eom (h : EigBasis H u E) (β : ℝ) (A B : Matrix ι ι ℝ) {z g : ℂ} (hz : z.im ≠ 0) (hg : IsGreen β H A B z g) :
    IsGreen β H (A * H - H * A) B z (z * g - Spec.thermal β H (cplx (A * B + B * A))) := by
  rw [h.green_pairs β _ _ hz, (h.green_pairs β A B hz g).mp hg, h.thermal, ← h.weight_sum, Finset.mul_sum, Complex.ofReal_sum, ← Finset.sum_sub_distrib]
  refine Finset.sum_congr rfl fun x _ => ?_
  rw [h.commW]
  have hp : z - ((E x.2 - E x.1 : ℝ) : ℂ) ≠ 0 := fun h0 => hz (by simpa using congrArg Complex.im h0)
  generalize ((E x.2 - E x.1 : ℝ)) = p at *
  push_cast
  field_simp
  ring

/-- `z³ (G(z) - w / z - m / z²) → q` with the averages of `{A, B}`, `{[A, H], B}` and `{[[A, H], H], B}`. -/
theorem EigBasis.moment2 (h : EigBasis H u E) (β : ℝ) (A B : Matrix ι ι ℝ) {G : ℂ → ℂ} (hG : ∀ z : ℂ, z.im ≠ 0 → IsGreen β H A B z (G z)) :
    Tendsto (fun z => z ^ 3 * (G z - Spec.thermal β H (cplx (A * B + B * A)) / z - Spec.thermal β H (cplx ((A * H - H * A) * B + B * (A * H - H * A))) / z ^ 2)) farAxis
      (𝓝 (Spec.thermal β H (cplx (((A * H - H * A) * H - H * (A * H - H * A)) * B + B * ((A * H - H * A) * H - H * (A * H - H * A)))))) := by
  have h1 := h.moment β (A * H - H * A) B (G := fun z => z * G z - Spec.thermal β H (cplx (A * B + B * A))) fun z hz => h.eom β A B hz (hG z hz)
  refine h1.congr' ?_
  filter_upwards [farAxis_im_ne] with z hz
  have hz0 : z ≠ 0 := fun h0 => hz (by rw [h0]; rfl)
  field_simp

/-- The thermal state is stationary. -/
theorem EigBasis.thermal_comm (h : EigBasis H u E) (β : ℝ) (X : Matrix ι ι ℝ) : Spec.thermal β H (cplx (X * H - H * X)) = 0 := by
  rw [h.thermal]
  have : ∀ a, u a ⬝ᵥ ((X * H - H * X) *ᵥ u a) = 0 := fun a => by
    rw [Matrix.sub_mulVec, dotProduct_sub, ← Matrix.mulVec_mulVec, h.eig, Matrix.mulVec_smul, dotProduct_smul, ← Matrix.mulVec_mulVec, Matrix.dotProduct_mulVec (u a) H,
      ← Matrix.mulVec_transpose, h.symm, h.eig, smul_dotProduct, sub_self]
  simp [this]

/-- In the second moment one commutator can be moved to the other operator. -/
theorem EigBasis.thermal_moment2 (h : EigBasis H u E) (β : ℝ) (A B : Matrix ι ι ℝ) :
    Spec.thermal β H (cplx ((A * H - H * A) * B + B * (A * H - H * A))) = Spec.thermal β H (cplx (A * (H * B - B * H) + (H * B - B * H) * A)) := by
  have e : (A * H - H * A) * B + B * (A * H - H * A) = (A * (H * B - B * H) + (H * B - B * H) * A) + ((A * B + B * A) * H - H * (A * B + B * A)) := by noncomm_ring
  rw [e, cplx_add', thermal_add, h.thermal_comm, add_zero]

end

section
variable {n : ℕ}

theorem onsiteU_comm (hf : Bool) (V : Fin n → Fin n → ℝ) (s : Bool) (i : Fin n) :
    ann ℝ (orb s i) * onsiteU hf V - onsiteU hf V * ann ℝ (orb s i) = V i i • ((num ℝ (orb (!s) i) - (if hf then 1 / 2 else 0 : ℝ) • 1) * ann ℝ (orb s i)) := by
  rw [onsiteU_diagonal, ann_mul_diag, ← Matrix.sub_mul, Matrix.diagonal_sub, num_diagonal, smul_one_diagonal, Matrix.diagonal_sub]
  ext T S
  rw [Matrix.diagonal_mul, Matrix.smul_apply, Matrix.diagonal_mul, ann_apply]
  by_cases h1 : orb s i ∈ S
  · by_cases h2 : T = S.erase (orb s i)
    · have e : T = T.erase (orb s i) := by rw [h2, Finset.erase_idem]
      have := onsiteVal_jump hf V s i T
      rw [← e] at this
      rw [this, smul_eq_mul, mul_assoc]
    · simp [h1, h2]
  · simp [h1]

theorem X_comm_ann (s : Bool) (c : ℝ) (i j : Fin n) : ann ℝ (orb s j) * (num ℝ (orb (!s) i) - c • 1) = (num ℝ (orb (!s) i) - c • 1) * ann ℝ (orb s j) := by
  have h := ann_comm_num (R := ℝ) (orb s j) (orb (!s) i)
  rw [if_neg (fun h => by have := (orb_inj.mp h).1; cases s <;> simp at this)] at h
  rw [Matrix.mul_sub, Matrix.sub_mul, sub_eq_zero.mp h]
  simp

theorem num_transpose (k : Fin (n + n)) : (num ℝ k)ᵀ = num ℝ k := by
  rw [num_diagonal, Matrix.diagonal_transpose]

theorem X_comm_cre (s : Bool) (c : ℝ) (i j : Fin n) : cre ℝ (orb s j) * (num ℝ (orb (!s) i) - c • 1) = (num ℝ (orb (!s) i) - c • 1) * cre ℝ (orb s j) := by
  have h := congrArg Matrix.transpose (X_comm_ann s c i j)
  rw [Matrix.transpose_mul, Matrix.transpose_mul, Matrix.transpose_sub, Matrix.transpose_smul, Matrix.transpose_one, num_transpose] at h
  exact h.symm

theorem X_sq (k : Fin (n + n)) (c : ℝ) : (num ℝ k - c • 1) * (num ℝ k - c • 1) = (1 - 2 * c) • num ℝ k + c ^ 2 • (1 : Matrix _ _ ℝ) := by
  rw [num_diagonal, ← Matrix.diagonal_one, ← Matrix.diagonal_smul, ← Matrix.diagonal_smul, ← Matrix.diagonal_smul, Matrix.diagonal_sub, Matrix.diagonal_mul_diagonal, Matrix.diagonal_add]
  congr 1
  funext S
  simp only [Pi.smul_apply, smul_eq_mul]
  split_ifs <;> ring

theorem anticomm_ring {A : Type} [Ring A] [Algebra ℝ A] (T T' f g X : A) (U : ℝ) (h1 : T * X = X * T) (h2 : T' * X = X * T') (h3 : g * X = X * g) (h4 : f * X = X * f) :
    (T + U • (X * f)) * (T' + U • (g * X)) + (T' + U • (g * X)) * (T + U • (X * f)) =
      (T * T' + T' * T) + U • ((T * g + g * T) * X + X * (f * T' + T' * f)) + U ^ 2 • (X * (f * g + g * f) * X) := by
  have r1 : g * X * T = g * T * X := by rw [mul_assoc, ← h1, mul_assoc]
  have r2 : T' * X * f = X * T' * f := by rw [h2]
  have r3 : g * X * X * f = X * g * f * X := by rw [h3, mul_assoc (X * g) X f, ← h4, ← mul_assoc]
  simp only [add_mul, mul_add, smul_mul_assoc, mul_smul_comm, ← mul_assoc, r1, r2, r3, smul_smul, smul_add, sq]
  abel

/-- `{[c, H], [H, c†]}` for a kinetic energy and an on-site interaction. -/
theorem second_anticomm (t : Bool → Fin n → Fin n → ℝ) (s : Bool) (i : Fin n) (U c : ℝ) :
    (∑ j, t s i j • ann ℝ (orb s j) + U • ((num ℝ (orb (!s) i) - c • 1) * ann ℝ (orb s i))) * (∑ j, t s i j • cre ℝ (orb s j) + U • (cre ℝ (orb s i) * (num ℝ (orb (!s) i) - c • 1))) +
      (∑ j, t s i j • cre ℝ (orb s j) + U • (cre ℝ (orb s i) * (num ℝ (orb (!s) i) - c • 1))) * (∑ j, t s i j • ann ℝ (orb s j) + U • ((num ℝ (orb (!s) i) - c • 1) * ann ℝ (orb s i))) =
    (∑ j, t s i j ^ 2) • (1 : Matrix _ _ ℝ) + (2 * t s i i * U) • (num ℝ (orb (!s) i) - c • 1) + U ^ 2 • ((num ℝ (orb (!s) i) - c • 1) * (num ℝ (orb (!s) i) - c • 1)) := by
  generalize hX : num ℝ (orb (!s) i) - c • (1 : Matrix _ _ ℝ) = X
  have ca : ∀ j, ann ℝ (orb s j) * X = X * ann ℝ (orb s j) := fun j => by rw [← hX]; exact X_comm_ann s c i j
  have cc : ∀ j, cre ℝ (orb s j) * X = X * cre ℝ (orb s j) := fun j => by rw [← hX]; exact X_comm_cre s c i j
  have ac : ∀ j k : Fin n, ann ℝ (orb s j) * cre ℝ (orb s k) + cre ℝ (orb s k) * ann ℝ (orb s j) = if j = k then 1 else 0 := fun j k => by
    rw [ann_cre_anticomm]
    by_cases h : j = k
    · rw [if_pos h, h, if_pos rfl]
    · rw [if_neg h, if_neg fun h' => h (orb_inj.mp h').2]
  set T := ∑ j, t s i j • ann ℝ (orb s j) with hT
  set T' := ∑ j, t s i j • cre ℝ (orb s j) with hT'
  have caT : T * X = X * T := by
    rw [hT, Matrix.sum_mul, Matrix.mul_sum]
    refine Finset.sum_congr rfl fun j _ => ?_
    rw [Matrix.smul_mul, Matrix.mul_smul, ca]
  have ccT : T' * X = X * T' := by
    rw [hT', Matrix.sum_mul, Matrix.mul_sum]
    refine Finset.sum_congr rfl fun j _ => ?_
    rw [Matrix.smul_mul, Matrix.mul_smul, cc]
  have a1 : T * T' + T' * T = (∑ j, t s i j ^ 2) • (1 : Matrix _ _ ℝ) := by
    rw [hT, hT', Matrix.sum_mul, Matrix.sum_mul, Finset.sum_smul]
    simp only [Matrix.mul_sum]
    rw [Finset.sum_comm (f := fun k j => t s i k • cre ℝ (orb s k) * t s i j • ann ℝ (orb s j)), ← Finset.sum_add_distrib]
    refine Finset.sum_congr rfl fun j _ => ?_
    rw [← Finset.sum_add_distrib, Finset.sum_eq_single j]
    · rw [Matrix.smul_mul, Matrix.mul_smul, Matrix.smul_mul, Matrix.mul_smul, ← smul_add, ← smul_add, ac, if_pos rfl, smul_smul, sq]
    · intro k _ hk
      rw [Matrix.smul_mul, Matrix.mul_smul, Matrix.smul_mul, Matrix.mul_smul, smul_comm (t s i k), ← smul_add, ← smul_add, ac, if_neg (Ne.symm hk), smul_zero, smul_zero]
    · simp
  have a2 : T * cre ℝ (orb s i) + cre ℝ (orb s i) * T = t s i i • 1 := by
    rw [hT, Matrix.sum_mul, Matrix.mul_sum, ← Finset.sum_add_distrib, Finset.sum_eq_single i]
    · rw [Matrix.smul_mul, Matrix.mul_smul, ← smul_add, ac, if_pos rfl]
    · intro k _ hk
      rw [Matrix.smul_mul, Matrix.mul_smul, ← smul_add, ac, if_neg hk, smul_zero]
    · simp
  have a3 : ann ℝ (orb s i) * T' + T' * ann ℝ (orb s i) = t s i i • 1 := by
    rw [hT', Matrix.sum_mul, Matrix.mul_sum, ← Finset.sum_add_distrib, Finset.sum_eq_single i]
    · rw [Matrix.smul_mul, Matrix.mul_smul, ← smul_add, ac, if_pos rfl]
    · intro k _ hk
      rw [Matrix.smul_mul, Matrix.mul_smul, ← smul_add, ac, if_neg (Ne.symm hk), smul_zero]
    · simp
  have a4 := ac i i
  rw [if_pos rfl] at a4
  set f := ann ℝ (orb s i)
  set g := cre ℝ (orb s i)
  have e := anticomm_ring T T' f g X U caT ccT (cc i) (ca i)
  rw [e, a1, a2, a3, a4, Matrix.smul_mul, Matrix.mul_smul, Matrix.one_mul, Matrix.mul_one, ← add_smul, smul_smul]
  congr 3
  ring
end

end Edpyt
