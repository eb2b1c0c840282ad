import Verif.Proof.LanczosExact
/-!
Lanczos coefficients and the resolvent.
-/
namespace Edpyt
open Matrix Spec

variable {ι : Type} [Fintype ι]

/-- Rows of the projected matrix. -/
theorem lanc_row (A : Matrix ι ι ℝ) (phi : ι → ℝ) {m : ℕ} (i : Fin m) (s : ι) :
    (A *ᵥ lancQ A phi i) s = ∑ j : Fin m, tridiag m (lancA A phi) (lancB A phi) i j * lancQ A phi j s +
      (if (i : ℕ) + 1 = m then (lancIter A phi m).1 s else 0) := by
  have hrow := tridiag_row (m := m) (lancA A phi) (lancB A phi) (RingHom.id ℝ) (fun j => lancQ A phi j s) i
  simp only [RingHom.id_apply] at hrow
  rw [hrow, lanc_rec]
  simp only [Pi.add_apply, Pi.smul_apply, smul_eq_mul, lancL]
  have h1 : lancB A phi i * (if (i : ℕ) = 0 then (0 : ι → ℝ) else lancQ A phi (i - 1)) s
      = if (i : ℕ) = 0 then 0 else lancB A phi i * lancQ A phi (i - 1) s := by
    split_ifs <;> simp
  rw [h1]
  by_cases h : (i : ℕ) + 1 = m
  · rw [if_pos h, if_pos h]
    have := congrFun (lanc_v A phi m) s
    rw [Pi.smul_apply, smul_eq_mul] at this
    rw [h, this]; ring
  · rw [if_neg h, if_neg h]; ring

variable [DecidableEq ι]

/-- `⟨x|(z - H)⁻¹|y⟩` for real vectors. -/
noncomputable def resElem (z : ℂ) (H : Matrix ι ι ℝ) (x y : ι → ℝ) : ℂ :=
  (fun i => (x i : ℂ)) ⬝ᵥ (resolvent z H *ᵥ fun i => (y i : ℂ))

variable {A : Matrix ι ι ℝ} (hA : A.IsSymm) {z : ℂ} (hz : z.im ≠ 0)
include hA hz

/-- The resolvent element of the start vector, with the remainder of an unfinished recurrence. -/
theorem lanc_resolvent (phi : ι → ℝ) {m : ℕ} (hm : 0 < m) (hb : ∀ k < m, lancB A phi k ≠ 0) :
    let x := cfVec z (lancA A phi) (fun k => lancB A phi k ^ 2) (lancB A phi) m
    resElem z A phi phi = ((lancB A phi 0 ^ 2 : ℝ) : ℂ) * resolvent z (tridiag m (lancA A phi) (lancB A phi)) ⟨0, hm⟩ ⟨0, hm⟩
      + (lancB A phi 0 : ℂ) * x (m - 1) * resElem z A phi (lancIter A phi m).1 := by
  intro x
  have hx : ∀ i : Fin m, z * x i - ∑ j : Fin m, ((tridiag m (lancA A phi) (lancB A phi) i j : ℝ) : ℂ) * x j = if (i : ℕ) = 0 then 1 else 0 :=
    fun i => cfVec_solves hz (fun _ _ => rfl) i
  have hphi : ∀ s, phi s = lancB A phi 0 * lancQ A phi 0 s := fun s => congrFun (lanc_v A phi 0) s
  -- the trial solution
  set psi : ι → ℂ := fun s => (lancB A phi 0 : ℂ) * ∑ i : Fin m, x i * (lancQ A phi i s : ℂ) with hpsi
  have hsolve : ∀ s, z * psi s - ∑ t, ((A s t : ℝ) : ℂ) * psi t =
      ((phi s : ℝ) : ℂ) - (lancB A phi 0 : ℂ) * x (m - 1) * (((lancIter A phi m).1 s : ℝ) : ℂ) := by
    intro s
    have e1 : ∑ t, ((A s t : ℝ) : ℂ) * psi t = (lancB A phi 0 : ℂ) * ∑ i : Fin m, x i * (((A *ᵥ lancQ A phi i) s : ℝ) : ℂ) := by
      simp only [hpsi, Matrix.mulVec, dotProduct, Complex.ofReal_sum, Finset.mul_sum]
      rw [Finset.sum_comm]
      refine Finset.sum_congr rfl fun i _ => Finset.sum_congr rfl fun t _ => ?_
      push_cast; ring
    have e2 : ∑ i : Fin m, x i * (((A *ᵥ lancQ A phi i) s : ℝ) : ℂ) =
        ∑ j : Fin m, (∑ i : Fin m, ((tridiag m (lancA A phi) (lancB A phi) j i : ℝ) : ℂ) * x i) * (lancQ A phi j s : ℂ)
          + x (m - 1) * (((lancIter A phi m).1 s : ℝ) : ℂ) := by
      have : ∀ i : Fin m, x i * (((A *ᵥ lancQ A phi i) s : ℝ) : ℂ) =
          ∑ j : Fin m, (((tridiag m (lancA A phi) (lancB A phi) j i : ℝ) : ℂ) * x i) * (lancQ A phi j s : ℂ)
            + (if i = (⟨m - 1, by omega⟩ : Fin m) then x (m - 1) * (((lancIter A phi m).1 s : ℝ) : ℂ) else 0) := by
        intro i
        rw [lanc_row]
        push_cast
        rw [mul_add, Finset.mul_sum]
        congr 1
        · refine Finset.sum_congr rfl fun j _ => ?_
          rw [(tridiag_symm m (lancA A phi) (lancB A phi)).apply]
          ring
        · by_cases h : (i : ℕ) + 1 = m
          · rw [if_pos h, if_pos (Fin.ext (by simp; omega))]
            rw [show (i : ℕ) = m - 1 by omega]
          · rw [if_neg h, if_neg (fun hc => h (by rw [hc]; simp; omega))]
            simp
      simp only [this, Finset.sum_add_distrib, Finset.sum_ite_eq', Finset.mem_univ, if_true]
      rw [Finset.sum_comm]
      congr 1
      exact Finset.sum_congr rfl fun j _ => by rw [Finset.sum_mul]
    have e3 : z * ∑ i : Fin m, x i * (lancQ A phi i s : ℂ) -
        ∑ j : Fin m, (∑ i : Fin m, ((tridiag m (lancA A phi) (lancB A phi) j i : ℝ) : ℂ) * x i) * (lancQ A phi j s : ℂ) = (lancQ A phi 0 s : ℂ) := by
      rw [Finset.mul_sum, ← Finset.sum_sub_distrib]
      have : ∀ i : Fin m, z * (x i * (lancQ A phi i s : ℂ)) -
          (∑ j : Fin m, ((tridiag m (lancA A phi) (lancB A phi) i j : ℝ) : ℂ) * x j) * (lancQ A phi i s : ℂ)
          = if i = (⟨0, hm⟩ : Fin m) then (lancQ A phi 0 s : ℂ) else 0 := by
        intro i
        rw [← mul_assoc, ← sub_mul, hx i]
        by_cases h : (i : ℕ) = 0
        · rw [if_pos h, if_pos (Fin.ext h), h]; simp
        · rw [if_neg h, if_neg (fun hc => h (by rw [hc]))]; simp
      simp only [this, Finset.sum_ite_eq', Finset.mem_univ, if_true]
    rw [e1, e2, hphi s]
    push_cast
    rw [← e3]
    simp only [hpsi]
    ring
  -- superposition
  have h1 := resolvent_mulVec hA hz (y := fun s => ((phi s : ℝ) : ℂ) - (lancB A phi 0 : ℂ) * x (m - 1) * (((lancIter A phi m).1 s : ℝ) : ℂ)) hsolve
  have h2 : resolvent z A *ᵥ (fun s => ((phi s : ℝ) : ℂ)) = psi + ((lancB A phi 0 : ℂ) * x (m - 1)) •
      (resolvent z A *ᵥ fun s => (((lancIter A phi m).1 s : ℝ) : ℂ)) := by
    rw [← h1, ← Matrix.mulVec_smul, ← Matrix.mulVec_add]
    congr 1
    funext s
    simp
  unfold resElem
  rw [h2, dotProduct_add, dotProduct_smul, smul_eq_mul]
  congr 1
  -- ⟨phi, psi⟩ by orthonormality
  have h3 : (fun s => ((phi s : ℝ) : ℂ)) ⬝ᵥ psi = ((lancB A phi 0 ^ 2 : ℝ) : ℂ) * x 0 := by
    have e : ∀ i : Fin m, ∑ s, (lancQ A phi 0 s : ℂ) * (lancQ A phi i s : ℂ) = if i = (⟨0, hm⟩ : Fin m) then 1 else 0 := by
      intro i
      have := lanc_orth phi hA m hb 0 hm i i.2
      simp only [dotProduct] at this
      rw [show (∑ s, (lancQ A phi 0 s : ℂ) * (lancQ A phi i s : ℂ)) = ((∑ s, lancQ A phi 0 s * lancQ A phi i s : ℝ) : ℂ) by push_cast; rfl, this]
      by_cases h : (i : ℕ) = 0
      · rw [if_pos h.symm, if_pos (Fin.ext h)]; simp
      · rw [if_neg (Ne.symm h), if_neg (fun hc => h (by rw [hc]))]; simp
    calc (fun s => ((phi s : ℝ) : ℂ)) ⬝ᵥ psi
        = ((lancB A phi 0 ^ 2 : ℝ) : ℂ) * ∑ i : Fin m, x i * ∑ s, (lancQ A phi 0 s : ℂ) * (lancQ A phi i s : ℂ) := by
          simp only [dotProduct, hpsi, hphi, Finset.mul_sum]
          rw [Finset.sum_comm]
          refine Finset.sum_congr rfl fun i _ => Finset.sum_congr rfl fun s _ => ?_
          push_cast; ring
      _ = _ := by
          congr 1
          simp only [e, mul_ite, mul_one, mul_zero, Finset.sum_ite_eq', Finset.mem_univ, if_true]
  rw [h3]
  congr 1
  have h4 := resolvent_mulVec (tridiag_symm m (lancA A phi) (lancB A phi)) hz (x := fun i : Fin m => x i) (y := Pi.single ⟨0, hm⟩ 1)
    (fun i => by
      rw [hx]
      by_cases h : (i : ℕ) = 0
      · rw [if_pos h, show i = ⟨0, hm⟩ from Fin.ext h]; simp
      · rw [if_neg h, Pi.single_eq_of_ne (fun hc => h (by rw [hc]))])
  have := congrFun h4 ⟨0, hm⟩
  simpa [Matrix.mulVec_single_one] using this.symm

/-- Norm bound of the resolvent. -/
theorem resolvent_bound {x y : ι → ℂ} (h : ∀ i, z * x i - ∑ j, (A i j : ℂ) * x j = y i) :
    z.im ^ 2 * ∑ i, Complex.normSq (x i) ≤ ∑ i, Complex.normSq (y i) := by
  have h1 : z * ∑ i, (Complex.normSq (x i) : ℂ) - ∑ i, ∑ j, (A i j : ℂ) * ((starRingEnd ℂ) (x i) * x j) = ∑ i, (starRingEnd ℂ) (x i) * y i := by
    rw [Finset.mul_sum, ← Finset.sum_sub_distrib]
    refine Finset.sum_congr rfl fun i _ => ?_
    rw [Complex.normSq_eq_conj_mul_self, ← h i, mul_sub, Finset.mul_sum]
    congr 1
    · ring
    · exact Finset.sum_congr rfl fun j _ => by ring
  have him : (∑ i, ∑ j, (A i j : ℂ) * ((starRingEnd ℂ) (x i) * x j)).im = 0 := by
    have e : (∑ i, ∑ j, (A i j : ℂ) * ((starRingEnd ℂ) (x i) * x j)).im
        = ∑ i, ∑ j, A i j * ((x i).re * (x j).im) - ∑ i, ∑ j, A i j * ((x j).re * (x i).im) := by
      rw [Complex.im_sum, ← Finset.sum_sub_distrib]
      refine Finset.sum_congr rfl fun i _ => ?_
      rw [Complex.im_sum, ← Finset.sum_sub_distrib]
      refine Finset.sum_congr rfl fun j _ => ?_
      simp
      ring
    rw [e, sub_eq_zero, Finset.sum_comm]
    refine Finset.sum_congr rfl fun i _ => Finset.sum_congr rfl fun j _ => ?_
    rw [hA.apply]
  set X := ∑ i, Complex.normSq (x i) with hX
  set Y := ∑ i, Complex.normSq (y i) with hY
  have h2 : z.im * X = (∑ i, (starRingEnd ℂ) (x i) * y i).im := by
    rw [← h1, Complex.sub_im, him, sub_zero, ← Complex.ofReal_sum, Complex.mul_im]
    simp [hX, mul_comm]
  have h3 : |z.im * X| ≤ ∑ i, ‖x i‖ * ‖y i‖ := by
    rw [h2]
    calc |(∑ i, (starRingEnd ℂ) (x i) * y i).im| ≤ ‖∑ i, (starRingEnd ℂ) (x i) * y i‖ := Complex.abs_im_le_norm _
      _ ≤ ∑ i, ‖(starRingEnd ℂ) (x i) * y i‖ := norm_sum_le _ _
      _ = _ := Finset.sum_congr rfl fun i _ => by rw [norm_mul, Complex.norm_conj]
  have h4 : (∑ i, ‖x i‖ * ‖y i‖) ^ 2 ≤ X * Y := by
    have := Finset.sum_mul_sq_le_sq_mul_sq Finset.univ (fun i => ‖x i‖) (fun i => ‖y i‖)
    simpa [hX, hY, Complex.normSq_eq_norm_sq] using this
  have hX0 : 0 ≤ X := Finset.sum_nonneg fun i _ => Complex.normSq_nonneg _
  have hY0 : 0 ≤ Y := Finset.sum_nonneg fun i _ => Complex.normSq_nonneg _
  have h5 : (z.im * X) ^ 2 ≤ X * Y := by
    rw [← sq_abs]
    exact le_trans (pow_le_pow_left₀ (abs_nonneg _) h3 2) h4
  rcases hX0.eq_or_lt with h0 | h0
  · rw [← h0, mul_zero]; exact hY0
  · have : X * (z.im ^ 2 * X) ≤ X * Y := by nlinarith
    exact le_of_mul_le_mul_left this h0

/-- `|⟨x|(z-H)⁻¹|y⟩|² ≤ ⟨x|x⟩⟨y|y⟩ / (Im z)²`. -/
theorem resElem_bound (x y : ι → ℝ) : z.im ^ 2 * ‖resElem z A x y‖ ^ 2 ≤ (x ⬝ᵥ x) * (y ⬝ᵥ y) := by
  set w := resolvent z A *ᵥ fun i => (y i : ℂ) with hw
  have h1 : ∀ i, z * w i - ∑ j, (A i j : ℂ) * w j = (y i : ℂ) := by
    intro i
    rw [← shifted_mulVec, hw, Spec.resolvent, Matrix.mulVec_mulVec, Matrix.mul_nonsing_inv _ (isUnit_shifted hA hz), Matrix.one_mulVec]
  have h2 := resolvent_bound hA hz h1
  have hy : ∑ i, Complex.normSq ((y i : ℝ) : ℂ) = y ⬝ᵥ y := Finset.sum_congr rfl fun i _ => Complex.normSq_ofReal _
  rw [hy] at h2
  have h3 : ‖resElem z A x y‖ ≤ ∑ i, |x i| * ‖w i‖ := by
    unfold resElem
    calc _ ≤ ∑ i, ‖((x i : ℝ) : ℂ) * w i‖ := norm_sum_le _ _
      _ = _ := Finset.sum_congr rfl fun i _ => by rw [norm_mul, Complex.norm_real, Real.norm_eq_abs]
  have h4 : (∑ i, |x i| * ‖w i‖) ^ 2 ≤ (x ⬝ᵥ x) * ∑ i, Complex.normSq (w i) := by
    have := Finset.sum_mul_sq_le_sq_mul_sq Finset.univ (fun i => |x i|) (fun i => ‖w i‖)
    simpa [Complex.normSq_eq_norm_sq, dotProduct, pow_two] using this
  have h5 : ‖resElem z A x y‖ ^ 2 ≤ (x ⬝ᵥ x) * ∑ i, Complex.normSq (w i) :=
    le_trans (pow_le_pow_left₀ (norm_nonneg _) h3 2) h4
  have hx0 : 0 ≤ x ⬝ᵥ x := dot_self_nonneg x
  calc z.im ^ 2 * ‖resElem z A x y‖ ^ 2 ≤ z.im ^ 2 * ((x ⬝ᵥ x) * ∑ i, Complex.normSq (w i)) :=
        mul_le_mul_of_nonneg_left h5 (sq_nonneg _)
    _ = (x ⬝ᵥ x) * (z.im ^ 2 * ∑ i, Complex.normSq (w i)) := by ring
    _ ≤ _ := mul_le_mul_of_nonneg_left h2 hx0

end Edpyt
