import Verif.Proof.Eom
import Verif.Spec.SelfEnergy
import Verif.Props.Free
/-!
A Hamiltonian whose interaction commutes with the ladder operators of all sites but one obeys Dyson's equation with a self-energy on that site.
-/
namespace Edpyt
open Matrix Spec

/-- Matrix algebra: `M G = 1` outside row `i0`, `G M = 1` outside column `i0`. -/
theorem dyson_of_rows {ι : Type} [Fintype ι] [DecidableEq ι] {M g G : Matrix ι ι ℂ} {i0 : ι} (h1 : g * M = 1) (hrow : ∀ i j, i ≠ i0 → (M * G) i j = (1 : Matrix ι ι ℂ) i j)
    (hcol : ∀ i j, j ≠ i0 → (G * M) i j = (1 : Matrix ι ι ℂ) i j) (hG : G i0 i0 ≠ 0) :
    (M - Matrix.single i0 i0 ((g i0 i0)⁻¹ - (G i0 i0)⁻¹)) * G = 1 := by
  have h2 : M * g = 1 := _root_.mul_eq_one_comm.mp h1
  have e1 : ∀ j, G i0 j = g i0 j + g i0 i0 * ((M * G) i0 j - (1 : Matrix ι ι ℂ) i0 j) := by
    intro j
    have : G = g * (M * G) := by rw [← Matrix.mul_assoc, h1, Matrix.one_mul]
    conv_lhs => rw [this, Matrix.mul_apply, ← Finset.add_sum_erase _ _ (Finset.mem_univ i0)]
    rw [Finset.sum_congr rfl fun i hi => by rw [hrow i j (Finset.ne_of_mem_erase hi)]]
    have e : g i0 j = g i0 i0 * (1 : Matrix ι ι ℂ) i0 j + ∑ x ∈ Finset.univ.erase i0, g i0 x * (1 : Matrix ι ι ℂ) x j := by
      conv_lhs => rw [← Matrix.mul_one g, Matrix.mul_apply, ← Finset.add_sum_erase _ _ (Finset.mem_univ i0)]
    rw [e]; ring
  have e2 : ∀ j, G i0 j = (G * M) i0 i0 * g i0 j := by
    intro j
    have : G = (G * M) * g := by rw [Matrix.mul_assoc, h2, Matrix.mul_one]
    conv_lhs => rw [this, Matrix.mul_apply, ← Finset.add_sum_erase _ _ (Finset.mem_univ i0)]
    rw [Finset.sum_eq_zero fun k hk => by rw [hcol i0 k (Finset.ne_of_mem_erase hk), Matrix.one_apply, if_neg (Finset.ne_of_mem_erase hk).symm, zero_mul], add_zero]
  have hg : g i0 i0 ≠ 0 := fun h0 => hG (by rw [e2, h0, mul_zero])
  have hq : (G * M) i0 i0 ≠ 0 := fun h0 => hG (by rw [e2, h0, zero_mul])
  ext i j
  rw [Matrix.sub_mul, Matrix.sub_apply]
  by_cases hi : i = i0
  · subst hi
    rw [Matrix.single_mul_apply_same]
    have h3 := e1 j
    have h4 := e2 j
    have h5 := e2 i
    have : g i i * ((M * G) i j - (1 : Matrix ι ι ℂ) i j) = g i i * (((g i i)⁻¹ - (G i i)⁻¹) * G i j) := by
      have h6 : g i i * (((g i i)⁻¹ - (G i i)⁻¹) * G i j) = G i j - g i i / G i i * G i j := by
        field_simp
      rw [h6, h5]
      have h7 : g i i / ((G * M) i i * g i i) * G i j = g i j := by
        rw [h4]; field_simp
      rw [h7]
      linear_combination -h3
    have := mul_left_cancel₀ hg this
    rw [← this]; ring
  · rw [Matrix.single_mul_apply_of_ne (h := Ne.symm hi |>.symm), sub_zero, hrow i j hi]

section
variable {ι : Type} [Fintype ι] [DecidableEq ι] {H : Matrix ι ι ℝ} {κ : Type} [Fintype κ] [DecidableEq κ] {u : κ → ι → ℝ} {E : κ → ℝ}

/-- The Green function of an operator with `{A, Aᵀ} = 1` has no zero off the real axis. -/
theorem green_ne_zero [Nonempty ι] (h : EigBasis H u E) (β : ℝ) {A : Matrix ι ι ℝ} (hA : A * Aᵀ + Aᵀ * A = 1) {z : ℂ} (hz : z.im ≠ 0) {g : ℂ}
    (hg : IsGreen β H A Aᵀ z g) : g ≠ 0 := by
  rw [h.green_pairs β _ _ hz] at hg
  have hne : Nonempty κ := by
    have := Fintype.card_pos (α := ι)
    rw [← h.card] at this
    exact Fintype.card_pos_iff.mp this
  have hZ := sum_exp_pos β E
  have hw : ∀ x : κ × κ, 0 ≤ lehmannW β u E A Aᵀ x := by
    intro x
    unfold lehmannW
    have e : u x.2 ⬝ᵥ (Aᵀ *ᵥ u x.1) = u x.1 ⬝ᵥ (A *ᵥ u x.2) := by
      rw [Matrix.mulVec_transpose, dotProduct_comm, ← Matrix.dotProduct_mulVec]
    rw [e]
    have := mul_self_nonneg (u x.1 ⬝ᵥ (A *ᵥ u x.2))
    positivity
  have hsum : ∑ x : κ × κ, lehmannW β u E A Aᵀ x = 1 := by
    rw [h.weight_sum, hA]
    have : ∀ b, u b ⬝ᵥ ((1 : Matrix ι ι ℝ) *ᵥ u b) = 1 := fun b => by rw [Matrix.one_mulVec, h.orth, if_pos rfl]
    simp only [this, mul_one]
    exact div_self hZ.ne'
  intro h0
  rw [h0] at hg
  have him := congrArg Complex.im hg
  rw [Complex.zero_im, Complex.im_sum] at him
  have e1 : ∀ x : κ × κ, ((lehmannW β u E A Aᵀ x : ℂ) / (z - ((E x.2 - E x.1 : ℝ) : ℂ))).im =
      -z.im * (lehmannW β u E A Aᵀ x / Complex.normSq (z - ((E x.2 - E x.1 : ℝ) : ℂ))) := by
    intro x
    rw [div_eq_mul_inv, Complex.re_ofReal_mul |> fun _ => Complex.im_ofReal_mul, Complex.inv_im]
    simp only [Complex.sub_im, Complex.ofReal_im, sub_zero]
    ring
  rw [Finset.sum_congr rfl fun x _ => e1 x, ← Finset.mul_sum] at him
  have h2 : ∑ x : κ × κ, lehmannW β u E A Aᵀ x / Complex.normSq (z - ((E x.2 - E x.1 : ℝ) : ℂ)) = 0 :=
    (mul_eq_zero.mp him.symm).resolve_left (neg_ne_zero.mpr hz)
  have h3 := (Finset.sum_eq_zero_iff_of_nonneg fun x _ => div_nonneg (hw x) (Complex.normSq_nonneg _)).mp h2
  have h4 : ∀ x : κ × κ, lehmannW β u E A Aᵀ x = 0 := by
    intro x
    refine (div_eq_zero_iff.mp (h3 x (Finset.mem_univ _))).resolve_right fun h5 => hz ?_
    have := congrArg Complex.im (Complex.normSq_eq_zero.mp h5)
    simpa using this
  rw [Finset.sum_eq_zero fun x _ => h4 x] at hsum
  exact zero_ne_one hsum

/-- Moving the commutator with `H` from one operator to the other in a thermal average. -/
theorem thermal_comm_move (β : ℝ) (H : Matrix ι ι ℝ) (X B : Matrix ι ι ℂ) :
    thermal β H (X * (cplx H * B - B * cplx H) + (cplx H * B - B * cplx H) * X) =
      thermal β H ((X * cplx H - cplx H * X) * B + B * (X * cplx H - cplx H * X)) := by
  have hρc : cplx H * cplx (gibbsOp β H) = cplx (gibbsOp β H) * cplx H := by
    have := congrArg (fun M : Matrix ι ι ℝ => cplx M) (gibbs_comm H β)
    simp only [cplx_mul'] at this
    exact this
  have cyc : ∀ M : Matrix ι ι ℂ, trace (cplx (gibbsOp β H) * (M * cplx H)) = trace (cplx (gibbsOp β H) * (cplx H * M)) := by
    intro M
    rw [← Matrix.mul_assoc, Matrix.trace_mul_comm, ← Matrix.mul_assoc, hρc, Matrix.mul_assoc]
  unfold thermal
  congr 1
  simp only [Matrix.mul_sub, Matrix.sub_mul, Matrix.mul_add, Matrix.trace_add, Matrix.trace_sub]
  have c1 := cyc (X * B)
  have c2 := cyc (B * X)
  simp only [Matrix.mul_assoc] at c1 c2 ⊢
  linear_combination -c1 - c2

end

variable {n : ℕ} {κ : Type} [Fintype κ] [DecidableEq κ]

theorem cre_comm_kinetic {R : Type} [Field R] (t : Bool → Fin n → Fin n → R) (s : Bool) (k : Fin n) :
    kinetic t * cre R (orb s k) - cre R (orb s k) * kinetic t = ∑ i, t s i k • cre R (orb s i) := by
  have hT : (kinetic fun s i j => t s j i)ᵀ = kinetic t := by
    unfold kinetic
    simp only [Matrix.transpose_sum, Matrix.transpose_smul, Matrix.transpose_mul]
    refine Finset.sum_congr rfl fun s _ => ?_
    rw [Finset.sum_comm]
    rfl
  have := congrArg Matrix.transpose (ann_comm_kinetic (fun s i j => t s j i) s k)
  rw [Matrix.transpose_sub, Matrix.transpose_mul, Matrix.transpose_mul, hT, Matrix.transpose_sum] at this
  simp only [Matrix.transpose_smul] at this
  exact this

/-- Dyson's equation with a self-energy on one site. -/
theorem local_dyson (t : Bool → Fin n → Fin n → ℝ) (W : Matrix (Finset (Fin (n + n))) (Finset (Fin (n + n))) ℝ) (s : Bool) (i0 : Fin n)
    (hW : ∀ k, k ≠ i0 → ann ℝ (orb s k) * W = W * ann ℝ (orb s k)) (hWc : ∀ k, k ≠ i0 → cre ℝ (orb s k) * W = W * cre ℝ (orb s k))
    {u : κ → Finset (Fin (n + n)) → ℝ} {E : κ → ℝ} (hb : EigBasis (kinetic t + W) u E) (ht : (Matrix.of (t s)).IsSymm) (β : ℝ) {z : ℂ} (hz : z.im ≠ 0) {G : Matrix (Fin n) (Fin n) ℂ}
    (hG : ∀ i j, IsGreen β (kinetic t + W) (ann ℝ (orb s i)) (cre ℝ (orb s j)) z (G i j)) :
    LocalDyson (Matrix.of (t s)) i0 z ((resolvent z (Matrix.of (t s)) i0 i0)⁻¹ - (G i0 i0)⁻¹) G := by
  set H := kinetic t + W with hH
  have hHs : H.IsSymm := hb.symm
  set M : Matrix (Fin n) (Fin n) ℂ := z • 1 - (Matrix.of (t s)).map Complex.ofReal with hM
  have hMa : ∀ i k, M i k = (if i = k then z else 0) - (t s i k : ℂ) := by
    intro i k
    simp only [hM, Matrix.sub_apply, Matrix.smul_apply, Matrix.map_apply, Matrix.of_apply, smul_eq_mul, Matrix.one_apply, mul_ite, mul_one, mul_zero]
  have hcH : ∀ i, i ≠ i0 → cplx (ann ℝ (orb s i)) * cplx H - cplx H * cplx (ann ℝ (orb s i)) = ∑ k, (t s i k : ℂ) • cplx (ann ℝ (orb s k)) := by
    intro i hi
    rw [← cplx_mul', ← cplx_mul', ← cplx_sub', hH, Matrix.mul_add, Matrix.add_mul, hW i hi, add_sub_add_right_eq_sub, ann_comm_kinetic, cplx_sum]
    simp only [cplx_smul]
  have hcHc : ∀ j, j ≠ i0 → cplx H * cplx (cre ℝ (orb s j)) - cplx (cre ℝ (orb s j)) * cplx H = ∑ k, (t s k j : ℂ) • cplx (cre ℝ (orb s k)) := by
    intro i hi
    rw [← cplx_mul', ← cplx_mul', ← cplx_sub', hH, Matrix.mul_add, Matrix.add_mul, hWc i hi, add_sub_add_right_eq_sub, cre_comm_kinetic, cplx_sum]
    simp only [cplx_smul]
  have hanti : ∀ i j, thermal β H (cplx (ann ℝ (orb s i)) * cplx (cre ℝ (orb s j)) + cplx (cre ℝ (orb s j)) * cplx (ann ℝ (orb s i))) = (1 : Matrix (Fin n) (Fin n) ℂ) i j := by
    intro i j
    rw [cplx_ann, cplx_cre, ann_cre_anticomm, Matrix.one_apply]
    simp only [orb_inj, true_and]
    split_ifs
    · exact gibbs_trace_pos hb β
    · unfold thermal; rw [Matrix.mul_zero, Matrix.trace_zero, zero_div]
  have hthsum : ∀ (A : Fin n → Matrix (Finset (Fin (n + n))) (Finset (Fin (n + n))) ℂ) (c : Fin n → ℂ), thermal β H (∑ k, c k • A k) = ∑ k, c k * thermal β H (A k) := by
    intro A c
    unfold thermal
    rw [Matrix.mul_sum, Matrix.trace_sum, Finset.sum_div]
    refine Finset.sum_congr rfl fun k _ => ?_
    rw [Matrix.mul_smul, Matrix.trace_smul, smul_eq_mul, mul_div_assoc]
  refine dyson_of_rows (resolvent_mul ht hz) (fun i j hi => ?_) (fun i j hj => ?_) ?_
  · choose X hX hv using fun k => hG k j
    have hY : ∑ k, M i k • X k = cplx (ann ℝ (orb s i)) := by
      rw [← sub_eq_zero]
      refine eom_unique hHs hz ?_
      have e1 : z • (∑ k, M i k • X k - cplx (ann ℝ (orb s i))) - ((∑ k, M i k • X k - cplx (ann ℝ (orb s i))) * cplx H - cplx H * (∑ k, M i k • X k - cplx (ann ℝ (orb s i)))) =
          (∑ k, M i k • (z • X k - (X k * cplx H - cplx H * X k))) - (z • cplx (ann ℝ (orb s i)) - (cplx (ann ℝ (orb s i)) * cplx H - cplx H * cplx (ann ℝ (orb s i)))) := by
        simp only [Matrix.sub_mul, Matrix.mul_sub, Matrix.sum_mul, Matrix.mul_sum, Matrix.smul_mul, Matrix.mul_smul, smul_sub, Finset.smul_sum, Finset.sum_sub_distrib,
          smul_comm z]
        abel
      rw [e1, hcH i hi]
      simp only [hX, hMa, sub_smul, Finset.sum_sub_distrib, ite_smul, zero_smul, Finset.sum_ite_eq, Finset.mem_univ, if_true]
      abel
    rw [Matrix.mul_apply, Finset.sum_congr rfl fun k _ => by rw [hv k], ← hthsum, ← hanti i j, ← hY]
    congr 1
    simp only [Matrix.sum_mul, Matrix.mul_sum, Matrix.smul_mul, Matrix.mul_smul, smul_add, Finset.sum_add_distrib, hM]
  · choose X hX hv using fun k => hG i k
    have hXX : ∀ k, X k = X j := by
      intro k
      rw [← sub_eq_zero]
      refine eom_unique hHs hz ?_
      have : z • (X k - X j) - ((X k - X j) * cplx H - cplx H * (X k - X j)) =
          (z • X k - (X k * cplx H - cplx H * X k)) - (z • X j - (X j * cplx H - cplx H * X j)) := by
        simp only [Matrix.sub_mul, Matrix.mul_sub, smul_sub]; abel
      rw [this, hX, hX, sub_self]
    rw [Matrix.mul_apply]
    have e1 : ∑ k, G i k * M k j = thermal β H (X j * (∑ k, M k j • cplx (cre ℝ (orb s k))) + (∑ k, M k j • cplx (cre ℝ (orb s k))) * X j) := by
      rw [Matrix.mul_sum, Matrix.sum_mul, ← Finset.sum_add_distrib]
      simp only [Matrix.mul_smul, Matrix.smul_mul, ← smul_add]
      rw [hthsum]
      refine Finset.sum_congr rfl fun k _ => ?_
      rw [hv k, hXX k, mul_comm]
    have e2 : ∑ k, M k j • cplx (cre ℝ (orb s k)) = z • cplx (cre ℝ (orb s j)) - (cplx H * cplx (cre ℝ (orb s j)) - cplx (cre ℝ (orb s j)) * cplx H) := by
      rw [hcHc j hj]
      simp only [hMa, sub_smul, Finset.sum_sub_distrib, ite_smul, zero_smul, Finset.sum_ite_eq', Finset.mem_univ, if_true]
    rw [e1, e2, ← hanti i j, ← hX j]
    have e3 : ∀ B : Matrix (Finset (Fin (n + n))) (Finset (Fin (n + n))) ℂ,
        X j * (z • B - (cplx H * B - B * cplx H)) + (z • B - (cplx H * B - B * cplx H)) * X j =
          z • (X j * B + B * X j) + (-1 : ℂ) • (X j * (cplx H * B - B * cplx H) + (cplx H * B - B * cplx H) * X j) := by
      intro B
      rw [Matrix.mul_sub, Matrix.sub_mul, Matrix.mul_smul, Matrix.smul_mul, neg_smul, one_smul, smul_add]; abel
    have e4 : ∀ B : Matrix (Finset (Fin (n + n))) (Finset (Fin (n + n))) ℂ,
        (z • X j - (X j * cplx H - cplx H * X j)) * B + B * (z • X j - (X j * cplx H - cplx H * X j)) =
          z • (X j * B + B * X j) + (-1 : ℂ) • ((X j * cplx H - cplx H * X j) * B + B * (X j * cplx H - cplx H * X j)) := by
      intro B
      rw [Matrix.mul_sub, Matrix.sub_mul, Matrix.mul_smul, Matrix.smul_mul, neg_smul, one_smul, smul_add]; abel
    rw [e3, e4, thermal_add, thermal_add, thermal_smul, thermal_smul, thermal_smul, thermal_comm_move]
  · refine green_ne_zero hb β (A := ann ℝ (orb s i0)) ?_ hz (hG i0 i0)
    have := ann_cre_anticomm (R := ℝ) (orb s i0) (orb s i0)
    rw [if_pos rfl] at this
    exact this

end Edpyt
