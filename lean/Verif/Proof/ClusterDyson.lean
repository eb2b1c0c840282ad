import Verif.Proof.LocalDyson
import Verif.Proof.Causal
/-!
A Hamiltonian whose interaction commutes with the ladder operators outside a cluster obeys Dyson's equation with a self-energy on the cluster.
-/
namespace Edpyt
open Matrix Spec
variable {n : ℕ} {κ : Type} [Fintype κ] [DecidableEq κ]

/-- The equation of motion of the Green functions, outside the cluster. -/
theorem cluster_rows (t : Bool → Fin n → Fin n → ℝ) (W : Matrix (Finset (Fin (n + n))) (Finset (Fin (n + n))) ℝ) (s : Bool) (S : Fin n → Prop)
    (hW : ∀ k, ¬ S k → ann ℝ (orb s k) * W = W * ann ℝ (orb s k)) (hWc : ∀ k, ¬ S k → cre ℝ (orb s k) * W = W * cre ℝ (orb s k))
    {u : κ → Finset (Fin (n + n)) → ℝ} {E : κ → ℝ} (hb : EigBasis (kinetic t + W) u E) (β : ℝ) {z : ℂ} (hz : z.im ≠ 0) {G : Matrix (Fin n) (Fin n) ℂ}
    (hG : ∀ i j, IsGreen β (kinetic t + W) (ann ℝ (orb s i)) (cre ℝ (orb s j)) z (G i j)) :
    (∀ i j, ¬ S i → ((z • 1 - (Matrix.of (t s)).map Complex.ofReal) * G) i j = (1 : Matrix (Fin n) (Fin n) ℂ) i j) ∧
    (∀ i j, ¬ S j → (G * (z • 1 - (Matrix.of (t s)).map Complex.ofReal)) i j = (1 : Matrix (Fin n) (Fin n) ℂ) i j) := by
  set H := kinetic t + W with hH
  have hHs : H.IsSymm := hb.symm
  set M : Matrix (Fin n) (Fin n) ℂ := z • 1 - (Matrix.of (t s)).map Complex.ofReal with hM
  have hMa : ∀ i k, M i k = (if i = k then z else 0) - (t s i k : ℂ) := by
    intro i k
    simp only [hM, Matrix.sub_apply, Matrix.smul_apply, Matrix.map_apply, Matrix.of_apply, smul_eq_mul, Matrix.one_apply, mul_ite, mul_one, mul_zero]
  have hcH : ∀ i, ¬ S i → cplx (ann ℝ (orb s i)) * cplx H - cplx H * cplx (ann ℝ (orb s i)) = ∑ k, (t s i k : ℂ) • cplx (ann ℝ (orb s k)) := by
    intro i hi
    rw [← cplx_mul', ← cplx_mul', ← cplx_sub', hH, Matrix.mul_add, Matrix.add_mul, hW i hi, add_sub_add_right_eq_sub, ann_comm_kinetic, cplx_sum]
    simp only [cplx_smul]
  have hcHc : ∀ j, ¬ S j → cplx H * cplx (cre ℝ (orb s j)) - cplx (cre ℝ (orb s j)) * cplx H = ∑ k, (t s k j : ℂ) • cplx (cre ℝ (orb s k)) := by
    intro i hi
    rw [← cplx_mul', ← cplx_mul', ← cplx_sub', hH, Matrix.mul_add, Matrix.add_mul, hWc i hi, add_sub_add_right_eq_sub, cre_comm_kinetic, cplx_sum]
    simp only [cplx_smul]
  have hanti : ∀ i j, thermal β H (cplx (ann ℝ (orb s i)) * cplx (cre ℝ (orb s j)) + cplx (cre ℝ (orb s j)) * cplx (ann ℝ (orb s i))) = (1 : Matrix (Fin n) (Fin n) ℂ) i j := by
    intro i j
    rw [cplx_ann, cplx_cre, ann_cre_anticomm, Matrix.one_apply]
    simp only [orb_inj, true_and]
    split_ifs
    · exact gibbs_trace_pos hb β
    · unfold thermal; rw [Matrix.mul_zero, Matrix.trace_zero, zero_div]
  have hthsum : ∀ (A : Fin n → Matrix (Finset (Fin (n + n))) (Finset (Fin (n + n))) ℂ) (c : Fin n → ℂ), thermal β H (∑ k, c k • A k) = ∑ k, c k * thermal β H (A k) := by
    intro A c
    unfold thermal
    rw [Matrix.mul_sum, Matrix.trace_sum, Finset.sum_div]
    refine Finset.sum_congr rfl fun k _ => ?_
    rw [Matrix.mul_smul, Matrix.trace_smul, smul_eq_mul, mul_div_assoc]
  refine ⟨fun i j hi => ?_, fun i j hj => ?_⟩
  · choose X hX hv using fun k => hG k j
    have hY : ∑ k, M i k • X k = cplx (ann ℝ (orb s i)) := by
      rw [← sub_eq_zero]
      refine eom_unique hHs hz ?_
      have e1 : z • (∑ k, M i k • X k - cplx (ann ℝ (orb s i))) - ((∑ k, M i k • X k - cplx (ann ℝ (orb s i))) * cplx H - cplx H * (∑ k, M i k • X k - cplx (ann ℝ (orb s i)))) =
          (∑ k, M i k • (z • X k - (X k * cplx H - cplx H * X k))) - (z • cplx (ann ℝ (orb s i)) - (cplx (ann ℝ (orb s i)) * cplx H - cplx H * cplx (ann ℝ (orb s i)))) := by
        simp only [Matrix.sub_mul, Matrix.mul_sub, Matrix.sum_mul, Matrix.mul_sum, Matrix.smul_mul, Matrix.mul_smul, smul_sub, Finset.smul_sum, Finset.sum_sub_distrib,
          smul_comm z]
        abel
      rw [e1, hcH i hi]
      simp only [hX, hMa, sub_smul, Finset.sum_sub_distrib, ite_smul, zero_smul, Finset.sum_ite_eq, Finset.mem_univ, if_true]
      abel
    rw [Matrix.mul_apply, Finset.sum_congr rfl fun k _ => by rw [hv k], ← hthsum, ← hanti i j, ← hY]
    congr 1
    simp only [Matrix.sum_mul, Matrix.mul_sum, Matrix.smul_mul, Matrix.mul_smul, smul_add, Finset.sum_add_distrib, hM]
  · choose X hX hv using fun k => hG i k
    have hXX : ∀ k, X k = X j := by
      intro k
      rw [← sub_eq_zero]
      refine eom_unique hHs hz ?_
      have : z • (X k - X j) - ((X k - X j) * cplx H - cplx H * (X k - X j)) =
          (z • X k - (X k * cplx H - cplx H * X k)) - (z • X j - (X j * cplx H - cplx H * X j)) := by
        simp only [Matrix.sub_mul, Matrix.mul_sub, smul_sub]; abel
      rw [this, hX, hX, sub_self]
    rw [Matrix.mul_apply]
    have e1 : ∑ k, G i k * M k j = thermal β H (X j * (∑ k, M k j • cplx (cre ℝ (orb s k))) + (∑ k, M k j • cplx (cre ℝ (orb s k))) * X j) := by
      rw [Matrix.mul_sum, Matrix.sum_mul, ← Finset.sum_add_distrib]
      simp only [Matrix.mul_smul, Matrix.smul_mul, ← smul_add]
      rw [hthsum]
      refine Finset.sum_congr rfl fun k _ => ?_
      rw [hv k, hXX k, mul_comm]
    have e2 : ∑ k, M k j • cplx (cre ℝ (orb s k)) = z • cplx (cre ℝ (orb s j)) - (cplx H * cplx (cre ℝ (orb s j)) - cplx (cre ℝ (orb s j)) * cplx H) := by
      rw [hcHc j hj]
      simp only [hMa, sub_smul, Finset.sum_sub_distrib, ite_smul, zero_smul, Finset.sum_ite_eq', Finset.mem_univ, if_true]
    rw [e1, e2, ← hanti i j, ← hX j]
    have e3 : ∀ B : Matrix (Finset (Fin (n + n))) (Finset (Fin (n + n))) ℂ,
        X j * (z • B - (cplx H * B - B * cplx H)) + (z • B - (cplx H * B - B * cplx H)) * X j =
          z • (X j * B + B * X j) + (-1 : ℂ) • (X j * (cplx H * B - B * cplx H) + (cplx H * B - B * cplx H) * X j) := by
      intro B
      rw [Matrix.mul_sub, Matrix.sub_mul, Matrix.mul_smul, Matrix.smul_mul, neg_smul, one_smul, smul_add]; abel
    have e4 : ∀ B : Matrix (Finset (Fin (n + n))) (Finset (Fin (n + n))) ℂ,
        (z • X j - (X j * cplx H - cplx H * X j)) * B + B * (z • X j - (X j * cplx H - cplx H * X j)) =
          z • (X j * B + B * X j) + (-1 : ℂ) • ((X j * cplx H - cplx H * X j) * B + B * (X j * cplx H - cplx H * X j)) := by
      intro B
      rw [Matrix.mul_sub, Matrix.sub_mul, Matrix.mul_smul, Matrix.smul_mul, neg_smul, one_smul, smul_add]; abel
    rw [e3, e4, thermal_add, thermal_add, thermal_smul, thermal_smul, thermal_smul, thermal_comm_move]

/-- Rows and columns outside the cluster of the self-energy vanish. -/
theorem self_zero {ι : Type} [Fintype ι] [DecidableEq ι] {M G : Matrix ι ι ℂ} (hu : IsUnit G) {S : ι → Prop} (hrow : ∀ i j, ¬ S i → (M * G) i j = (1 : Matrix ι ι ℂ) i j)
    (hcol : ∀ i j, ¬ S j → (G * M) i j = (1 : Matrix ι ι ℂ) i j) (i j : ι) (hij : ¬ (S i ∧ S j)) : (M - G⁻¹) i j = 0 := by
  have hd := (Matrix.isUnit_iff_isUnit_det _).mp hu
  rw [Matrix.sub_apply, sub_eq_zero]
  by_cases hi : S i
  · have hj : ¬ S j := fun h => hij ⟨hi, h⟩
    have e : M = G⁻¹ * (G * M) := by rw [← Matrix.mul_assoc, Matrix.nonsing_inv_mul _ hd, Matrix.one_mul]
    conv_lhs => rw [e, Matrix.mul_apply]
    rw [Finset.sum_congr rfl fun k _ => by rw [hcol k j hj], ← Matrix.mul_apply, Matrix.mul_one]
  · have e : M = (M * G) * G⁻¹ := by rw [Matrix.mul_assoc, Matrix.mul_nonsing_inv _ hd, Matrix.mul_one]
    conv_lhs => rw [e, Matrix.mul_apply]
    rw [Finset.sum_congr rfl fun k _ => by rw [hrow i k hi], ← Matrix.mul_apply, Matrix.one_mul]

/-- Dyson's equation on the cluster. -/
theorem self_block {ι τ : Type} [Fintype ι] [DecidableEq ι] [Fintype τ] [DecidableEq τ] {M g G : Matrix ι ι ℂ} (hg : g * M = 1) (hu : IsUnit G) {f : τ → ι} (hf : f.Injective)
    (h0 : ∀ i j, ¬ (i ∈ Set.range f ∧ j ∈ Set.range f) → (M - G⁻¹) i j = 0) :
    g.submatrix f f * (M - G⁻¹).submatrix f f * G.submatrix f f = G.submatrix f f - g.submatrix f f := by
  have hd := (Matrix.isUnit_iff_isUnit_det _).mp hu
  have e : g * (M - G⁻¹) * G = G - g := by
    rw [Matrix.mul_sub, hg, Matrix.sub_mul, Matrix.one_mul, Matrix.mul_assoc, Matrix.nonsing_inv_mul _ hd, Matrix.mul_one]
  have e1 : g.submatrix f id * (M - G⁻¹) = (g.submatrix f f * (M - G⁻¹).submatrix f id) := by
    ext i j
    rw [Matrix.mul_apply, Matrix.mul_apply]
    symm
    refine Fintype.sum_of_injective f hf _ _ (fun k hk => ?_) fun k => rfl
    rw [h0 k j fun h => hk h.1, mul_zero]
  have e2 : (M - G⁻¹).submatrix f id * G.submatrix id f = (M - G⁻¹).submatrix f f * G.submatrix f f := by
    ext i j
    rw [Matrix.mul_apply, Matrix.mul_apply]
    symm
    refine Fintype.sum_of_injective f hf _ _ (fun k hk => ?_) fun k => rfl
    rw [Matrix.submatrix_apply, id, h0 (f i) k fun h => hk h.2, zero_mul]
  have e3 := congrArg (fun X : Matrix ι ι ℂ => X.submatrix f f) e
  simp only [Matrix.submatrix_sub, Pi.sub_apply] at e3
  rw [← e3, Matrix.mul_assoc, ← e2, ← Matrix.mul_assoc, ← e1]
  ext i j
  simp only [Matrix.mul_apply, Matrix.submatrix_apply, id]

end Edpyt
