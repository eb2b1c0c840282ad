import Verif.Proof.Eom
import Mathlib.Analysis.InnerProductSpace.Projection.FiniteDimensional
import Mathlib.Analysis.InnerProductSpace.PiL2
/-!
Orthogonal transformations of the one-body orbitals of one spin act on the Fock space.
-/
namespace Edpyt
open Edpyt.Spec Matrix
variable {n : ℕ}

/-- Algebra of a reflection `P = 1 - 2 γᵀγ`. -/
theorem reflect_algebra {R : Type} [Ring R] [Algebra ℝ R] {γ g c : R} {x : ℝ} (h1 : γ * g + g * γ = 1) (h0 : γ * γ = 0) (hc : c * g + g * c = x • 1) (hc0 : c * γ + γ * c = 0) :
    (1 - (2 : ℝ) • (g * γ)) * c = (c - (2 * x) • γ) * (1 - (2 : ℝ) • (g * γ)) := by
  have e1 : c * (g * γ) = x • γ + g * γ * c := by
    calc c * (g * γ) = (x • 1 - g * c) * γ := by rw [← mul_assoc, ← hc]; congr 1; abel
      _ = x • γ - g * (c * γ) := by rw [sub_mul, smul_mul_assoc, one_mul, mul_assoc]
      _ = _ := by rw [eq_neg_of_add_eq_zero_left hc0]; simp [mul_assoc]
  have e2 : γ * (g * γ) = γ := by
    rw [← mul_assoc, eq_sub_of_add_eq h1, sub_mul, one_mul, mul_assoc, h0, mul_zero, sub_zero]
  rw [sub_mul, one_mul, mul_sub, mul_one, sub_mul, mul_smul_comm, smul_mul_assoc, smul_mul_assoc, mul_smul_comm, e1, e2, smul_add]
  have : (2 * x) • (2 : ℝ) • γ = (2 : ℝ) • x • γ + (2 * x) • γ := by
    rw [smul_smul, smul_smul, ← add_smul]; congr 1; ring
  rw [this]
  abel

/-- Algebra of a reflection, for an operator that commutes with `γᵀγ`. -/
theorem reflect_square {R : Type} [Ring R] [Algebra ℝ R] {γ g : R} (h1 : γ * g + g * γ = 1) (h0 : γ * γ = 0) : (1 - (2 : ℝ) • (g * γ)) * (1 - (2 : ℝ) • (g * γ)) = 1 := by
  have e2 : g * γ * (g * γ) = g * γ := by
    rw [mul_assoc, ← mul_assoc γ, eq_sub_of_add_eq h1, sub_mul, one_mul, mul_assoc, h0, mul_zero, sub_zero]
  rw [sub_mul, one_mul, mul_sub, mul_one, mul_smul_comm, smul_mul_assoc, e2]
  have : (2 : ℝ) • (2 : ℝ) • (g * γ) = (2 : ℝ) • (g * γ) + (2 : ℝ) • (g * γ) := by rw [smul_smul, ← add_smul]; norm_num
  rw [this]; abel

/-- The annihilation operator of the orbital with components `u`. -/
def orbAnn (s : Bool) (u : Fin n → ℝ) : Matrix (Finset (Fin (n + n))) (Finset (Fin (n + n))) ℝ := ∑ i, u i • ann ℝ (orb s i)

theorem orbAnn_transpose (s : Bool) (u : Fin n → ℝ) : (orbAnn s u)ᵀ = ∑ i, u i • cre ℝ (orb s i) := by
  unfold orbAnn
  rw [Matrix.transpose_sum]
  exact Finset.sum_congr rfl fun i _ => by rw [Matrix.transpose_smul]; rfl

theorem ann_orbAnn (s s' : Bool) (u : Fin n → ℝ) (j : Fin n) : ann ℝ (orb s' j) * orbAnn s u + orbAnn s u * ann ℝ (orb s' j) = 0 := by
  unfold orbAnn
  rw [Finset.mul_sum, Finset.sum_mul, ← Finset.sum_add_distrib]
  exact Finset.sum_eq_zero fun i _ => by rw [mul_smul_comm, smul_mul_assoc, ← smul_add, ann_anticomm, smul_zero]

theorem ann_orbCre (s s' : Bool) (u : Fin n → ℝ) (j : Fin n) :
    ann ℝ (orb s' j) * (orbAnn s u)ᵀ + (orbAnn s u)ᵀ * ann ℝ (orb s' j) = (if s' = s then u j else 0) • (1 : Matrix (Finset (Fin (n + n))) (Finset (Fin (n + n))) ℝ) := by
  rw [orbAnn_transpose, Finset.mul_sum, Finset.sum_mul, ← Finset.sum_add_distrib, Finset.sum_eq_single j]
  · rw [mul_smul_comm, smul_mul_assoc, ← smul_add, ann_cre_anticomm]
    by_cases h : s' = s
    · rw [if_pos h, if_pos (by rw [h])]
    · rw [if_neg h, if_neg (by rw [orb_inj]; exact fun e => h e.1), smul_zero, zero_smul]
  · intro i _ hi
    rw [mul_smul_comm, smul_mul_assoc, ← smul_add, ann_cre_anticomm, if_neg (by rw [orb_inj]; exact fun e => hi e.2.symm), smul_zero]
  · intro h; exact absurd (Finset.mem_univ _) h

theorem orbAnn_car (s : Bool) (u : Fin n → ℝ) : orbAnn s u * (orbAnn s u)ᵀ + (orbAnn s u)ᵀ * orbAnn s u = (u ⬝ᵥ u) • (1 : Matrix (Finset (Fin (n + n))) (Finset (Fin (n + n))) ℝ) := by
  have h : ∀ j, u j • (ann ℝ (orb s j) * (orbAnn s u)ᵀ + (orbAnn s u)ᵀ * ann ℝ (orb s j)) = (u j * u j) • (1 : Matrix (Finset (Fin (n + n))) (Finset (Fin (n + n))) ℝ) := by
    intro j; rw [ann_orbCre, if_pos rfl, smul_smul]
  calc _ = ∑ j, u j • (ann ℝ (orb s j) * (orbAnn s u)ᵀ + (orbAnn s u)ᵀ * ann ℝ (orb s j)) := by
        rw [Finset.sum_congr rfl fun j _ => show u j • (ann ℝ (orb s j) * (orbAnn s u)ᵀ + (orbAnn s u)ᵀ * ann ℝ (orb s j)) = (u j • ann ℝ (orb s j)) * (orbAnn s u)ᵀ + (orbAnn s u)ᵀ * (u j • ann ℝ (orb s j)) by
          rw [smul_add, smul_mul_assoc, mul_smul_comm], Finset.sum_add_distrib, ← Finset.sum_mul, ← Finset.mul_sum]; rfl
    _ = _ := by rw [Finset.sum_congr rfl fun j _ => h j, ← Finset.sum_smul]; rfl

theorem orbAnn_sq (s : Bool) (u : Fin n → ℝ) : orbAnn s u * orbAnn s u = 0 := by
  have h : ∑ j, u j • (ann ℝ (orb s j) * orbAnn s u + orbAnn s u * ann ℝ (orb s j)) = (0 : Matrix (Finset (Fin (n + n))) (Finset (Fin (n + n))) ℝ) :=
    Finset.sum_eq_zero fun j _ => by rw [ann_orbAnn, smul_zero]
  rw [Finset.sum_congr rfl fun j _ => show u j • (ann ℝ (orb s j) * orbAnn s u + orbAnn s u * ann ℝ (orb s j)) = (u j • ann ℝ (orb s j)) * orbAnn s u + orbAnn s u * (u j • ann ℝ (orb s j)) by
    rw [smul_add, smul_mul_assoc, mul_smul_comm], Finset.sum_add_distrib, ← Finset.sum_mul, ← Finset.mul_sum] at h
  change orbAnn s u * orbAnn s u + orbAnn s u * orbAnn s u = 0 at h
  have h2 : (2 : ℝ) • (orbAnn s u * orbAnn s u) = 0 := by rw [two_smul]; exact h
  exact (smul_eq_zero.mp h2).resolve_left two_ne_zero

/-- `P` implements the orthogonal matrices `Q s` of the orbitals of spin `s` on the Fock space. -/
structure Implements (P : Matrix (Finset (Fin (n + n))) (Finset (Fin (n + n))) ℝ) (Q : Bool → Matrix (Fin n) (Fin n) ℝ) : Prop where
  orth : Pᵀ * P = 1
  ann : ∀ s j, P * ann ℝ (orb s j) = orbAnn s (Q s j) * P

theorem Implements.mul {P P' : Matrix (Finset (Fin (n + n))) (Finset (Fin (n + n))) ℝ} {Q Q' : Bool → Matrix (Fin n) (Fin n) ℝ} (h : Implements P Q) (h' : Implements P' Q') :
    Implements (P * P') fun s => Q' s * Q s where
  orth := by rw [Matrix.transpose_mul, Matrix.mul_assoc, ← Matrix.mul_assoc Pᵀ, h.orth, Matrix.one_mul, h'.orth]
  ann s j := by
    rw [Matrix.mul_assoc, h'.ann, ← Matrix.mul_assoc, ← Matrix.mul_assoc]
    congr 1
    unfold orbAnn
    rw [Finset.mul_sum, Finset.sum_mul]
    have : ∀ i, P * (Q' s j i • Spec.ann ℝ (orb s i)) = ∑ k, ((Q' s j i * Q s i k) • Spec.ann ℝ (orb s k)) * P := by
      intro i
      rw [mul_smul_comm, h.ann]
      unfold orbAnn
      rw [Finset.sum_mul, Finset.smul_sum]
      exact Finset.sum_congr rfl fun k _ => by rw [smul_mul_assoc, smul_mul_assoc, smul_smul]
    rw [Finset.sum_congr rfl fun i _ => this i, Finset.sum_comm]
    refine Finset.sum_congr rfl fun k _ => ?_
    rw [← Finset.sum_mul, ← Finset.sum_smul]
    rfl

theorem Implements.one : Implements (n := n) 1 fun _ => 1 where
  orth := by simp
  ann s j := by
    rw [Matrix.one_mul, Matrix.mul_one]
    unfold orbAnn
    rw [Finset.sum_eq_single j]
    · simp
    · intro i _ hi; rw [Matrix.one_apply_ne hi.symm, zero_smul]
    · intro h; exact absurd (Finset.mem_univ _) h

/-- A reflection of the orbitals of spin `s`. -/
theorem Implements.reflect (s : Bool) {u : Fin n → ℝ} (hu : u ⬝ᵥ u = 1) :
    Implements (1 - (2 : ℝ) • ((orbAnn s u)ᵀ * orbAnn s u)) fun s' => if s' = s then Matrix.of fun i j => (if i = j then 1 else 0) - 2 * (u i * u j) else 1 where
  orth := by
    have h1 := orbAnn_car s u
    rw [hu, one_smul] at h1
    have := reflect_square h1 (orbAnn_sq s u)
    rw [Matrix.transpose_sub, Matrix.transpose_one, Matrix.transpose_smul, Matrix.transpose_mul, Matrix.transpose_transpose]
    exact this
  ann s' j := by
    have h1 := orbAnn_car s u
    rw [hu, one_smul] at h1
    rw [reflect_algebra h1 (orbAnn_sq s u) (ann_orbCre s s' u j) (ann_orbAnn s s' u j)]
    congr 1
    by_cases h : s' = s
    · subst h
      rw [if_pos rfl, if_pos rfl]
      unfold orbAnn
      simp only [Matrix.of_apply, sub_smul, Finset.sum_sub_distrib, Finset.smul_sum, smul_smul]
      congr 1
      · rw [Finset.sum_eq_single j]
        · simp
        · intro i _ hi; rw [if_neg hi.symm, zero_smul]
        · intro h; exact absurd (Finset.mem_univ _) h
      · exact Finset.sum_congr rfl fun i _ => by congr 1; ring
    · rw [if_neg h, if_neg h, mul_zero, zero_smul, sub_zero]
      unfold orbAnn
      rw [Finset.sum_eq_single j]
      · simp
      · intro i _ hi; rw [Matrix.one_apply_ne hi.symm, zero_smul]
      · intro h; exact absurd (Finset.mem_univ _) h

/-- The matrix of a linear isometry. -/
noncomputable def isoMat (L : EuclideanSpace ℝ (Fin n) ≃ₗᵢ[ℝ] EuclideanSpace ℝ (Fin n)) : Matrix (Fin n) (Fin n) ℝ := Matrix.of fun i j => (L (EuclideanSpace.single j 1)) i

theorem iso_apply (L : EuclideanSpace ℝ (Fin n) ≃ₗᵢ[ℝ] EuclideanSpace ℝ (Fin n)) (x : EuclideanSpace ℝ (Fin n)) (i : Fin n) : L x i = ∑ j, isoMat L i j * x j := by
  have hx : x = ∑ j, x j • EuclideanSpace.single j (1 : ℝ) := by
    ext i
    simp [Finset.sum_apply, Pi.single_apply]
  conv_lhs => rw [hx, map_sum]
  rw [WithLp.ofLp_sum, Finset.sum_apply]
  exact Finset.sum_congr rfl fun j _ => by rw [map_smul]; simp [isoMat, mul_comm]

theorem isoMat_mul (L L' : EuclideanSpace ℝ (Fin n) ≃ₗᵢ[ℝ] EuclideanSpace ℝ (Fin n)) : isoMat (L * L') = isoMat L * isoMat L' := by
  ext i j
  rw [Matrix.mul_apply]
  change (L (L' (EuclideanSpace.single j 1))) i = _
  rw [iso_apply]
  rfl

theorem isoMat_one : isoMat (1 : EuclideanSpace ℝ (Fin n) ≃ₗᵢ[ℝ] EuclideanSpace ℝ (Fin n)) = 1 := by
  ext i j
  change (EuclideanSpace.single j (1 : ℝ)) i = _
  rw [EuclideanSpace.single_apply, Matrix.one_apply]

theorem isoMat_reflection (v : EuclideanSpace ℝ (Fin n)) (s : Bool) : ∃ P, Implements P fun s' => if s' = s then isoMat (Submodule.reflection (Submodule.span ℝ {v})ᗮ) else 1 := by
  by_cases hv : v = 0
  · refine ⟨1, ?_⟩
    have h1 : isoMat (Submodule.reflection (Submodule.span ℝ {v})ᗮ) = 1 := by
      ext i j
      change (Submodule.reflection (Submodule.span ℝ {v})ᗮ (EuclideanSpace.single j (1 : ℝ))) i = _
      rw [Submodule.reflection_orthogonal_apply, Submodule.reflection_singleton_apply, hv]
      simp [EuclideanSpace.single_apply, Matrix.one_apply]
    rw [h1]
    simp only [ite_self]
    exact Implements.one
  · have hn : ‖v‖ ≠ 0 := norm_ne_zero_iff.mpr hv
    have hu : (fun i => v i / ‖v‖) ⬝ᵥ (fun i => v i / ‖v‖) = 1 := by
      have h2 : ‖v‖ ^ 2 = ∑ i, v i * v i := by
        rw [EuclideanSpace.norm_sq_eq]
        exact Finset.sum_congr rfl fun i _ => by rw [Real.norm_eq_abs, sq_abs, sq]
      change ∑ i, v i / ‖v‖ * (v i / ‖v‖) = 1
      rw [Finset.sum_congr rfl fun i _ => show v i / ‖v‖ * (v i / ‖v‖) = v i * v i / ‖v‖ ^ 2 by rw [div_mul_div_comm, sq], ← Finset.sum_div, ← h2, div_self (pow_ne_zero 2 hn)]
    refine ⟨1 - (2 : ℝ) • ((orbAnn s fun i => v i / ‖v‖)ᵀ * orbAnn s fun i => v i / ‖v‖), ?_⟩
    have h3 : isoMat (Submodule.reflection (Submodule.span ℝ {v})ᗮ) = Matrix.of fun i j => (if i = j then 1 else 0) - 2 * (v i / ‖v‖ * (v j / ‖v‖)) := by
      ext i j
      change (Submodule.reflection (Submodule.span ℝ {v})ᗮ (EuclideanSpace.single j (1 : ℝ))) i = _
      rw [Submodule.reflection_orthogonal_apply, Submodule.reflection_singleton_apply]
      simp only [EuclideanSpace.inner_single_right, WithLp.ofLp_neg, WithLp.ofLp_sub, WithLp.ofLp_smul, Pi.neg_apply, Pi.sub_apply, Pi.smul_apply, EuclideanSpace.single_apply, Matrix.of_apply,
        neg_sub, smul_eq_mul, one_mul]
      simp
      field_simp
    rw [h3]
    exact Implements.reflect s hu

theorem implements_iso (L : EuclideanSpace ℝ (Fin n) ≃ₗᵢ[ℝ] EuclideanSpace ℝ (Fin n)) (s : Bool) : ∃ P, Implements P fun s' => if s' = s then isoMat L else 1 := by
  obtain ⟨l, -, rfl⟩ := L.reflections_generate_dim
  induction l with
  | nil =>
    refine ⟨1, ?_⟩
    simp only [List.map_nil, List.prod_nil, isoMat_one, ite_self]
    exact Implements.one
  | cons v l ih =>
    obtain ⟨P, hP⟩ := ih
    obtain ⟨P', hP'⟩ := isoMat_reflection v s
    refine ⟨P * P', ?_⟩
    have := hP.mul hP'
    rw [List.map_cons, List.prod_cons, isoMat_mul]
    convert this using 2 with s'
    by_cases h : s' = s <;> simp [h]

/-- **Every pair of orthonormal bases of orbitals is implemented.** -/
theorem implements_basis (b : Bool → OrthonormalBasis (Fin n) ℝ (EuclideanSpace ℝ (Fin n))) : ∃ P, Implements P fun s => Matrix.of fun i k => b s k i := by
  have key : ∀ s, isoMat (b s).repr.symm = Matrix.of fun i k => b s k i := by
    intro s
    ext i k
    change ((b s).repr.symm (EuclideanSpace.single k (1 : ℝ))) i = b s k i
    rw [OrthonormalBasis.repr_symm_single]
  obtain ⟨P0, hP0⟩ := implements_iso (b false).repr.symm false
  obtain ⟨P1, hP1⟩ := implements_iso (b true).repr.symm true
  refine ⟨P0 * P1, ?_⟩
  have := hP0.mul hP1
  rw [key, key] at this
  convert this using 2 with s
  cases s <;> simp

end Edpyt
