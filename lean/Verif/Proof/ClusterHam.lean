import Verif.Proof.ClusterBasis
import Verif.Proof.RotateHam
import Verif.Props.Decouple
/-!
Two Hamiltonians with the same interaction on a cluster and the same non-interacting Green function on the cluster, in the same star form.
-/
namespace Edpyt
open Edpyt.Spec Matrix
variable {n : ℕ}

/-- The modes of the sites `S`. -/
def OnSites (S : Fin n → Prop) (m : Fin (n + n)) : Prop := ∃ s i, m = orb s i ∧ S i

theorem onSites_orb {S : Fin n → Prop} {s : Bool} {i : Fin n} (hi : S i) : OnSites S (orb s i) := ⟨s, i, rfl, hi⟩

section
variable {D : Fin (n + n) → Prop} {s s' : Bool} {u u' : Fin n → ℝ}

theorem mem_orb_ca (hu : ∀ k, u k ≠ 0 → D (orb s k)) (hu' : ∀ k, u' k ≠ 0 → D (orb s' k)) : (orbAnn s u)ᵀ * orbAnn s' u' ∈ evenAlg D := by
  rw [orbAnn_transpose]
  unfold orbAnn
  rw [Finset.sum_mul]
  refine Subalgebra.sum_mem _ fun i _ => ?_
  rw [Finset.mul_sum]
  refine Subalgebra.sum_mem _ fun j _ => ?_
  rw [smul_mul_assoc, mul_smul_comm]
  by_cases hi : u i = 0
  · rw [hi, zero_smul]; exact Subalgebra.zero_mem _
  by_cases hj : u' j = 0
  · rw [hj, zero_smul, smul_zero]; exact Subalgebra.zero_mem _
  exact Subalgebra.smul_mem _ (Subalgebra.smul_mem _ (mem_ca (hu i hi) (hu' j hj)) _) _

theorem mem_orb_cc (hu : ∀ k, u k ≠ 0 → D (orb s k)) (hu' : ∀ k, u' k ≠ 0 → D (orb s' k)) : (orbAnn s u)ᵀ * (orbAnn s' u')ᵀ ∈ evenAlg D := by
  rw [orbAnn_transpose, orbAnn_transpose, Finset.sum_mul]
  refine Subalgebra.sum_mem _ fun i _ => ?_
  rw [Finset.mul_sum]
  refine Subalgebra.sum_mem _ fun j _ => ?_
  rw [smul_mul_assoc, mul_smul_comm]
  by_cases hi : u i = 0
  · rw [hi, zero_smul]; exact Subalgebra.zero_mem _
  by_cases hj : u' j = 0
  · rw [hj, zero_smul, smul_zero]; exact Subalgebra.zero_mem _
  exact Subalgebra.smul_mem _ (Subalgebra.smul_mem _ (mem_cc (hu i hi) (hu' j hj)) _) _

theorem mem_orb_aa (hu : ∀ k, u k ≠ 0 → D (orb s k)) (hu' : ∀ k, u' k ≠ 0 → D (orb s' k)) : orbAnn s u * orbAnn s' u' ∈ evenAlg D := by
  unfold orbAnn
  rw [Finset.sum_mul]
  refine Subalgebra.sum_mem _ fun i _ => ?_
  rw [Finset.mul_sum]
  refine Subalgebra.sum_mem _ fun j _ => ?_
  rw [smul_mul_assoc, mul_smul_comm]
  by_cases hi : u i = 0
  · rw [hi, zero_smul]; exact Subalgebra.zero_mem _
  by_cases hj : u' j = 0
  · rw [hj, zero_smul, smul_zero]; exact Subalgebra.zero_mem _
  exact Subalgebra.smul_mem _ (Subalgebra.smul_mem _ (mem_aa (hu i hi) (hu' j hj)) _) _

end

section
variable {P P' : FockMat n} {Q Q' : Bool → Matrix (Fin n) (Fin n) ℝ} {S : Fin n → Prop} {C : Bool → Finset (Fin n)}

/-- Two rotations that agree on the sites `S` agree on the operators of these sites. -/
theorem conj_even (hP : Implements P Q) (hP' : Implements P' Q') (hQ : ∀ s i, S i → Q s i = Q' s i) (h0 : ∀ s i, S i → ∀ k, k ∉ C s → Q s i k = 0)
    {X : FockMat n} (hX : X ∈ evenAlg (OnSites S)) : P * X * Pᵀ = P' * X * P'ᵀ ∧ P * X * Pᵀ ∈ evenAlg (InStar C) := by
  have hin : ∀ s i, S i → ∀ k, Q s i k ≠ 0 → InStar C (orb s k) := fun s i hi k hk => inStar_orb.mpr (by by_contra hc; exact hk (h0 s i hi k hc))
  induction hX using Algebra.adjoin_induction with
  | mem X h =>
    obtain ⟨m, m', ⟨s, i, rfl, hi⟩, ⟨s', j, rfl, hj⟩, rfl | rfl | rfl⟩ := h
    · rw [hP.conj_mul, hP'.conj_mul, hP.conj_cre, hP'.conj_cre, hP.conj_ann, hP'.conj_ann, hQ s i hi, hQ s' j hj]
      exact ⟨rfl, hQ s i hi ▸ hQ s' j hj ▸ mem_orb_ca (hin s i hi) (hin s' j hj)⟩
    · rw [hP.conj_mul, hP'.conj_mul, hP.conj_cre, hP'.conj_cre, hP.conj_cre, hP'.conj_cre, hQ s i hi, hQ s' j hj]
      exact ⟨rfl, hQ s i hi ▸ hQ s' j hj ▸ mem_orb_cc (hin s i hi) (hin s' j hj)⟩
    · rw [hP.conj_mul, hP'.conj_mul, hP.conj_ann, hP'.conj_ann, hP.conj_ann, hP'.conj_ann, hQ s i hi, hQ s' j hj]
      exact ⟨rfl, hQ s i hi ▸ hQ s' j hj ▸ mem_orb_aa (hin s i hi) (hin s' j hj)⟩
  | algebraMap r =>
    have e : ∀ {P : FockMat n} {Q : Bool → Matrix (Fin n) (Fin n) ℝ}, Implements P Q → P * algebraMap ℝ (FockMat n) r * Pᵀ = algebraMap ℝ (FockMat n) r := fun {P Q} h => by
      rw [Algebra.algebraMap_eq_smul_one, Matrix.mul_smul, Matrix.smul_mul, Matrix.mul_one, h.orth']
    rw [e hP, e hP']
    exact ⟨rfl, Subalgebra.algebraMap_mem _ _⟩
  | add X Y _ _ hx hy =>
    simp only [Matrix.mul_add, Matrix.add_mul]
    exact ⟨by rw [hx.1, hy.1], Subalgebra.add_mem _ hx.2 hy.2⟩
  | mul X Y _ _ hx hy =>
    rw [hP.conj_mul, hP'.conj_mul]
    exact ⟨by rw [hx.1, hy.1], Subalgebra.mul_mem _ hx.2 hy.2⟩

end

/-- The levels `p s k`, `k ∈ C s`. -/
noncomputable def starKin (C : Bool → Finset (Fin n)) (p : Bool → Fin n → ℝ) : FockMat n := kinetic fun s k l => if k = l then (if k ∈ C s then p s k else 0) else 0

theorem starKin_mem (C : Bool → Finset (Fin n)) (p : Bool → Fin n → ℝ) : starKin C p ∈ evenAlg (InStar C) :=
  mem_kinetic fun s i j h => by
    by_cases hij : i = j
    · subst hij
      rw [if_pos rfl] at h
      have : i ∈ C s := by by_contra hc; exact h (if_neg hc)
      exact ⟨inStar_orb.mpr this, inStar_orb.mpr this⟩
    · exact absurd (if_neg hij) h

section
variable {t : Bool → Matrix (Fin n) (Fin n) ℝ} {C : Bool → Finset (Fin n)} {p : Bool → Fin n → ℝ} {b : Bool → OrthonormalBasis (Fin n) ℝ (EuclideanSpace ℝ (Fin n))} {P : FockMat n}

/-- The one-body part in a basis that contains eigenvectors `b s k`, `k ∈ C s`. -/
theorem kinetic_rotated (ht : ∀ s, (t s).IsSymm) (hP : Implements P fun s => Matrix.of fun i k => b s k i) (he : ∀ s, ∀ k ∈ C s, ∀ i, ∑ j, t s i j * b s k j = p s k * b s k i) :
    ∃ K, K ∈ evenAlg (fun m => ¬ InStar C m) ∧ K.IsSymm ∧ P * kinetic (fun s i j => t s i j) * Pᵀ = starKin C p + K := by
  have hsym : ∀ s i j, t s i j = t s j i := fun s i j => congrFun (congrFun (ht s) j) i
  have horth : ∀ s k l, ∑ i, b s k i * b s l i = if k = l then 1 else 0 := fun s k l => by
    have := orthonormal_iff_ite.mp (b s).orthonormal k l
    rw [← this, PiLp.inner_apply]
    exact Finset.sum_congr rfl fun i _ => by simp [mul_comm]
  set τ : Bool → Fin n → Fin n → ℝ := fun s k l => ∑ i, ∑ j, b s k i * t s i j * b s l j with hτ
  have hτs : ∀ s k l, τ s k l = τ s l k := fun s k l => by
    simp only [hτ]
    rw [Finset.sum_comm]
    refine Finset.sum_congr rfl fun i _ => Finset.sum_congr rfl fun j _ => ?_
    rw [hsym s j i]; ring
  have hτC : ∀ s k l, l ∈ C s → τ s k l = if k = l then p s l else 0 := fun s k l hl => by
    simp only [hτ]
    have : ∀ i, ∑ j, b s k i * t s i j * b s l j = p s l * (b s k i * b s l i) := fun i => by
      rw [Finset.sum_congr rfl fun j _ => mul_assoc _ _ _, ← Finset.mul_sum, he s l hl i]; ring
    rw [Finset.sum_congr rfl fun i _ => this i, ← Finset.mul_sum, horth]
    by_cases hkl : k = l
    · rw [if_pos hkl, if_pos hkl, mul_one]
    · rw [if_neg hkl, if_neg hkl, mul_zero]
  set κ : Bool → Fin n → Fin n → ℝ := fun s k l => if k ∈ C s ∨ l ∈ C s then 0 else τ s k l with hκ
  have hsplit : τ = fun s k l => (if k = l then (if k ∈ C s then p s k else 0) else 0) + κ s k l := by
    funext s k l
    simp only [hκ]
    by_cases hl : l ∈ C s
    · rw [if_pos (Or.inr hl), add_zero, hτC s k l hl]
      by_cases hkl : k = l
      · subst hkl; rw [if_pos rfl, if_pos rfl, if_pos hl]
      · rw [if_neg hkl, if_neg hkl]
    · by_cases hk : k ∈ C s
      · have hkl : k ≠ l := fun e => hl (e ▸ hk)
        rw [if_pos (Or.inl hk), if_neg hkl, add_zero, hτs, hτC s l k hk, if_neg (Ne.symm hkl)]
      · rw [if_neg (show ¬(k ∈ C s ∨ l ∈ C s) from fun o => o.elim hk hl)]
        by_cases hkl : k = l
        · rw [if_pos hkl, if_neg hk, zero_add]
        · rw [if_neg hkl, zero_add]
  refine ⟨kinetic κ, mem_kinetic fun s k l hne => ?_, kinetic_transpose fun s k l => ?_, ?_⟩
  · simp only [hκ] at hne
    by_cases ho : k ∈ C s ∨ l ∈ C s
    · rw [if_pos ho] at hne; exact absurd rfl hne
    · exact ⟨fun e => ho (.inl (inStar_orb.mp e)), fun e => ho (.inr (inStar_orb.mp e))⟩
  · simp only [hκ, or_comm (a := k ∈ C s), hτs s k l]
  · have hk : P * kinetic (fun s i j => t s i j) * Pᵀ = kinetic τ := hP.conj_kinetic fun s i j => t s i j
    rw [hk, hsplit, kinetic_add']
    rfl

theorem starKin_symm (C : Bool → Finset (Fin n)) (p : Bool → Fin n → ℝ) : (starKin C p).IsSymm := kinetic_transpose fun s k l => by
  by_cases hkl : k = l
  · subst hkl; rfl
  · rw [if_neg hkl, if_neg (Ne.symm hkl)]

/-- The observables of the cluster, from the star. -/
theorem cluster_star {S : Fin n → Prop} {W : FockMat n} (ht : ∀ s, (t s).IsSymm) (hW : W ∈ evenAlg (OnSites S)) (sW : W.IsSymm) (hP : Implements P fun s => Matrix.of fun i k => b s k i)
    (he : ∀ s, ∀ k ∈ C s, ∀ i, ∑ j, t s i j * b s k j = p s k * b s k i) (h0 : ∀ s k, k ∉ C s → ∀ i, S i → b s k i = 0) (β : ℝ) :
    (∀ (s : Bool) (i j : Fin n), S i → S j → ∀ z g : ℂ, z.im ≠ 0 → IsGreen β (starKin C p + P * W * Pᵀ) (orbAnn s fun k => b s k i) (orbAnn s fun k => b s k j)ᵀ z g →
      IsGreen β (kinetic (fun s i j => t s i j) + W) (ann ℝ (orb s i)) (cre ℝ (orb s j)) z g) ∧
    (∀ X ∈ evenAlg (OnSites S), thermal β (kinetic (fun s i j => t s i j) + W) (cplx X) = thermal β (starKin C p + P * W * Pᵀ) (cplx (P * X * Pᵀ))) := by
  classical
  obtain ⟨K, hK, sK, hkin⟩ := kinetic_rotated ht hP he
  have hPt : Pᵀᵀ * Pᵀ = 1 := by rw [Matrix.transpose_transpose]; exact hP.orth'
  have h0' : ∀ s i, S i → ∀ k, k ∉ C s → (Matrix.of fun i k => b s k i : Matrix (Fin n) (Fin n) ℝ) i k = 0 := fun s i hi k hk => h0 s k hk i hi
  have hWm : P * W * Pᵀ ∈ evenAlg (InStar C) := (conj_even hP hP (fun _ _ _ => rfl) h0' hW).2
  have hm : starKin C p + P * W * Pᵀ ∈ evenAlg (InStar C) := Subalgebra.add_mem _ (starKin_mem C p) hWm
  have hs : (starKin C p + P * W * Pᵀ).IsSymm := by
    unfold Matrix.IsSymm
    rw [Matrix.transpose_add, show (starKin C p)ᵀ = _ from starKin_symm C p, Matrix.transpose_mul, Matrix.transpose_mul, Matrix.transpose_transpose, show Wᵀ = W from sW, Matrix.mul_assoc]
  have hH : P * (kinetic (fun s i j => t s i j) + W) * Pᵀ = (starKin C p + P * W * Pᵀ) + K := by
    rw [Matrix.mul_add, Matrix.add_mul, hkin]; abel
  have hc : Pᵀ * ((starKin C p + P * W * Pᵀ) + K) = (kinetic (fun s i j => t s i j) + W) * Pᵀ := by
    rw [← hH, ← Matrix.mul_assoc, ← Matrix.mul_assoc, hP.orth, Matrix.one_mul]
  have hback : ∀ X Y : FockMat n, P * X * Pᵀ = Y → Pᵀ * Y * Pᵀᵀ = X := fun X Y e => by
    rw [← e, Matrix.transpose_transpose]
    simp only [Matrix.mul_assoc]
    rw [hP.orth, Matrix.mul_one, ← Matrix.mul_assoc, hP.orth, Matrix.one_mul]
  have hne : ∀ s i, S i → ∀ m, ¬ InStar C m → ∀ k, b s k i ≠ 0 → orb s k ≠ m := fun s i hi m hm k hk e => hm (e ▸ inStar_orb.mpr (by by_contra hc; exact hk (h0 s k hc i hi)))
  refine ⟨fun s i j hi hj z g hz hg => ?_, fun X hX => ?_⟩
  · have h1 := green_part hm hK hs sK β hz (fun m hm => (antiIdle_orbAnn (hne s i hi m hm)).1) (fun m hm => (antiIdle_orbAnn (hne s j hj m hm)).2) hg
    have h2 := isGreen_semiconj hPt hc h1
    rwa [hback (ann ℝ (orb s i)) (orbAnn s fun k => b s k i) (hP.conj_ann s i), hback (cre ℝ (orb s j)) (orbAnn s fun k => b s k j)ᵀ (hP.conj_cre s j)] at h2
  · have hY := (conj_even hP hP (fun _ _ _ => rfl) h0' hX).2
    rw [← thermal_part hm hK hs sK β fun m hm => (evenAlg_idle hY hm).cplx, ← thermal_semiconj hPt hc β (cplx (P * X * Pᵀ)), ← cplx_mul', ← cplx_mul', hback X _ rfl]

/-- **Two Hamiltonians with the same interaction on a cluster** whose one-body parts have the same resolvent on the cluster give the same Green functions between the sites of the cluster and the
same averages of the even operators of the cluster. -/
theorem cluster_core [NeZero n] {S : Fin n → Prop} {W : FockMat n} {t' : Bool → Matrix (Fin n) (Fin n) ℝ} (ht : ∀ s, (t s).IsSymm) (ht' : ∀ s, (t' s).IsSymm)
    (hW : W ∈ evenAlg (OnSites S)) (sW : W.IsSymm) (hr : ∀ s i j, S i → S j → ∀ z : ℂ, z.im ≠ 0 → resolvent z (t s) i j = resolvent z (t' s) i j) (β : ℝ) :
    (∀ (s : Bool) (i j : Fin n), S i → S j → ∀ z : ℂ, z.im ≠ 0 → ∃ g, IsGreen β (kinetic (fun s i j => t s i j) + W) (ann ℝ (orb s i)) (cre ℝ (orb s j)) z g ∧
      IsGreen β (kinetic (fun s i j => t' s i j) + W) (ann ℝ (orb s i)) (cre ℝ (orb s j)) z g) ∧
    ∀ X ∈ evenAlg (OnSites S), thermal β (kinetic (fun s i j => t s i j) + W) (cplx X) = thermal β (kinetic (fun s i j => t' s i j) + W) (cplx X) := by
  have key := fun s => common_cluster_basis (ht s) (ht' s) (hr s)
  choose C p b b' h1 h2 h3 h4 using key
  obtain ⟨P, hP⟩ := implements_basis b
  obtain ⟨P', hP'⟩ := implements_basis b'
  have hQ : ∀ s i, S i → (Matrix.of fun i k => b s k i : Matrix (Fin n) (Fin n) ℝ) i = (Matrix.of fun i k => b' s k i : Matrix (Fin n) (Fin n) ℝ) i := fun s i hi => funext fun k => h3 s k i hi
  have h0 : ∀ s i, S i → ∀ k, k ∉ C s → (Matrix.of fun i k => b s k i : Matrix (Fin n) (Fin n) ℝ) i k = 0 := fun s i hi k hk => h4 s k hk i hi
  have h4' : ∀ s k, k ∉ C s → ∀ i, S i → b' s k i = 0 := fun s k hk i hi => by rw [← h3 s k i hi]; exact h4 s k hk i hi
  have hconj := fun X hX => conj_even (X := X) hP hP' hQ h0 hX
  obtain ⟨g1, o1⟩ := cluster_star ht hW sW hP h1 h4 β
  obtain ⟨g2, o2⟩ := cluster_star ht' hW sW hP' h2 h4' β
  rw [← (hconj W hW).1] at g2 o2
  have hs : (starKin C p + P * W * Pᵀ)ᵀ = starKin C p + P * W * Pᵀ := by
    rw [Matrix.transpose_add, show (starKin C p)ᵀ = _ from starKin_symm C p, Matrix.transpose_mul, Matrix.transpose_mul, Matrix.transpose_transpose, show Wᵀ = W from sW, Matrix.mul_assoc]
  refine ⟨fun s i j hi hj z hz => ?_, fun X hX => ?_⟩
  · obtain ⟨u, E, hb⟩ := EigBasis.of_symm hs
    have hg := (hb.green β (orbAnn s fun k => b s k i) (orbAnn s fun k => b s k j)ᵀ hz _).mpr rfl
    refine ⟨_, g1 s i j hi hj z _ hz hg, g2 s i j hi hj z _ hz ?_⟩
    rw [show (fun k => b' s k i) = fun k => b s k i from funext fun k => (h3 s k i hi).symm, show (fun k => b' s k j) = fun k => b s k j from funext fun k => (h3 s k j hj).symm]
    exact hg
  · rw [o1 X hX, o2 X hX, (hconj X hX).1]

end
end Edpyt
