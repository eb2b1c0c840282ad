import Verif.Proof.Rotate
import Verif.Proof.SpecMeasure
import Verif.Proof.SplitHam
import Verif.Props.Relabel
import Verif.Props.HalfFilling
import Verif.Props.SelfEnergy
/-!
The Hamiltonian of an impurity in a basis of orbitals of the bath: the part connected with the impurity, and the rest.
-/
namespace Edpyt
open Edpyt.Spec Matrix
variable {n : ℕ}

abbrev FockMat (n : ℕ) := Matrix (Finset (Fin (n + n))) (Finset (Fin (n + n))) ℝ

section
variable {P : FockMat n} {Q : Bool → Matrix (Fin n) (Fin n) ℝ}

theorem Implements.orth' (h : Implements P Q) : P * Pᵀ = 1 := mul_eq_one_comm.mp h.orth

theorem Implements.conj_ann (h : Implements P Q) (s : Bool) (j : Fin n) : P * Spec.ann ℝ (orb s j) * Pᵀ = orbAnn s (Q s j) := by
  rw [h.ann, Matrix.mul_assoc, h.orth', Matrix.mul_one]

theorem Implements.conj_cre (h : Implements P Q) (s : Bool) (j : Fin n) : P * cre ℝ (orb s j) * Pᵀ = (orbAnn s (Q s j))ᵀ := by
  rw [← h.conj_ann, Matrix.transpose_mul, Matrix.transpose_mul, Matrix.transpose_transpose, ← Matrix.mul_assoc]; rfl

theorem Implements.conj_mul (h : Implements P Q) (X Y : FockMat n) : P * (X * Y) * Pᵀ = (P * X * Pᵀ) * (P * Y * Pᵀ) := by
  simp only [Matrix.mul_assoc]
  rw [← Matrix.mul_assoc Pᵀ P, h.orth, Matrix.one_mul]

theorem Implements.conj_num (h : Implements P Q) (s : Bool) (j : Fin n) : P * num ℝ (orb s j) * Pᵀ = (orbAnn s (Q s j))ᵀ * orbAnn s (Q s j) := by
  rw [← h.conj_cre, ← h.conj_ann, ← h.conj_mul]; rfl

theorem Implements.conj_kinetic (h : Implements P Q) (t : Bool → Fin n → Fin n → ℝ) :
    P * kinetic t * Pᵀ = kinetic fun s k l => ∑ i, ∑ j, Q s i k * t s i j * Q s j l := by
  unfold kinetic
  rw [Finset.mul_sum, Finset.sum_mul]
  refine Finset.sum_congr rfl fun s _ => ?_
  have h1 : ∀ i j, P * (t s i j • (cre ℝ (orb s i) * Spec.ann ℝ (orb s j))) * Pᵀ = ∑ k, ∑ l, (Q s i k * t s i j * Q s j l) • (cre ℝ (orb s k) * Spec.ann ℝ (orb s l)) := by
    intro i j
    rw [mul_smul_comm, smul_mul_assoc, h.conj_mul, h.conj_cre, h.conj_ann, orbAnn_transpose]
    unfold orbAnn
    rw [Finset.sum_mul, Finset.smul_sum]
    refine Finset.sum_congr rfl fun k _ => ?_
    rw [Finset.mul_sum, Finset.smul_sum]
    refine Finset.sum_congr rfl fun l _ => ?_
    rw [smul_mul_assoc, mul_smul_comm, smul_smul, smul_smul]
    congr 1; ring
  calc _ = ∑ i, ∑ j, ∑ k, ∑ l, (Q s i k * t s i j * Q s j l) • (cre ℝ (orb s k) * Spec.ann ℝ (orb s l)) := by
        rw [Finset.mul_sum, Finset.sum_mul]
        refine Finset.sum_congr rfl fun i _ => ?_
        rw [Finset.mul_sum, Finset.sum_mul]
        exact Finset.sum_congr rfl fun j _ => h1 i j
    _ = ∑ i, ∑ k, ∑ l, ∑ j, (Q s i k * t s i j * Q s j l) • (cre ℝ (orb s k) * Spec.ann ℝ (orb s l)) := by
        refine Finset.sum_congr rfl fun i _ => ?_
        rw [Finset.sum_comm]
        exact Finset.sum_congr rfl fun k _ => Finset.sum_comm
    _ = ∑ k, ∑ l, ∑ i, ∑ j, (Q s i k * t s i j * Q s j l) • (cre ℝ (orb s k) * Spec.ann ℝ (orb s l)) := by
        rw [Finset.sum_comm]
        exact Finset.sum_congr rfl fun k _ => Finset.sum_comm
    _ = _ := by
        refine Finset.sum_congr rfl fun k _ => Finset.sum_congr rfl fun l _ => ?_
        rw [Finset.sum_smul]
        exact Finset.sum_congr rfl fun i _ => by rw [Finset.sum_smul]

end

/-- The part of the rotated Hamiltonian that contains the impurity: levels `p s k`, `k ∈ C s`, and the interaction in the orbital with components `φ s`. -/
noncomputable def starHam (C : Bool → Finset (Fin n)) (p φ : Bool → Fin n → ℝ) (U x : ℝ) : FockMat n :=
  kinetic (fun s k l => if k = l then (if k ∈ C s then p s k else 0) else 0) +
    U • (((orbAnn false (φ false))ᵀ * orbAnn false (φ false) - x • 1) * ((orbAnn true (φ true))ᵀ * orbAnn true (φ true) - x • 1))

/-- The modes `k ∈ C s`. -/
def InStar (C : Bool → Finset (Fin n)) (m : Fin (n + n)) : Prop := ∃ s k, m = orb s k ∧ k ∈ C s

theorem inStar_orb {C : Bool → Finset (Fin n)} {s : Bool} {k : Fin n} : InStar C (orb s k) ↔ k ∈ C s := by
  constructor
  · rintro ⟨s', k', e, h⟩
    rw [orb_inj] at e
    obtain ⟨rfl, rfl⟩ := e
    exact h
  · exact fun h => ⟨s, k, rfl, h⟩

theorem kinetic_transpose {t : Bool → Fin n → Fin n → ℝ} (ht : ∀ s i j, t s i j = t s j i) : (kinetic t)ᵀ = kinetic t := by
  unfold kinetic
  rw [Matrix.transpose_sum]
  refine Finset.sum_congr rfl fun s _ => ?_
  rw [Matrix.transpose_sum, Finset.sum_comm]
  simp only [Matrix.transpose_sum]
  rw [Finset.sum_comm]
  conv_rhs => rw [Finset.sum_comm]
  refine Finset.sum_congr rfl fun i _ => Finset.sum_congr rfl fun j _ => ?_
  rw [Matrix.transpose_smul, Matrix.transpose_mul, ht s i j]
  congr 1

theorem mem_kinetic {D : Fin (n + n) → Prop} {t : Bool → Fin n → Fin n → ℝ} (ht : ∀ s i j, t s i j ≠ 0 → D (orb s i) ∧ D (orb s j)) : kinetic t ∈ evenAlg D := by
  refine Subalgebra.sum_mem _ fun s _ => Subalgebra.sum_mem _ fun i _ => Subalgebra.sum_mem _ fun j _ => ?_
  by_cases h : t s i j = 0
  · rw [h, zero_smul]; exact Subalgebra.zero_mem _
  · exact Subalgebra.smul_mem _ (mem_ca (ht s i j h).1 (ht s i j h).2) _

theorem mem_orbNum {D : Fin (n + n) → Prop} {s : Bool} {u : Fin n → ℝ} (hu : ∀ k, u k ≠ 0 → D (orb s k)) : (orbAnn s u)ᵀ * orbAnn s u ∈ evenAlg D := by
  rw [orbAnn_transpose]
  unfold orbAnn
  rw [Finset.sum_mul]
  refine Subalgebra.sum_mem _ fun i _ => ?_
  rw [Finset.mul_sum]
  refine Subalgebra.sum_mem _ fun j _ => ?_
  rw [smul_mul_assoc, mul_smul_comm]
  by_cases hi : u i = 0
  · rw [hi, zero_smul]; exact Subalgebra.zero_mem _
  by_cases hj : u j = 0
  · rw [hj, zero_smul, smul_zero]; exact Subalgebra.zero_mem _
  exact Subalgebra.smul_mem _ (Subalgebra.smul_mem _ (mem_ca (hu i hi) (hu j hj)) _) _

theorem starHam_mem {C : Bool → Finset (Fin n)} {p φ : Bool → Fin n → ℝ} (hφ : ∀ s k, k ∉ C s → φ s k = 0) (U x : ℝ) : starHam C p φ U x ∈ evenAlg (InStar C) := by
  have hu : ∀ s k, φ s k ≠ 0 → InStar C (orb s k) := fun s k h => inStar_orb.mpr (by by_contra hc; exact h (hφ s k hc))
  refine Subalgebra.add_mem _ (mem_kinetic fun s i j h => ?_) (Subalgebra.smul_mem _ (Subalgebra.mul_mem _ ?_ ?_) _)
  · by_cases hij : i = j
    · subst hij
      rw [if_pos rfl] at h
      have : i ∈ C s := by by_contra hc; exact h (if_neg hc)
      exact ⟨inStar_orb.mpr this, inStar_orb.mpr this⟩
    · exact absurd (if_neg hij) h
  · exact Subalgebra.sub_mem _ (mem_orbNum (hu false)) (Subalgebra.smul_mem _ (Subalgebra.one_mem _) _)
  · exact Subalgebra.sub_mem _ (mem_orbNum (hu true)) (Subalgebra.smul_mem _ (Subalgebra.one_mem _) _)

theorem antiIdle_orbAnn {s : Bool} {u : Fin n → ℝ} {m : Fin (n + n)} (h : ∀ k, u k ≠ 0 → orb s k ≠ m) : AntiIdle (cplx (orbAnn s u)) m ∧ AntiIdle (cplx (orbAnn s u)ᵀ) m := by
  have e1 : cplx (orbAnn s u) = ∑ k, (u k : ℂ) • cplx (ann ℝ (orb s k)) := by
    unfold orbAnn
    ext i j
    simp [cplx, Matrix.sum_apply]
  have e2 : cplx (orbAnn s u)ᵀ = ∑ k, (u k : ℂ) • cplx (cre ℝ (orb s k)) := by
    rw [orbAnn_transpose]
    ext i j
    simp [cplx, Matrix.sum_apply]
  rw [e1, e2]
  refine ⟨⟨?_, ?_⟩, ⟨?_, ?_⟩⟩
  all_goals
    rw [Finset.sum_mul, Finset.mul_sum, ← Finset.sum_neg_distrib]
    refine Finset.sum_congr rfl fun k _ => ?_
    by_cases hk : u k = 0
    · rw [hk]; simp
  · rw [smul_mul_assoc, mul_smul_comm, (antiIdle_ann (h k hk)).ann, smul_neg]
  · rw [smul_mul_assoc, mul_smul_comm, (antiIdle_ann (h k hk)).cre, smul_neg]
  · rw [smul_mul_assoc, mul_smul_comm, (antiIdle_cre (h k hk)).ann, smul_neg]
  · rw [smul_mul_assoc, mul_smul_comm, (antiIdle_cre (h k hk)).cre, smul_neg]

section
variable {a : HamArgs} {i0 : Fin a.n} {C : Bool → Finset (Fin a.n)} {p φ : Bool → Fin a.n → ℝ} {b : Bool → OrthonormalBasis (Fin a.n) ℝ (EuclideanSpace ℝ (Fin a.n))}

/-- **The rotated Hamiltonian** is the sum of the part connected with the impurity and a part on the other orbitals. -/
theorem HamArgs.ImpurityOnly.rotated (ha : a.Valid) (h : a.ImpurityOnly i0) (he : ∀ s, ∀ k ∈ C s, ∀ i, ∑ j, a.oneBody s i j * b s k j = p s k * b s k i)
    (hφ : ∀ s k, b s k i0 = φ s k) (h0 : ∀ s k, k ∉ C s → φ s k = 0) :
    ∃ P K, Implements P (fun s => Matrix.of fun i k => b s k i) ∧ K ∈ evenAlg (fun m => ¬ InStar C m) ∧ K.IsSymm ∧
      (starHam C p φ (a.V.U.getD 0 i0 i0) (if a.hf then 1 / 2 else 0)).IsSymm ∧
      P * a.ham * Pᵀ = starHam C p φ (a.V.U.getD 0 i0 i0) (if a.hf then 1 / 2 else 0) + K := by
  obtain ⟨P, hP⟩ := implements_basis b
  have hsym : ∀ s i j, a.oneBody s i j = a.oneBody s j i := fun s i j => by
    have := a.oneBody_symm ha s
    exact (congrFun (congrFun this j) i)
  have horth : ∀ s k l, ∑ i, b s k i * b s l i = if k = l then 1 else 0 := fun s k l => by
    have := orthonormal_iff_ite.mp (b s).orthonormal k l
    rw [← this, PiLp.inner_apply]
    exact Finset.sum_congr rfl fun i _ => by simp [mul_comm]
  set τ : Bool → Fin a.n → Fin a.n → ℝ := fun s k l => ∑ i, ∑ j, b s k i * a.oneBody s i j * b s l j with hτ
  have hτs : ∀ s k l, τ s k l = τ s l k := fun s k l => by
    simp only [hτ]
    rw [Finset.sum_comm]
    refine Finset.sum_congr rfl fun i _ => Finset.sum_congr rfl fun j _ => ?_
    rw [hsym s j i]; ring
  have hτC : ∀ s k l, l ∈ C s → τ s k l = if k = l then p s l else 0 := fun s k l hl => by
    simp only [hτ]
    have : ∀ i, ∑ j, b s k i * a.oneBody s i j * b s l j = p s l * (b s k i * b s l i) := fun i => by
      rw [Finset.sum_congr rfl fun j _ => mul_assoc _ _ _, ← Finset.mul_sum, he s l hl i]; ring
    rw [Finset.sum_congr rfl fun i _ => this i, ← Finset.mul_sum, horth]
    by_cases hkl : k = l
    · rw [if_pos hkl, if_pos hkl, mul_one]
    · rw [if_neg hkl, if_neg hkl, mul_zero]
  set κ : Bool → Fin a.n → Fin a.n → ℝ := fun s k l => if k ∈ C s ∨ l ∈ C s then 0 else τ s k l with hκ
  have hsplit : τ = fun s k l => (if k = l then (if k ∈ C s then p s k else 0) else 0) + κ s k l := by
    funext s k l
    simp only [hκ]
    by_cases hl : l ∈ C s
    · rw [if_pos (Or.inr hl), add_zero, hτC s k l hl]
      by_cases hkl : k = l
      · subst hkl; rw [if_pos rfl, if_pos rfl, if_pos hl]
      · rw [if_neg hkl, if_neg hkl]
    · by_cases hk : k ∈ C s
      · have hkl : k ≠ l := fun e => hl (e ▸ hk)
        rw [if_pos (Or.inl hk), if_neg hkl, add_zero, hτs, hτC s l k hk, if_neg (Ne.symm hkl)]
      · rw [if_neg (show ¬(k ∈ C s ∨ l ∈ C s) from fun o => o.elim hk hl)]
        by_cases hkl : k = l
        · rw [if_pos hkl, if_neg hk, zero_add]
        · rw [if_neg hkl, zero_add]
  have hH : P * a.ham * Pᵀ = starHam C p φ (a.V.U.getD 0 i0 i0) (if a.hf then 1 / 2 else 0) + kinetic κ := by
    have hk := hP.conj_kinetic fun s i j => a.oneBody s i j
    have hk' : P * kinetic (fun s i j => a.oneBody s i j) * Pᵀ = kinetic τ := hk
    rw [h.ham, Matrix.mul_add, Matrix.add_mul, hk', hsplit, kinetic_add']
    unfold starHam HamArgs.impW
    have hsub : ∀ s, P * (num ℝ (orb s i0) - (if a.hf then 1 / 2 else 0 : ℝ) • 1) * Pᵀ = (orbAnn s (φ s))ᵀ * orbAnn s (φ s) - (if a.hf then 1 / 2 else 0 : ℝ) • (1 : FockMat a.n) := fun s => by
      rw [Matrix.mul_sub, Matrix.sub_mul, hP.conj_num, Matrix.mul_smul, Matrix.smul_mul, Matrix.mul_one, hP.orth']
      rw [show (Matrix.of fun i k => b s k i) i0 = φ s from funext fun k => hφ s k]
    rw [Matrix.mul_smul, Matrix.smul_mul, hP.conj_mul, hsub, hsub]
    abel
  have hKs : (kinetic κ).IsSymm := kinetic_transpose fun s k l => by
    simp only [hκ, or_comm (a := k ∈ C s), hτs s k l]
  refine ⟨P, kinetic κ, hP, mem_kinetic fun s k l hne => ?_, hKs, ?_, hH⟩
  · simp only [hκ] at hne
    by_cases ho : k ∈ C s ∨ l ∈ C s
    · rw [if_pos ho] at hne; exact absurd rfl hne
    · exact ⟨fun e => ho (.inl (inStar_orb.mp e)), fun e => ho (.inr (inStar_orb.mp e))⟩
  · have hS : (P * a.ham * Pᵀ)ᵀ = P * a.ham * Pᵀ := by
      rw [Matrix.transpose_mul, Matrix.transpose_mul, Matrix.transpose_transpose, show a.hamᵀ = a.ham from ham_symm ha, Matrix.mul_assoc]
    rw [hH, Matrix.transpose_add, show (kinetic κ)ᵀ = kinetic κ from hKs] at hS
    exact add_right_cancel hS

end
end Edpyt
