import Verif.Proof.Eom
import Verif.Props.Stable
import Mathlib.Algebra.Algebra.Subalgebra.Lattice
import Mathlib.Algebra.Algebra.Subalgebra.Centralizer
import Mathlib.RingTheory.Adjoin.Basic
/-!
Operators of one group of modes against operators of the other modes: traces and thermal averages factorise.
-/
namespace Edpyt
open Edpyt.Spec Matrix
variable {M : Type} [LinearOrder M] [Fintype M]

/-- The even operators of the modes in `C`: sums of products of an even number of creation and annihilation operators of `C`. -/
def evenAlg (C : M → Prop) : Subalgebra ℝ (Matrix (Finset M) (Finset M) ℝ) :=
  Algebra.adjoin ℝ {X | ∃ i j, C i ∧ C j ∧ (X = cre ℝ i * ann ℝ j ∨ X = cre ℝ i * cre ℝ j ∨ X = ann ℝ i * ann ℝ j)}

/-- The matrix commutes with the creation and annihilation operator of mode `j`. -/
structure Idle {R : Type} [CommRing R] (X : Matrix (Finset M) (Finset M) R) (j : M) : Prop where
  ann : Commute X (ann R j)
  cre : Commute X (cre R j)

section
variable {R : Type} [CommRing R] {X Y : Matrix (Finset M) (Finset M) R} {j : M}

theorem Idle.mul (hX : Idle X j) (hY : Idle Y j) : Idle (X * Y) j := ⟨hX.ann.mul_left hY.ann, hX.cre.mul_left hY.cre⟩

theorem Idle.add (hX : Idle X j) (hY : Idle Y j) : Idle (X + Y) j := ⟨hX.ann.add_left hY.ann, hX.cre.add_left hY.cre⟩

theorem cre_mul_apply' (A : Matrix (Finset M) (Finset M) R) (i : M) (T S : Finset M) :
    (cre R i * A) T S = if i ∈ T then ((sgn i T : ℤ) : R) * A (T.erase i) S else 0 := by
  have := mul_ann_apply Aᵀ i S T
  rw [← Matrix.transpose_apply (cre R i * A), Matrix.transpose_mul]
  simpa [cre, Matrix.transpose_transpose] using this

theorem num_mul_apply' (A : Matrix (Finset M) (Finset M) R) (i : M) (T S : Finset M) :
    (num R i * A) T S = if i ∈ T then A T S else 0 := by
  unfold num
  rw [Matrix.mul_assoc, cre_mul_apply']
  split_ifs with h
  · have : (ann R i * A) (T.erase i) S = ((sgn i T : ℤ) : R) * A T S := by
      have h2 := mul_cre_apply Aᵀ i S (T.erase i)
      rw [← Matrix.transpose_apply (ann R i * A), Matrix.transpose_mul]
      rw [if_pos (by simp), Finset.insert_erase h, sgn_erase_of_not_gt (lt_irrefl i)] at h2
      simpa [cre] using h2
    rw [this, ← mul_assoc, ← Int.cast_mul, sgn_mul_self, Int.cast_one, one_mul]
  · rfl

theorem Idle.diag (h : Idle X j) {S : Finset M} (hj : j ∉ S) : X (insert j S) (insert j S) = X S S := by
  have h1 := congrFun (congrFun h.cre (insert j S)) S
  rw [mul_cre_apply, cre_mul_apply', if_pos hj, if_pos (Finset.mem_insert_self _ _), Finset.erase_insert hj, sgn_insert_of_not_gt (lt_irrefl j)] at h1
  have h2 := congrArg (fun x => ((sgn j S : ℤ) : R) * x) h1
  simpa only [← mul_assoc, ← Int.cast_mul, sgn_mul_self, Int.cast_one, one_mul] using h2

theorem Idle.block (h : Idle X j) {S T : Finset M} (hj : ¬ (j ∈ T ↔ j ∈ S)) : X T S = 0 := by
  have h1 : X * num R j = num R j * X := (h.cre.mul_right h.ann)
  have h2 := congrFun (congrFun h1 T) S
  rw [mul_num_apply, num_mul_apply'] at h2
  by_cases hT : j ∈ T <;> by_cases hS : j ∈ S <;> simp_all

/-- The diagonal of an operator that leaves the modes outside `C` alone depends on the occupation of `C` only. -/
theorem diag_local (C : M → Prop) [DecidablePred C] (h : ∀ j, ¬ C j → Idle X j) (S : Finset M) : X S S = X (S.filter C) (S.filter C) := by
  induction S using Finset.induction_on with
  | empty => simp
  | insert a S ha ih =>
    rw [Finset.filter_insert]
    by_cases hC : C a
    · rw [if_pos hC]
      -- remove the modes outside `C` one at a time
      clear ih
      have key : ∀ (D : Finset M), (∀ d ∈ D, ¬ C d) → ∀ S : Finset M, Disjoint D S → X (D ∪ S) (D ∪ S) = X S S := by
        intro D
        induction D using Finset.induction_on with
        | empty => intro _ S _; simp
        | insert d D hd ih2 =>
          intro hD S hdis
          rw [Finset.disjoint_insert_left] at hdis
          rw [Finset.insert_union, (h d (hD d (Finset.mem_insert_self _ _))).diag (by simp [hd, hdis.1])]
          exact ih2 (fun x hx => hD x (Finset.mem_insert_of_mem hx)) S hdis.2
      have h3 := key (S.filter fun x => ¬ C x) (fun d hd => (Finset.mem_filter.mp hd).2) (insert a (S.filter C)) (by
        rw [Finset.disjoint_left]
        intro x hx hx'
        rcases Finset.mem_insert.mp hx' with rfl | hx'
        · exact (Finset.mem_filter.mp hx).2 hC
        · exact (Finset.mem_filter.mp hx).2 (Finset.mem_filter.mp hx').2)
      rw [← h3]
      congr 1 <;>
      · ext x
        simp only [Finset.mem_insert, Finset.mem_union, Finset.mem_filter]
        tauto
    · rw [if_neg hC, (h a hC).diag ha]
      exact ih

/-- Exchanging the parts outside `C` of two occupation patterns. -/
def swapOut (C : M → Prop) [DecidablePred C] : (Finset M × Finset M) ≃ (Finset M × Finset M) where
  toFun p := (p.1.filter C ∪ p.2.filter (fun x => ¬ C x), p.2.filter C ∪ p.1.filter (fun x => ¬ C x))
  invFun p := (p.1.filter C ∪ p.2.filter (fun x => ¬ C x), p.2.filter C ∪ p.1.filter (fun x => ¬ C x))
  left_inv p := by
    ext x <;> by_cases hC : C x <;> simp [hC]
  right_inv p := by
    ext x <;> by_cases hC : C x <;> simp [hC]

/-- **Traces factorise.** -/
theorem trace_factor (C : M → Prop) [DecidablePred C] (hX : ∀ j, ¬ C j → Idle X j) (hY : ∀ j, C j → Idle Y j) :
    (Fintype.card (Finset M) : R) * trace (X * Y) = trace X * trace Y := by
  have hd : trace (X * Y) = ∑ S : Finset M, X S S * Y S S := by
    unfold Matrix.trace
    refine Finset.sum_congr rfl fun S _ => ?_
    rw [Matrix.diag_apply, Matrix.mul_apply, Finset.sum_eq_single S]
    · intro T _ hT
      by_contra hne
      refine hT (Finset.ext fun x => ?_)
      by_cases hC : C x
      · by_contra hx
        exact hne (by rw [(hY x hC).block hx, mul_zero])
      · by_contra hx
        exact hne (by rw [(hX x hC).block (fun h => hx h.symm), zero_mul])
    · intro h; exact absurd (Finset.mem_univ _) h
  have hx := diag_local (X := X) C hX
  have hy := diag_local (X := Y) (fun x => ¬ C x) (fun j hj => hY j (not_not.mp hj))
  have h1 : trace X * trace Y = ∑ p : Finset M × Finset M, X p.1 p.1 * Y p.2 p.2 := by
    unfold Matrix.trace
    rw [Finset.sum_mul_sum, Fintype.sum_prod_type]
    rfl
  rw [h1, ← Equiv.sum_comp (swapOut C), hd]
  have h2 : ∀ p : Finset M × Finset M, X (swapOut C p).1 (swapOut C p).1 * Y (swapOut C p).2 (swapOut C p).2 = X p.1 p.1 * Y p.1 p.1 := by
    intro p
    rw [hx (swapOut C p).1, hy (swapOut C p).2, hx p.1, hy p.1]
    have e1 : (swapOut C p).1.filter C = p.1.filter C := by
      ext x; by_cases hC : C x <;> simp [swapOut, hC]
    have e2 : ((swapOut C p).2.filter fun x => ¬ C x) = p.1.filter fun x => ¬ C x := by
      ext x; by_cases hC : C x <;> simp [swapOut, hC]
    rw [e1, e2]
  rw [Finset.sum_congr rfl (fun p _ => h2 p), Fintype.sum_prod_type, Finset.mul_sum]
  refine Finset.sum_congr rfl fun S _ => ?_
  simp

end

theorem Idle.cplx {X : Matrix (Finset M) (Finset M) ℝ} {j : M} (h : Idle X j) : Idle (cplx X) j := by
  constructor
  · have := congrArg Spec.cplx h.ann.eq
    rwa [cplx_mul', cplx_mul', cplx_ann] at this
  · have := congrArg Spec.cplx h.cre.eq
    rwa [cplx_mul', cplx_mul', cplx_cre] at this

theorem Idle.gibbs {X : Matrix (Finset M) (Finset M) ℝ} {j : M} (h : Idle X j) (β : ℝ) : Idle (gibbsOp β X) j := by
  letI : NormedRing (Matrix (Finset M) (Finset M) ℝ) := Matrix.linftyOpNormedRing
  letI : NormedAlgebra ℝ (Matrix (Finset M) (Finset M) ℝ) := Matrix.linftyOpNormedAlgebra
  letI : NormedAlgebra ℚ (Matrix (Finset M) (Finset M) ℝ) := NormedAlgebra.restrictScalars ℚ ℝ _
  unfold gibbsOp
  exact ⟨(h.ann.smul_left _).exp_left, (h.cre.smul_left _).exp_left⟩

theorem gibbs_commute_add {A B : Matrix (Finset M) (Finset M) ℝ} (h : Commute A B) (β : ℝ) : gibbsOp β (A + B) = gibbsOp β A * gibbsOp β B := by
  unfold gibbsOp
  rw [smul_add]
  exact Matrix.exp_add_of_commute _ _ ((h.smul_left _).smul_right _)

theorem anti_even {R : Type} [Ring R] {x a b : R} (ha : x * a = -(a * x)) (hb : x * b = -(b * x)) : Commute x (a * b) := by
  change x * (a * b) = a * b * x
  rw [← mul_assoc, ha, neg_mul, mul_assoc, hb]
  simp [mul_assoc]

theorem ann_ann_anti (i j : M) : ann ℝ i * ann ℝ j = -(ann ℝ j * ann ℝ i) := eq_neg_of_add_eq_zero_left (ann_anticomm i j)
theorem cre_cre_anti (i j : M) : cre ℝ i * cre ℝ j = -(cre ℝ j * cre ℝ i) := eq_neg_of_add_eq_zero_left (cre_anticomm i j)
theorem ann_cre_anti {i j : M} (h : i ≠ j) : ann ℝ i * cre ℝ j = -(cre ℝ j * ann ℝ i) := by
  have := ann_cre_anticomm (R := ℝ) i j
  rw [if_neg h] at this
  exact eq_neg_of_add_eq_zero_left this
theorem cre_ann_anti {i j : M} (h : i ≠ j) : cre ℝ i * ann ℝ j = -(ann ℝ j * cre ℝ i) := by
  rw [ann_cre_anti h.symm, neg_neg]

/-- Something that anticommutes with all operators of the modes in `C` commutes with the even operators of `C`. -/
theorem evenAlg_commute {C : M → Prop} {H : Matrix (Finset M) (Finset M) ℝ} (hH : H ∈ evenAlg C) {R : Type} [Ring R] [Algebra ℝ R]
    (f : Matrix (Finset M) (Finset M) ℝ →ₐ[ℝ] R) {x : R} (ha : ∀ i, C i → x * f (ann ℝ i) = -(f (ann ℝ i) * x)) (hc : ∀ i, C i → x * f (cre ℝ i) = -(f (cre ℝ i) * x)) : Commute x (f H) := by
  induction hH using Algebra.adjoin_induction with
  | mem y hy =>
    obtain ⟨i, j, hi, hj, rfl | rfl | rfl⟩ := hy <;> rw [map_mul]
    · exact anti_even (hc i hi) (ha j hj)
    · exact anti_even (hc i hi) (hc j hj)
    · exact anti_even (ha i hi) (ha j hj)
  | algebraMap r => rw [AlgHom.commutes]; exact (Algebra.commutes r x).symm
  | add y z _ _ hy hz => rw [map_add]; exact hy.add_right hz
  | mul y z _ _ hy hz => rw [map_mul]; exact hy.mul_right hz

theorem evenAlg_idle {C : M → Prop} {H : Matrix (Finset M) (Finset M) ℝ} (hH : H ∈ evenAlg C) {j : M} (hj : ¬ C j) : Idle H j := by
  have hne : ∀ i, C i → j ≠ i := fun i hi h => hj (h ▸ hi)
  refine ⟨(evenAlg_commute hH (AlgHom.id ℝ _) (fun i _ => ann_ann_anti j i) (fun i hi => ann_cre_anti (hne i hi))).symm,
    (evenAlg_commute hH (AlgHom.id ℝ _) (fun i hi => cre_ann_anti (hne i hi)) (fun i _ => cre_cre_anti j i)).symm⟩

theorem evenAlg_comm {C : M → Prop} {H K : Matrix (Finset M) (Finset M) ℝ} (hH : H ∈ evenAlg C) (hK : ∀ j, C j → Idle K j) : Commute H K := by
  induction hH using Algebra.adjoin_induction with
  | mem y hy =>
    obtain ⟨i, j, hi, hj, rfl | rfl | rfl⟩ := hy
    · exact ((hK i hi).cre.mul_right (hK j hj).ann).symm
    · exact ((hK i hi).cre.mul_right (hK j hj).cre).symm
    · exact ((hK i hi).ann.mul_right (hK j hj).ann).symm
  | algebraMap r => exact Algebra.commutes r K
  | add y z _ _ hy hz => exact hy.add_left hz
  | mul y z _ _ hy hz => exact hy.mul_left hz

section
variable {C : M → Prop} [DecidablePred C] {H K : Matrix (Finset M) (Finset M) ℝ}

theorem gibbs_trace_ne (H : Matrix (Finset M) (Finset M) ℝ) (hH : H.IsSymm) (β : ℝ) : trace (cplx (gibbsOp β H)) ≠ 0 := by
  intro h0
  obtain ⟨u, E, hb⟩ := EigBasis.of_symm (show Hᵀ = H from hH)
  have h1 := hb.thermal β 1
  unfold thermal at h1
  rw [h0, div_zero] at h1
  have h2 : (∑ a, Real.exp (-β * E a) * (u a ⬝ᵥ ((1 : Matrix (Finset M) (Finset M) ℝ) *ᵥ u a))) = ∑ a, Real.exp (-β * E a) :=
    Finset.sum_congr rfl fun a _ => by rw [Matrix.one_mulVec, hb.orth, if_pos rfl, mul_one]
  have hp : 0 < ∑ a : Finset M, Real.exp (-β * E a) := Finset.sum_pos (fun a _ => Real.exp_pos _) ⟨∅, Finset.mem_univ _⟩
  rw [h2, div_self hp.ne'] at h1
  norm_num at h1

/-- **Thermal averages of one group** do not feel the other one. -/
theorem thermal_factor (hH : H ∈ evenAlg C) (hK : K ∈ evenAlg fun j => ¬ C j) (sH : H.IsSymm) (sK : K.IsSymm) (β : ℝ) {A B : Matrix (Finset M) (Finset M) ℂ}
    (hA : ∀ j, ¬ C j → Idle A j) (hB : ∀ j, C j → Idle B j) (hc : Commute A (cplx (gibbsOp β K))) :
    thermal β (H + K) (A * B) = thermal β H A * thermal β K B := by
  have hHi : ∀ j, ¬ C j → Idle H j := fun j hj => evenAlg_idle hH hj
  have hKi : ∀ j, C j → Idle K j := fun j hj => evenAlg_idle hK (not_not.mpr hj)
  have hcomm : Commute H K := evenAlg_comm hH hKi
  have hg : gibbsOp β (H + K) = gibbsOp β H * gibbsOp β K := gibbs_commute_add hcomm β
  have hN : (Fintype.card (Finset M) : ℂ) ≠ 0 := by
    exact_mod_cast Fintype.card_ne_zero
  have h1 := trace_factor C (X := cplx (gibbsOp β H) * A) (Y := cplx (gibbsOp β K) * B)
    (fun j hj => ((hHi j hj).gibbs β).cplx.mul (hA j hj)) (fun j hj => ((hKi j hj).gibbs β).cplx.mul (hB j hj))
  have h2 := trace_factor C (X := cplx (gibbsOp β H)) (Y := cplx (gibbsOp β K))
    (fun j hj => ((hHi j hj).gibbs β).cplx) (fun j hj => ((hKi j hj).gibbs β).cplx)
  have e1 : cplx (gibbsOp β H) * A * (cplx (gibbsOp β K) * B) = cplx (gibbsOp β (H + K)) * (A * B) := by
    rw [hg, cplx_mul']
    simp only [Matrix.mul_assoc]
    rw [← Matrix.mul_assoc A, hc.eq, Matrix.mul_assoc]
  rw [e1] at h1
  rw [← cplx_mul', ← hg] at h2
  have t1 := gibbs_trace_ne H sH β
  have t2 := gibbs_trace_ne K sK β
  unfold thermal
  have t3 : trace (cplx (gibbsOp β (H + K))) ≠ 0 := fun h => by rw [h, mul_zero] at h2; exact (mul_ne_zero t1 t2) h2.symm
  rw [div_mul_div_comm, div_eq_div_iff t3 (mul_ne_zero t1 t2)]
  have := congrArg₂ (· * ·) h1 h2.symm
  have e : (Fintype.card (Finset M) : ℂ) * (trace (cplx (gibbsOp β (H + K)) * (A * B)) * (trace (cplx (gibbsOp β H)) * trace (cplx (gibbsOp β K)))) =
      (Fintype.card (Finset M) : ℂ) * (trace (cplx (gibbsOp β H) * A) * trace (cplx (gibbsOp β K) * B) * trace (cplx (gibbsOp β (H + K)))) := by
    rw [← mul_assoc, h1, ← h2]; ring
  exact mul_left_cancel₀ hN e

theorem thermal_part (hH : H ∈ evenAlg C) (hK : K ∈ evenAlg fun j => ¬ C j) (sH : H.IsSymm) (sK : K.IsSymm) (β : ℝ) {A : Matrix (Finset M) (Finset M) ℂ}
    (hA : ∀ j, ¬ C j → Idle A j) : thermal β (H + K) A = thermal β H A := by
  have hHi : ∀ j, ¬ C j → Idle H j := fun j hj => evenAlg_idle hH hj
  have hKi : ∀ j, C j → Idle K j := fun j hj => evenAlg_idle hK (not_not.mpr hj)
  have hcomm : Commute H K := evenAlg_comm hH hKi
  have hg : gibbsOp β (H + K) = gibbsOp β H * gibbsOp β K := gibbs_commute_add hcomm β
  have hN : (Fintype.card (Finset M) : ℂ) ≠ 0 := by
    exact_mod_cast Fintype.card_ne_zero
  have h1 := trace_factor C (X := A * cplx (gibbsOp β H)) (Y := cplx (gibbsOp β K))
    (fun j hj => (hA j hj).mul ((hHi j hj).gibbs β).cplx) (fun j hj => ((hKi j hj).gibbs β).cplx)
  have h2 := trace_factor C (X := cplx (gibbsOp β H)) (Y := cplx (gibbsOp β K))
    (fun j hj => ((hHi j hj).gibbs β).cplx) (fun j hj => ((hKi j hj).gibbs β).cplx)
  rw [Matrix.mul_assoc, ← cplx_mul', ← hg, Matrix.trace_mul_comm, Matrix.trace_mul_comm A] at h1
  rw [← cplx_mul', ← hg] at h2
  have t1 := gibbs_trace_ne H sH β
  have t2 := gibbs_trace_ne K sK β
  unfold thermal
  have t3 : trace (cplx (gibbsOp β (H + K))) ≠ 0 := fun h => by rw [h, mul_zero] at h2; exact (mul_ne_zero t1 t2) h2.symm
  rw [div_eq_div_iff t3 t1]
  refine mul_left_cancel₀ (mul_ne_zero hN t2) ?_
  calc _ = (Fintype.card (Finset M) : ℂ) * trace (cplx (gibbsOp β (H + K)) * A) * (trace (cplx (gibbsOp β H)) * trace (cplx (gibbsOp β K))) := by ring
    _ = _ := by rw [h1, ← h2]; ring

/-- A matrix anticommutes with the operators of mode `j`. -/
structure AntiIdle (X : Matrix (Finset M) (Finset M) ℂ) (j : M) : Prop where
  ann : X * cplx (ann ℝ j) = -(cplx (ann ℝ j) * X)
  cre : X * cplx (cre ℝ j) = -(cplx (cre ℝ j) * X)

omit [DecidablePred C] in
theorem AntiIdle.mul {X Y : Matrix (Finset M) (Finset M) ℂ} {j : M} (hX : AntiIdle X j) (hY : AntiIdle Y j) : Idle (X * Y) j := by
  constructor
  · have := anti_even (R := (Matrix (Finset M) (Finset M) ℂ)) (x := cplx (Spec.ann ℝ j)) (a := X) (b := Y) (by rw [hX.ann, neg_neg]) (by rw [hY.ann, neg_neg])
    rw [cplx_ann] at this
    exact this.symm
  · have := anti_even (R := (Matrix (Finset M) (Finset M) ℂ)) (x := cplx (Spec.cre ℝ j)) (a := X) (b := Y) (by rw [hX.cre, neg_neg]) (by rw [hY.cre, neg_neg])
    rw [cplx_cre] at this
    exact this.symm

theorem antiIdle_ann {i j : M} (h : i ≠ j) : AntiIdle (cplx (ann ℝ i)) j :=
  ⟨by rw [← cplx_mul', ann_ann_anti, ← cplx_mul']; ext; simp [cplx], by rw [← cplx_mul', ann_cre_anti h, ← cplx_mul']; ext; simp [cplx]⟩

theorem antiIdle_cre {i j : M} (h : i ≠ j) : AntiIdle (cplx (cre ℝ i)) j :=
  ⟨by rw [← cplx_mul', cre_ann_anti h, ← cplx_mul']; ext; simp [cplx], by rw [← cplx_mul', cre_cre_anti, ← cplx_mul']; ext; simp [cplx]⟩

/-- Algebra behind the next lemma. -/
theorem eom_conj {R : Type} [Ring R] [Algebra ℂ R] {z : ℂ} {X H A v : R} (hX : z • X - (X * H - H * X) = A) (hv : v * H = H * v) (hA : v * A = -(A * v)) :
    z • (v * X * v) - (v * X * v * H - H * (v * X * v)) = -(A * (v * v)) := by
  have e : z • (v * X * v) - (v * X * v * H - H * (v * X * v)) = v * (z • X - (X * H - H * X)) * v := by
    rw [mul_sub, sub_mul, mul_sub, sub_mul, mul_smul_comm, smul_mul_assoc]
    have e1 : v * X * v * H = v * (X * H) * v := by
      rw [mul_assoc (v * X), hv]; simp only [mul_assoc]
    have e2 : H * (v * X * v) = v * (H * X) * v := by
      rw [← mul_assoc, ← mul_assoc, ← hv]; simp only [mul_assoc]
    rw [e1, e2]
  rw [e, hX, hA, neg_mul, mul_assoc]

theorem eom_anti (sH : H.IsSymm) {j : M} (hj : Idle H j) {z : ℂ} (hz : z.im ≠ 0) {X A : Matrix (Finset M) (Finset M) ℂ} (hA : AntiIdle A j)
    (hX : z • X - (X * cplx H - cplx H * X) = A) : AntiIdle X j := by
  set a := cplx (ann ℝ j) with ha
  set c := cplx (cre ℝ j) with hc
  have hac : Commute (cplx H) a := by rw [ha, cplx_ann]; exact hj.cplx.ann
  have hcc : Commute (cplx H) c := by rw [hc, cplx_cre]; exact hj.cplx.cre
  have haa : a * a = 0 := by
    have := ann_anticomm (R := ℂ) j j
    rw [ha, cplx_ann]
    rw [← two_smul ℂ] at this
    exact (smul_eq_zero.mp this).resolve_left (by norm_num)
  have hcc0 : c * c = 0 := by
    have := cre_anticomm (R := ℂ) j j
    rw [hc, cplx_cre]
    rw [← two_smul ℂ] at this
    exact (smul_eq_zero.mp this).resolve_left (by norm_num)
  have hone : a * c + c * a = 1 := by
    have := ann_cre_anticomm (R := ℂ) j j
    rw [ha, hc, cplx_ann, cplx_cre]
    simpa using this
  have hv2 : (a + c) * (a + c) = 1 := by
    rw [add_mul, mul_add, mul_add, haa, hcc0, zero_add, add_zero, hone]
  have hw2 : (a - c) * (a - c) = -1 := by
    rw [sub_mul, mul_sub, mul_sub, haa, hcc0, ← hone]; abel
  have hA1 := hA.ann
  have hA2 := hA.cre
  have q1 := eom_conj hX (hac.add_right hcc).symm.eq (show (a + c) * A = -(A * (a + c)) by rw [mul_add, add_mul, hA1, hA2]; abel)
  have q2 := eom_conj hX (hac.sub_right hcc).symm.eq (show (a - c) * A = -(A * (a - c)) by rw [mul_sub, sub_mul, hA1, hA2]; abel)
  rw [hv2, Matrix.mul_one] at q1
  rw [hw2, mul_neg, Matrix.mul_one, neg_neg] at q2
  have u1 : X + (a + c) * X * (a + c) = 0 := eom_unique sH hz (by
    have := congrArg₂ (· + ·) hX q1
    simp only [add_neg_cancel] at this
    rw [← this]; generalize (a + c) * X * (a + c) = Y; rw [smul_add, add_mul, mul_add]; abel)
  have u2 : X - (a - c) * X * (a - c) = 0 := eom_unique sH hz (by
    have := congrArg₂ (· - ·) hX q2
    simp only [sub_self] at this
    rw [← this]; generalize (a - c) * X * (a - c) = Y; rw [smul_sub, sub_mul, mul_sub]; abel)
  have v1 : X * (a + c) = -((a + c) * X) := by
    have e : (a + c) * X * (a + c) * (a + c) = (a + c) * X := by rw [Matrix.mul_assoc, hv2, Matrix.mul_one]
    have t : (X + (a + c) * X * (a + c)) * (a + c) = 0 := by rw [u1, zero_mul]
    rw [add_mul, e] at t
    exact eq_neg_of_add_eq_zero_left t
  have v2 : X * (a - c) = -((a - c) * X) := by
    have e : (a - c) * X * (a - c) * (a - c) = -((a - c) * X) := by rw [Matrix.mul_assoc, hw2, mul_neg, Matrix.mul_one]
    have t : (X - (a - c) * X * (a - c)) * (a - c) = 0 := by rw [u2, zero_mul]
    rw [sub_mul, e] at t
    exact eq_neg_of_add_eq_zero_left (by rw [← t]; abel)
  have two : ∀ Y Z : Matrix (Finset M) (Finset M) ℂ, (2 : ℂ) • Y = (2 : ℂ) • Z → Y = Z := fun Y Z h => smul_right_injective _ (by norm_num : (2 : ℂ) ≠ 0) h
  constructor
  · refine two _ _ ?_
    have := congrArg₂ (· + ·) v1 v2
    rw [two_smul, two_smul]
    simp only [mul_add, add_mul, mul_sub, sub_mul] at this
    calc X * a + X * a = X * a + X * c + (X * a - X * c) := by abel
      _ = _ := by rw [this]; abel
  · refine two _ _ ?_
    have := congrArg₂ (· - ·) v1 v2
    rw [two_smul, two_smul]
    simp only [mul_add, add_mul, mul_sub, sub_mul] at this
    calc X * c + X * c = X * a + X * c - (X * a - X * c) := by abel
      _ = _ := by rw [this]; abel

/-- `cplx` as a homomorphism of real algebras. -/
noncomputable def cplxHom : Matrix (Finset M) (Finset M) ℝ →ₐ[ℝ] Matrix (Finset M) (Finset M) ℂ := (Algebra.ofId ℝ ℂ).mapMatrix

theorem cplxHom_apply (A : Matrix (Finset M) (Finset M) ℝ) : cplxHom A = cplx A := rfl

omit [DecidablePred C] in
theorem eom_part (hH : H ∈ evenAlg C) (hK : K ∈ evenAlg fun j => ¬ C j) (sH : H.IsSymm) {z : ℂ} (hz : z.im ≠ 0) {X A : Matrix (Finset M) (Finset M) ℂ}
    (hA : ∀ j, ¬ C j → AntiIdle A j) (hX : z • X - (X * cplx H - cplx H * X) = A) : 
    (∀ j, ¬ C j → AntiIdle X j) ∧ z • X - (X * cplx (H + K) - cplx (H + K) * X) = A := by
  have h1 : ∀ j, ¬ C j → AntiIdle X j := fun j hj => eom_anti sH (evenAlg_idle hH hj) hz (hA j hj) hX
  refine ⟨h1, ?_⟩
  have h2 : Commute X (cplx K) := by
    have := evenAlg_commute hK cplxHom (x := X) (fun i hi => (h1 i hi).ann) (fun i hi => (h1 i hi).cre)
    rwa [cplxHom_apply] at this
  rw [cplx_add', mul_add, add_mul, h2.eq, ← hX]; abel

/-- **Green functions of one group** do not feel the other one. -/
theorem green_part (hH : H ∈ evenAlg C) (hK : K ∈ evenAlg fun j => ¬ C j) (sH : H.IsSymm) (sK : K.IsSymm) (β : ℝ) {z : ℂ} (hz : z.im ≠ 0) {A B : Matrix (Finset M) (Finset M) ℝ}
    (hA : ∀ j, ¬ C j → AntiIdle (cplx A) j) (hB : ∀ j, ¬ C j → AntiIdle (cplx B) j) {g : ℂ} (hg : IsGreen β H A B z g) : IsGreen β (H + K) A B z g := by
  obtain ⟨X, hX, rfl⟩ := hg
  obtain ⟨h1, h2⟩ := eom_part hH hK sH hz hA hX
  exact ⟨X, h2, (thermal_part hH hK sH sK β fun j hj => ((h1 j hj).mul (hB j hj)).add ((hB j hj).mul (h1 j hj))).symm⟩

omit [DecidablePred C] in
/-- **Green functions between the groups** vanish. -/
theorem green_cross (hH : H ∈ evenAlg C) (hK : K ∈ evenAlg fun j => ¬ C j) (sH : H.IsSymm) (β : ℝ) {z : ℂ} (hz : z.im ≠ 0) {A : Matrix (Finset M) (Finset M) ℝ}
    (hA : ∀ j, ¬ C j → AntiIdle (cplx A) j) {j : M} (hj : ¬ C j) (hex : ∃ g, IsGreen β H A A z g) : IsGreen β (H + K) A (cre ℝ j) z 0 := by
  obtain ⟨-, X, hX, -⟩ := hex
  obtain ⟨h1, h2⟩ := eom_part hH hK sH hz hA hX
  refine ⟨X, h2, ?_⟩
  rw [(h1 j hj).cre, neg_add_cancel]
  unfold thermal
  simp

end
end Edpyt
