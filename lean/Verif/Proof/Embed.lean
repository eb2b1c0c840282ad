import Verif.Proof.Decouple
import Mathlib.Topology.Instances.Matrix
/-!
The Fock space of part of the modes inside the Fock space of all modes.
-/
namespace Edpyt
open Edpyt.Spec Matrix
variable {M N : Type} [LinearOrder M] [Fintype M] [LinearOrder N] [Fintype N]

/-- The states of the modes `N` as states of `M` with the other modes empty. -/
def emb (R : Type) [CommRing R] (e : N ↪o M) : Matrix (Finset M) (Finset N) R := Matrix.of fun T S => if T = S.map e.toEmbedding then 1 else 0

section
variable {R : Type} [CommRing R] (e : N ↪o M)

theorem emb_orth : (emb R e)ᵀ * emb R e = 1 := by
  ext S S'
  rw [Matrix.mul_apply, Matrix.one_apply]
  unfold emb
  simp only [Matrix.transpose_apply, Matrix.of_apply, ite_mul, one_mul, zero_mul]
  rw [Finset.sum_ite_eq' Finset.univ]
  simp [Finset.map_inj]

theorem mul_emb_apply {ι : Type} (X : Matrix ι (Finset M) R) (t : ι) (S : Finset N) : (X * emb R e) t S = X t (S.map e.toEmbedding) := by
  rw [Matrix.mul_apply]
  unfold emb
  simp

theorem emb_mul_map {ι : Type} (Y : Matrix (Finset N) ι R) (S : Finset N) (t : ι) : (emb R e * Y) (S.map e.toEmbedding) t = Y S t := by
  rw [Matrix.mul_apply]
  unfold emb
  simp [Finset.map_inj]

theorem emb_tr_mul {ι : Type} (X : Matrix (Finset M) ι R) (S : Finset N) (t : ι) : ((emb R e)ᵀ * X) S t = X (S.map e.toEmbedding) t := by
  rw [Matrix.mul_apply]
  unfold emb
  simp

theorem emb_mul_out {ι : Type} (Y : Matrix (Finset N) ι R) {T : Finset M} (hT : ¬ ∃ S : Finset N, T = S.map e.toEmbedding) (t : ι) : (emb R e * Y) T t = 0 := by
  rw [Matrix.mul_apply]
  unfold emb
  refine Finset.sum_eq_zero fun S _ => ?_
  rw [Matrix.of_apply, if_neg (fun h => hT ⟨S, h⟩), zero_mul]

theorem sgn_map (j : N) (S : Finset N) : sgn (e j) (S.map e.toEmbedding) = sgn j S := by
  unfold sgn
  congr 1
  rw [Finset.filter_map, Finset.card_map]
  congr 1
  ext k
  simp

theorem ann_emb (j : N) : ann R (e j) * emb R e = emb R e * ann R j := by
  ext T S
  rw [mul_emb_apply]
  by_cases hT : ∃ S' : Finset N, T = S'.map e.toEmbedding
  · obtain ⟨S', rfl⟩ := hT
    rw [emb_mul_map]
    unfold ann
    rw [Matrix.of_apply, Matrix.of_apply]
    have h1 : e j ∈ S.map e.toEmbedding ↔ j ∈ S := Finset.mem_map' e.toEmbedding
    have h2 : (S'.map e.toEmbedding = (S.map e.toEmbedding).erase (e j)) ↔ S' = S.erase j := by
      rw [show (S.map e.toEmbedding).erase (e j) = (S.erase j).map e.toEmbedding from (Finset.map_erase e.toEmbedding S j).symm, Finset.map_inj]
    simp only [h1, h2, sgn_map]
  · rw [emb_mul_out e _ hT]
    unfold ann
    rw [Matrix.of_apply, if_neg]
    rintro ⟨-, h⟩
    exact hT ⟨S.erase j, by rw [Finset.map_erase]; exact h⟩

theorem cre_emb (j : N) : cre R (e j) * emb R e = emb R e * cre R j := by
  ext T S
  rw [mul_emb_apply]
  by_cases hT : ∃ S' : Finset N, T = S'.map e.toEmbedding
  · obtain ⟨S', rfl⟩ := hT
    rw [emb_mul_map]
    unfold cre ann
    rw [Matrix.transpose_apply, Matrix.transpose_apply, Matrix.of_apply, Matrix.of_apply]
    have h1 : e j ∈ S'.map e.toEmbedding ↔ j ∈ S' := Finset.mem_map' e.toEmbedding
    have h2 : (S.map e.toEmbedding = (S'.map e.toEmbedding).erase (e j)) ↔ S = S'.erase j := by
      rw [show (S'.map e.toEmbedding).erase (e j) = (S'.erase j).map e.toEmbedding from (Finset.map_erase e.toEmbedding S' j).symm, Finset.map_inj]
    simp only [h1, h2, sgn_map]
  · rw [emb_mul_out e _ hT]
    unfold cre ann
    rw [Matrix.transpose_apply, Matrix.of_apply, if_neg]
    rintro ⟨hj, h⟩
    refine hT ⟨insert j S, ?_⟩
    rw [Finset.map_insert, h]
    exact (Finset.insert_erase hj).symm

theorem num_emb (j : N) : num R (e j) * emb R e = emb R e * num R j := by
  unfold num
  rw [Matrix.mul_assoc, ann_emb, ← Matrix.mul_assoc, cre_emb, Matrix.mul_assoc]

/-- The projection on the states with the other modes empty commutes with the operators of the modes. -/
theorem proj_idle (j : N) : Idle (emb R e * (emb R e)ᵀ) (e j) := by
  have h1 : (emb R e)ᵀ * ann R (e j) = ann R j * (emb R e)ᵀ := by
    have := congrArg Matrix.transpose (cre_emb (R := R) e j)
    rw [Matrix.transpose_mul, Matrix.transpose_mul] at this
    exact this
  have h2 : (emb R e)ᵀ * cre R (e j) = cre R j * (emb R e)ᵀ := by
    have := congrArg Matrix.transpose (ann_emb (R := R) e j)
    rw [Matrix.transpose_mul, Matrix.transpose_mul] at this
    exact this
  constructor
  · change _ * _ = _ * _
    rw [Matrix.mul_assoc, h1, ← Matrix.mul_assoc, ← ann_emb, Matrix.mul_assoc]
  · change _ * _ = _ * _
    rw [Matrix.mul_assoc, h2, ← Matrix.mul_assoc, ← cre_emb, Matrix.mul_assoc]

theorem trace_embed {X : Matrix (Finset M) (Finset M) R} {X' : Matrix (Finset N) (Finset N) R} (hX : ∀ j, j ∉ Set.range e → Idle X j) (h : X * emb R e = emb R e * X') :
    (Fintype.card (Finset M) : R) * trace X' = trace X * (Fintype.card (Finset N) : R) := by
  classical
  have := trace_factor (X := X) (Y := emb R e * (emb R e)ᵀ) (fun j => j ∈ Set.range e) hX (by rintro _ ⟨j, rfl⟩; exact proj_idle e j)
  rw [← Matrix.mul_assoc, h, Matrix.trace_mul_comm, ← Matrix.mul_assoc, emb_orth, Matrix.one_mul, Matrix.trace_mul_comm (emb R e), emb_orth, Matrix.trace_one] at this
  exact this

end

theorem cplx_emb (e : N ↪o M) : (emb ℝ e).map Complex.ofReal = emb ℂ e := by
  ext T S
  unfold emb
  by_cases h : T = S.map e.toEmbedding <;> simp [h]

theorem cplx_semi {e : N ↪o M} {X : Matrix (Finset M) (Finset M) ℝ} {X' : Matrix (Finset N) (Finset N) ℝ} (h : X * emb ℝ e = emb ℝ e * X') : cplx X * emb ℂ e = emb ℂ e * cplx X' := by
  rw [← cplx_emb]
  ext T S
  have h2 := congrFun (congrFun h T) S
  have h3 := congrArg Complex.ofReal h2
  rw [Matrix.mul_apply, Matrix.mul_apply, Complex.ofReal_sum, Complex.ofReal_sum] at h3
  rw [Matrix.mul_apply, Matrix.mul_apply]
  simpa [cplx, Complex.ofReal_mul] using h3

open Filter Topology in
theorem gibbs_emb {e : N ↪o M} {H : Matrix (Finset M) (Finset M) ℝ} {H' : Matrix (Finset N) (Finset N) ℝ} (h : H * emb ℝ e = emb ℝ e * H') (β : ℝ) :
    gibbsOp β H * emb ℝ e = emb ℝ e * gibbsOp β H' := by
  have hser : ∀ {ι : Type} [Fintype ι] [DecidableEq ι] (A : Matrix ι ι ℝ), HasSum (fun k : ℕ => ((k.factorial : ℝ)⁻¹) • A ^ k) (NormedSpace.exp A) := by
    intro ι _ _ A
    letI : NormedRing (Matrix ι ι ℝ) := Matrix.linftyOpNormedRing
    letI : NormedAlgebra ℝ (Matrix ι ι ℝ) := Matrix.linftyOpNormedAlgebra
    exact NormedSpace.exp_series_hasSum_exp' A
  unfold gibbsOp
  have h1 := (hser (-β • H)).map (⟨⟨fun X => X * emb ℝ e, Matrix.zero_mul _⟩, fun X Y => Matrix.add_mul X Y _⟩ : Matrix (Finset M) (Finset M) ℝ →+ Matrix (Finset M) (Finset N) ℝ)
    (Continuous.matrix_mul continuous_id continuous_const)
  have h2 := (hser (-β • H')).map (⟨⟨fun X => emb ℝ e * X, Matrix.mul_zero _⟩, fun X Y => Matrix.mul_add _ X Y⟩ : Matrix (Finset N) (Finset N) ℝ →+ Matrix (Finset M) (Finset N) ℝ)
    (Continuous.matrix_mul continuous_const continuous_id)
  have hp : ∀ k : ℕ, (-β • H) ^ k * emb ℝ e = emb ℝ e * (-β • H') ^ k := by
    intro k
    induction k with
    | zero => rw [pow_zero, pow_zero, Matrix.one_mul, Matrix.mul_one]
    | succ k ih => rw [pow_succ', Matrix.mul_assoc, ih, Matrix.smul_mul, ← Matrix.mul_assoc, h, pow_succ', Matrix.smul_mul, Matrix.mul_smul, Matrix.mul_assoc]
  refine h1.unique (Eq.mpr ?_ h2)
  congr 1
  funext k
  change (((k.factorial : ℝ)⁻¹) • (-β • H) ^ k) * emb ℝ e = emb ℝ e * (((k.factorial : ℝ)⁻¹) • (-β • H') ^ k)
  rw [Matrix.smul_mul, Matrix.mul_smul, hp]

section
variable {e : N ↪o M} {H : Matrix (Finset M) (Finset M) ℝ} {H' : Matrix (Finset N) (Finset N) ℝ}

theorem thermal_embed (sH : H.IsSymm) (hH : ∀ j, j ∉ Set.range e → Idle H j) (h : H * emb ℝ e = emb ℝ e * H') (β : ℝ) {A : Matrix (Finset M) (Finset M) ℂ} {A' : Matrix (Finset N) (Finset N) ℂ}
    (hA : ∀ j, j ∉ Set.range e → Idle A j) (hA' : A * emb ℂ e = emb ℂ e * A') : thermal β H A = thermal β H' A' := by
  have hg := cplx_semi (gibbs_emb h β)
  have hgi : ∀ j, j ∉ Set.range e → Idle (cplx (gibbsOp β H)) j := fun j hj => ((hH j hj).gibbs β).cplx
  have e1 := trace_embed e hgi hg
  have e2 := trace_embed e (X := cplx (gibbsOp β H) * A) (X' := cplx (gibbsOp β H') * A') (fun j hj => (hgi j hj).mul (hA j hj)) (by
    rw [Matrix.mul_assoc, hA', ← Matrix.mul_assoc, hg, Matrix.mul_assoc])
  have c1 : (Fintype.card (Finset M) : ℂ) ≠ 0 := Nat.cast_ne_zero.mpr Fintype.card_ne_zero
  have c2 : (Fintype.card (Finset N) : ℂ) ≠ 0 := Nat.cast_ne_zero.mpr Fintype.card_ne_zero
  have t1 := gibbs_trace_ne H sH β
  have t2 : trace (cplx (gibbsOp β H')) ≠ 0 := fun hc => by
    rw [hc, mul_zero] at e1
    exact (mul_ne_zero t1 c2) e1.symm
  unfold thermal
  rw [div_eq_div_iff t1 t2]
  have : (Fintype.card (Finset M) : ℂ) * (trace (cplx (gibbsOp β H) * A) * trace (cplx (gibbsOp β H'))) = (Fintype.card (Finset M) : ℂ) * (trace (cplx (gibbsOp β H') * A') * trace (cplx (gibbsOp β H))) := by
    calc _ = trace (cplx (gibbsOp β H) * A) * ((Fintype.card (Finset M) : ℂ) * trace (cplx (gibbsOp β H'))) := by ring
      _ = (trace (cplx (gibbsOp β H) * A) * (Fintype.card (Finset N) : ℂ)) * trace (cplx (gibbsOp β H)) := by rw [e1]; ring
      _ = _ := by rw [← e2]; ring
  exact mul_left_cancel₀ c1 this

theorem AntiIdle.block {X : Matrix (Finset M) (Finset M) ℂ} {j : M} (h : AntiIdle X j) {S T : Finset M} (hT : j ∈ T) (hS : j ∉ S) : X T S = 0 := by
  have h1 : X * num ℂ j = num ℂ j * X := by
    have := anti_even (R := (Matrix (Finset M) (Finset M) ℂ)) (x := X) h.cre h.ann
    rw [cplx_ann, cplx_cre] at this
    exact this
  have h2 := congrFun (congrFun h1 T) S
  rw [mul_num_apply, num_mul_apply'] at h2
  simp_all

theorem green_embed (sH : H.IsSymm) (hH : ∀ j, j ∉ Set.range e → Idle H j) (h : H * emb ℝ e = emb ℝ e * H') (β : ℝ) {z : ℂ} (hz : z.im ≠ 0)
    {A B : Matrix (Finset M) (Finset M) ℝ} {A' B' : Matrix (Finset N) (Finset N) ℝ} (hA : ∀ j, j ∉ Set.range e → AntiIdle (cplx A) j) (hB : ∀ j, j ∉ Set.range e → AntiIdle (cplx B) j)
    (hA' : A * emb ℝ e = emb ℝ e * A') (hB' : B * emb ℝ e = emb ℝ e * B') {g : ℂ} (hg : IsGreen β H A B z g) : IsGreen β H' A' B' z g := by
  obtain ⟨X, hX, rfl⟩ := hg
  have hXi : ∀ j, j ∉ Set.range e → AntiIdle X j := fun j hj => eom_anti sH (hH j hj) hz (hA j hj) hX
  have hXe : X * emb ℂ e = emb ℂ e * ((emb ℂ e)ᵀ * X * emb ℂ e) := by
    ext T S
    by_cases hT : ∃ S' : Finset N, T = S'.map e.toEmbedding
    · obtain ⟨S', rfl⟩ := hT
      rw [emb_mul_map, mul_emb_apply, mul_emb_apply, emb_tr_mul]
    · rw [emb_mul_out e _ hT, mul_emb_apply]
      have : ∃ j ∈ T, j ∉ Set.range e := by
        by_contra hc
        push Not at hc
        refine hT ⟨Finset.univ.filter fun j => e j ∈ T, ?_⟩
        ext m
        simp only [Finset.mem_map, Finset.mem_filter, Finset.mem_univ, true_and]
        constructor
        · intro hm
          obtain ⟨j, rfl⟩ := hc m hm
          exact ⟨j, hm, rfl⟩
        · rintro ⟨j, hj, rfl⟩; exact hj
      obtain ⟨j, hj, hr⟩ := this
      exact (hXi j hr).block hj (by
        rw [Finset.mem_map]
        rintro ⟨k, -, rfl⟩
        exact hr ⟨k, rfl⟩)
  refine ⟨(emb ℂ e)ᵀ * X * emb ℂ e, ?_, ?_⟩
  · have e1 : (emb ℂ e)ᵀ * ((z • X - (X * cplx H - cplx H * X)) * emb ℂ e) = (emb ℂ e)ᵀ * (cplx A * emb ℂ e) := by rw [hX]
    rw [cplx_semi hA', ← Matrix.mul_assoc, ← Matrix.mul_assoc (emb ℂ e)ᵀ (emb ℂ e), emb_orth, Matrix.one_mul] at e1
    rw [← e1]
    have a1 : (emb ℂ e)ᵀ * (X * cplx H) * emb ℂ e = (emb ℂ e)ᵀ * X * emb ℂ e * cplx H' := by
      simp only [Matrix.mul_assoc]; rw [cplx_semi h]
    have a2 : (emb ℂ e)ᵀ * (cplx H * X) * emb ℂ e = cplx H' * ((emb ℂ e)ᵀ * X * emb ℂ e) := by
      calc _ = (emb ℂ e)ᵀ * (cplx H * (X * emb ℂ e)) := by simp only [Matrix.mul_assoc]
        _ = (emb ℂ e)ᵀ * ((cplx H * emb ℂ e) * ((emb ℂ e)ᵀ * X * emb ℂ e)) := by
            rw [Matrix.mul_assoc (cplx H), ← hXe]
        _ = _ := by rw [cplx_semi h, Matrix.mul_assoc, ← Matrix.mul_assoc (emb ℂ e)ᵀ, emb_orth, Matrix.one_mul]
    rw [Matrix.mul_sub, Matrix.sub_mul, Matrix.mul_sub, Matrix.sub_mul, a1, a2, Matrix.mul_smul, Matrix.smul_mul]
  · refine thermal_embed sH hH h β (fun j hj => ((hXi j hj).mul (hB j hj)).add ((hB j hj).mul (hXi j hj))) ?_
    rw [Matrix.add_mul, Matrix.mul_add, Matrix.mul_assoc, cplx_semi hB', ← Matrix.mul_assoc, hXe, Matrix.mul_assoc (cplx B), hXe, ← Matrix.mul_assoc (cplx B), cplx_semi hB']
    simp only [Matrix.mul_assoc]

end
end Edpyt
