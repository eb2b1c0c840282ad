import Verif.Props.Response
import Verif.Props.Decouple
import Verif.Props.SigmaTail
import Verif.Props.FreeDeriv
import Verif.Proof.GreenPert
import Verif.Props.HalfFilling
/-!
C200: the mean-field free energy is an upper bound.
-/
namespace Edpyt
open Spec Matrix

variable {a : HamArgs} {w : ℕ} {es esb : Espace (ℕ × ℕ)} {U D : ℕ → ℝ} {beta : ℝ} {egs : WithTop ℝ}

/-- The input without interaction, with the one-body matrices `H`. -/
noncomputable def Spec.trial (a : HamArgs) (H : ℕ → ℕ → ℕ → ℝ) : HamArgs := { a with H := H, V := { a.V with U := some fun _ _ => 0 } }

/-- The mean-field interaction energy: the product of the mean occupations of the two spins, in the convention of the input. -/
noncomputable def Spec.hartree (a : HamArgs) (U D : ℕ → ℝ) : ℝ :=
  ∑ i ∈ Finset.range a.n, a.V.U.getD 0 i i * ((U i - if a.hf then 1 / 2 else 0) * (D i - if a.hf then 1 / 2 else 0))

theorem trial_splits {H : ℕ → ℕ → ℕ → ℝ} (h : a.OnsiteOnly) : Splits (trial a H) fun s _ => !s where
  hop := fun _ _ _ _ _ _ => rfl
  U := fun A hA i j _ _ h0 => by
    obtain rfl : (fun _ _ => 0) = A := by simpa [trial] using hA
    exact absurd rfl h0
  Jx := fun A hA => by rw [show (trial a H).V.Jx = none from h.Jx] at hA; exact absurd hA (by simp)
  Jp := fun A hA => by rw [show (trial a H).V.Jp = none from h.Jp] at hA; exact absurd hA (by simp)

section
variable {M : Type} [Fintype M] [LinearOrder M] {C : M → Prop} [DecidablePred C] {H K : Matrix (Finset M) (Finset M) ℝ}

theorem thermal_shift (sH : H.IsSymm) (A : Matrix (Finset M) (Finset M) ℝ) (c : ℝ) : thermal beta H (cplx (A - c • 1)) = thermal beta H (cplx A) - c := by
  rw [cplx_sub', thermal_sub', cplx_smul, thermal_smul, cplx_one']
  have : thermal beta H 1 = 1 := by
    unfold thermal
    rw [Matrix.mul_one, div_self (gibbs_trace_ne H sH beta)]
  rw [this, mul_one]

/-- Averages of products of operators of two independent groups factorise. -/
theorem thermal_indep (hH : H ∈ evenAlg C) (hK : K ∈ evenAlg fun j => ¬ C j) (sH : H.IsSymm) (sK : K.IsSymm) {X Y : Matrix (Finset M) (Finset M) ℝ} (hX : X ∈ evenAlg C)
    (hY : Y ∈ evenAlg fun j => ¬ C j) : thermal beta (H + K) (cplx (X * Y)) = thermal beta (H + K) (cplx X) * thermal beta (H + K) (cplx Y) := by
  have iX : ∀ j, ¬ C j → Idle (cplx X) j := fun j hj => (evenAlg_idle hX hj).cplx
  have iY : ∀ j, C j → Idle (cplx Y) j := fun j hj => (evenAlg_idle hY (not_not.mpr hj)).cplx
  have hc : Commute (cplx X) (cplx (gibbsOp beta K)) := by
    have := evenAlg_comm hX fun j hj => (evenAlg_idle hK (not_not.mpr hj)).gibbs beta
    unfold Commute SemiconjBy at this ⊢
    rw [← cplx_mul', this, cplx_mul']
  rw [cplx_mul', thermal_factor hH hK sH sK beta iX iY hc, thermal_part hH hK sH sK beta iX]
  congr 1
  have hf := thermal_factor hH hK sH sK beta (A := 1) (B := cplx Y) (fun j _ => ⟨Commute.one_left _, Commute.one_left _⟩) iY (Commute.one_left _)
  have h1 : thermal beta H 1 = 1 := by
    unfold thermal
    rw [Matrix.mul_one, div_self (gibbs_trace_ne H sH beta)]
  rw [one_mul, h1, one_mul] at hf
  exact hf.symm
end

/-- Without interaction the two spins are independent. -/
theorem trial_double {b : HamArgs} (hb : b.Valid) (hs : Splits b fun s _ => !s) (c : ℝ) (i : Fin b.n) :
    thermal beta b.ham (cplx ((num ℝ (orb false i) - c • 1) * (num ℝ (orb true i) - c • 1))) =
      (thermalOcc beta b.ham false i - c) * (thermalOcc beta b.ham true i - c) := by
  classical
  have hsy : b.ham.IsSymm := ham_symm hb
  unfold thermalOcc
  rw [← thermal_shift hsy, ← thermal_shift hsy]
  have hm := hs.mem false
  rw [show InGroup b.n (fun s _ => !s) false = fun m => ¬ InGroup b.n (fun s _ => !s) true m from funext fun m => propext inGroup_not] at hm
  have hni : ¬ InGroup b.n (fun s _ => !s) true (orb true i) := by rw [inGroup_orb]; simp
  have hT := hs.mem true
  have sT := partHam_symm (col := fun s _ => !s) hb true
  have sF := partHam_symm (col := fun s _ => !s) hb false
  rw [hs.ham]
  exact thermal_indep hT hm sT sF (Subalgebra.sub_mem _ (mem_ca (inGroup_orb.mpr rfl) (inGroup_orb.mpr rfl)) (Subalgebra.smul_mem _ (Subalgebra.one_mem _) c))
    (Subalgebra.sub_mem _ (mem_ca hni hni) (Subalgebra.smul_mem _ (Subalgebra.one_mem _) c))

/-- The Hamiltonian of the trial system. -/
noncomputable def trialHam (a : HamArgs) (H : ℕ → ℕ → ℕ → ℝ) : Matrix (Finset (Fin (a.n + a.n))) (Finset (Fin (a.n + a.n))) ℝ := (trial a H).ham

theorem trialHam_levels {H : ℕ → ℕ → ℕ → ℝ} (hs : SameHops a.n H a.H) : trialHam a a.H = trialHam a H + Matrix.diagonal fun S => ∑ i : Fin a.n,
    ((a.H 0 i i - H 0 i i) * (if orb false i ∈ S then 1 else 0) + (a.H 1 i i - H 1 i i) * (if orb true i ∈ S then 1 else 0)) := hamH_levels (a := trial a H) hs

theorem trialHam_onsite (ho : a.OnsiteOnly) : a.ham = trialHam a a.H + onsiteU a.hf (fun i j : Fin a.n => a.V.U.getD 0 i j) := by
  have ho' : (trial a a.H).OnsiteOnly := ⟨fun _ _ _ _ _ => rfl, ho.Jx, ho.Jp⟩
  have h1 : trialHam a a.H = kinetic (fun s i j => a.oneBody s i j) + onsiteU a.hf (fun i j : Fin a.n => (trial a a.H).V.U.getD 0 i j) := ho'.ham
  have h2 : onsiteU (n := a.n) a.hf (fun i j : Fin a.n => (trial a a.H).V.U.getD 0 i j) = 0 := by
    unfold onsiteU
    exact Finset.sum_eq_zero fun i _ => zero_smul ℝ _
  rw [ho.ham, h1, h2, add_zero]

theorem trial_onsite {H : ℕ → ℕ → ℕ → ℝ} (ho : a.OnsiteOnly) (hv : (trial a H).Valid)
    (hU : ∀ k : Fin a.n, (U k : ℂ) = thermalOcc beta (trialHam a H) false k ∧ (D k : ℂ) = thermalOcc beta (trialHam a H) true k) :
    thermal beta (trialHam a H) (cplx (onsiteU a.hf (fun i j : Fin a.n => a.V.U.getD 0 i j))) = (hartree a U D : ℂ) := by
  have hd : ∀ i : Fin a.n, thermal beta (trialHam a H) (cplx ((num ℝ (orb false i) - (if a.hf then 1 / 2 else 0 : ℝ) • 1) * (num ℝ (orb true i) - (if a.hf then 1 / 2 else 0 : ℝ) • 1))) =
      ((((U i - if a.hf then 1 / 2 else 0) * (D i - if a.hf then 1 / 2 else 0) : ℝ)) : ℂ) := fun i => by
    have := trial_double (beta := beta) hv (trial_splits ho) (if a.hf then 1 / 2 else 0) i
    refine this.trans ?_
    rw [Complex.ofReal_mul, Complex.ofReal_sub, Complex.ofReal_sub, (hU i).1, (hU i).2]
    rfl
  have hsum : ∀ s : Finset (Fin a.n), thermal beta (trialHam a H) (cplx (∑ i ∈ s, a.V.U.getD 0 i i • ((num ℝ (orb false i) - (if a.hf then 1 / 2 else 0 : ℝ) • 1) *
      (num ℝ (orb true i) - (if a.hf then 1 / 2 else 0 : ℝ) • 1)))) = ((∑ i ∈ s, a.V.U.getD 0 i i * ((U i - if a.hf then 1 / 2 else 0) * (D i - if a.hf then 1 / 2 else 0)) : ℝ) : ℂ) := fun s => by
    induction s using Finset.induction_on with
    | empty => simp [cplx_zero', thermal]
    | insert i s hi ih =>
      rw [Finset.sum_insert hi, Finset.sum_insert hi, cplx_add', thermal_add', ih, cplx_smul, thermal_smul, hd, Complex.ofReal_add, Complex.ofReal_mul (a.V.U.getD 0 i i)]
  unfold hartree onsiteU
  rw [hsum, Finset.sum_range fun i => a.V.U.getD 0 i i * ((U i - if a.hf then 1 / 2 else 0) * (D i - if a.hf then 1 / 2 else 0))]

/-- **C200** (Gibbs, Bogoliubov, Feynman) For on-site interactions and every choice of levels for a system without interaction, the free energy of the interacting
spectrum is at most the mean-field free energy: that of the trial system, plus the work of changing its levels back, plus the product of its occupations times the interaction. -/
theorem C200_mean_field (ha : a.Valid) (hw : a.n ≤ w) (ho : a.OnsiteOnly) (hb : 0 < beta) {H : ℕ → ℕ → ℕ → ℝ} (hv : (trial a H).Valid) (hs : SameHops a.n H a.H)
    (h : BuildEspace w a none (.ok (es, egs))) (ht : OccRun w (trial a H) beta esb U D) :
    freeEnergy beta es ≤ freeEnergy beta esb + levelWork a.n H a.H U D + hartree a U D := by
  have e := buildEspace_eigen ha hw h
  obtain ⟨eb, hU⟩ : EigenEspace a.n (trialHam a H) esb ∧ ∀ k : Fin a.n, (U k : ℂ) = thermalOcc beta (trialHam a H) false k ∧ (D k : ℂ) = thermalOcc beta (trialHam a H) true k :=
    OccRun.eigen (a := trial a H) hv hw ht
  have key := gibbs_le eb.basis e.basis beta
  have h1 := eb.basis.thermal beta (a.ham - trialHam a H)
  have h2 : a.ham - trialHam a H = (Matrix.diagonal fun S => ∑ i : Fin a.n,
      ((a.H 0 i i - H 0 i i) * (if orb false i ∈ S then 1 else 0) + (a.H 1 i i - H 1 i i) * (if orb true i ∈ S then 1 else 0))) + onsiteU a.hf (fun i j : Fin a.n => a.V.U.getD 0 i j) := by
    rw [trialHam_onsite ho, trialHam_levels hs]; abel
  have h3 := eb.basis.thermal beta (Matrix.diagonal fun S => ∑ i : Fin a.n,
      ((a.H 0 i i - H 0 i i) * (if orb false i ∈ S then 1 else 0) + (a.H 1 i i - H 1 i i) * (if orb true i ∈ S then 1 else 0)))
  rw [thermal_work eb hU (fun i => a.H 0 i i - H 0 i i) fun i => a.H 1 i i - H 1 i i, ← levelWork_eq U D] at h3
  have h4 : (∑ k, Real.exp (-beta * esVal a.n esb k) * (esKet a.n esb k ⬝ᵥ (a.ham - trialHam a H) *ᵥ esKet a.n esb k)) / ∑ k, Real.exp (-beta * esVal a.n esb k) =
      levelWork a.n H a.H U D + hartree a U D := by
    rw [h2, cplx_add', thermal_add', h3, trial_onsite ho hv hU, ← h2] at h1
    exact_mod_cast h1.symm
  rw [h4] at key
  rw [freeEnergy_eq e.toCompleteEspace, freeEnergy_eq eb.toCompleteEspace]
  rw [add_assoc, ← sub_le_iff_le_add', ← sub_div, div_le_iff₀ hb]
  linarith

/-- **C200** The interaction energy is at most that of the uncorrelated occupations without interaction: electrons avoid (or, if they attract, seek) each other. -/
theorem C200_correlation (ha : a.Valid) (hw : a.n ≤ w) (ho : a.OnsiteOnly) (hb : 0 < beta) (h : BuildEspace w a none (.ok (es, egs)))
    (ht : OccRun w (trial a a.H) beta esb U D) :
    ∃ d : Fin a.n → ℝ, (∀ i, (d i : ℂ) = thermal beta a.ham (cplx (doubleOcc a.hf i))) ∧ ∑ i : Fin a.n, a.V.U.getD 0 i i * d i ≤ hartree a U D := by
  have e := buildEspace_eigen ha hw h
  have hv : (trial a a.H).Valid := ⟨ha.two_le, ha.le, rfl, ha.symmH, ha.symmX, ha.symmP, ha.hJ⟩
  obtain ⟨eb, -⟩ : EigenEspace a.n (trialHam a a.H) esb ∧ _ := OccRun.eigen (a := trial a a.H) hv hw ht
  have h1 := C200_mean_field ha hw ho hb hv (fun _ _ _ _ _ _ _ => rfl) h ht
  have h0 : levelWork a.n a.H a.H U D = 0 := by unfold levelWork; simp
  rw [h0, add_zero] at h1
  have key := gibbs_le e.basis eb.basis beta
  refine ⟨fun i => avgOf beta (doubleOcc a.hf i) (esKet a.n es) (esVal a.n es), fun i => (e.basis.thermal beta (doubleOcc a.hf i)).symm, ?_⟩
  have h2 : (∑ k, Real.exp (-beta * esVal a.n es k) * (esKet a.n es k ⬝ᵥ (trialHam a a.H - a.ham) *ᵥ esKet a.n es k)) / ∑ k, Real.exp (-beta * esVal a.n es k) =
      -∑ i : Fin a.n, a.V.U.getD 0 i i * avgOf beta (doubleOcc a.hf i) (esKet a.n es) (esVal a.n es) := by
    rw [show trialHam a a.H - a.ham = -onsiteU a.hf (fun i j : Fin a.n => a.V.U.getD 0 i j) by rw [trialHam_onsite ho]; abel]
    unfold avgOf
    simp only [Matrix.neg_mulVec, dotProduct_neg, mul_neg, Finset.sum_neg_distrib, neg_div]
    congr 1
    simp only [← mul_div_assoc]
    rw [← Finset.sum_div]
    congr 1
    simp only [Finset.mul_sum]
    rw [Finset.sum_comm]
    refine Finset.sum_congr rfl fun k _ => ?_
    unfold onsiteU
    rw [Matrix.sum_mulVec, dotProduct_sum, Finset.mul_sum]
    refine Finset.sum_congr rfl fun i _ => ?_
    rw [Matrix.smul_mulVec, dotProduct_smul, smul_eq_mul]
    unfold doubleOcc
    ring
  rw [h2] at key
  rw [freeEnergy_eq e.toCompleteEspace, freeEnergy_eq eb.toCompleteEspace, ← sub_le_iff_le_add', ← sub_div, div_le_iff₀ hb] at h1
  have h3 : beta * ∑ i : Fin a.n, a.V.U.getD 0 i i * avgOf beta (doubleOcc a.hf i) (esKet a.n es) (esVal a.n es) ≤ beta * hartree a U D := by linarith
  exact le_of_mul_le_mul_left h3 hb

/-- Non-vacuity: the interacting dimer, with a trial system in a staggered field. -/
example : ∃ es egs esb U D, dimerArgs.OnsiteOnly ∧ BuildEspace 64 dimerArgs none (.ok (es, egs)) ∧
    OccRun 64 (trial dimerArgs fun s i j => if i = j then (if s + i = 1 then 1 else -1) else 1) 1 esb U D ∧
    freeEnergy 1 es ≤ freeEnergy 1 esb + levelWork 2 (fun s i j => if i = j then (if s + i = 1 then 1 else -1) else 1) dimerArgs.H U D + hartree dimerArgs U D := by
  have ho : dimerArgs.OnsiteOnly := ⟨fun i j _ _ hij => by simp [dimerArgs, VArg.array, hij], rfl, rfl⟩
  have hv : (trial dimerArgs fun s i j => if i = j then (if s + i = 1 then 1 else -1) else 1).Valid :=
    ⟨dimerArgs_valid.two_le, dimerArgs_valid.le, rfl, fun s i j _ _ => by
      by_cases hij : i = j
      · simp [hij]
      · simp [trial, hij, Ne.symm hij], dimerArgs_valid.symmX, dimerArgs_valid.symmP, dimerArgs_valid.hJ⟩
  obtain ⟨⟨⟨es, egs⟩, h⟩, -⟩ := buildEspace_none_ok dimerArgs_valid (w := 64) (by simp [dimerArgs])
  obtain ⟨esb, U, D, ht⟩ := OccRun.exists (w := 64) hv (by simp [trial, dimerArgs]) 1
  exact ⟨es, egs, esb, U, D, ho, h, ht, C200_mean_field dimerArgs_valid (by simp [dimerArgs]) ho one_pos hv (fun s _ i _ j _ hij => by simp [dimerArgs, hij]) h ht⟩
end Edpyt
