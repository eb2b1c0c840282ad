import Verif.Props.NAmplitude
import Verif.Props.NChoice
/-!
C170: the sector of one electron, where `cotnl.build_transition_elements` leaves out the process through the empty dot.
-/
namespace Edpyt
open Spec Matrix

/-- The unmixed run: two uncoupled sites at level zero. -/
noncomputable def flatEs : Espace ℕ := nChosen 64 2 (mixChoice false)

theorem flat_run : NRun hopArgs flatEs := nRun hopArgs hopArgs_nvalid (w := 64) (by simp [hopArgs, freeArgs]) (mix_run false)

theorem flat_sct {N : ℕ} (h : N ≤ 4) : nSctAt flatEs N = nChosenSct 64 2 (mixChoice false) N := by
  have := nChosen_get (w := 64) (ch := mixChoice false) (n := 2) (N := N) h
  unfold nSctAt flatEs
  rw [this]

theorem flat_val (x : NIdx hopArgs.n) : nVal hopArgs.n flatEs x = 0 := by
  have h : (x.1 : ℕ) ≤ 4 := by have := x.1.2; have : hopArgs.n = 2 := rfl; omega
  unfold nVal
  rw [flat_sct h]
  simp only [nChosenSct, mixChoice, List.getElem?_replicate]
  split <;> rfl

theorem leadOp_first : leadOp 2 false [1, 0] = cre ℝ (orb false 0) := by
  unfold leadOp
  rw [Fin.sum_univ_two]
  simp

/-- The state with one electron of spin up on the first site. -/
abbrev oneUp : NIdx hopArgs.n := ⟨⟨1, by simp [hopArgs, freeArgs]⟩, ⟨0, by simp [hopArgs, freeArgs]⟩⟩

theorem flat_hole {H : Matrix (Finset (Fin (2 + 2))) (Finset (Fin (2 + 2))) ℝ} (hH : H = 0) (u v : Finset (Fin (2 + 2)) → ℝ) :
    IsAmplitude (((1 : ℝ) - 0) • (1 : Matrix _ _ ℝ) + H) u (leadOp 2 false [1, 0]) ((leadOp 2 false [1, 0])ᵀ) v
      (u ⬝ᵥ leadOp 2 false [1, 0] *ᵥ ((leadOp 2 false [1, 0])ᵀ *ᵥ v)) := by
  rw [hH, sub_zero, one_smul, add_zero]
  exact ⟨⟨_, one_mulVec _⟩, fun x hx => by rw [← hx, one_mulVec]⟩

theorem flat_electron {H : Matrix (Finset (Fin (2 + 2))) (Finset (Fin (2 + 2))) ℝ} (hH : H = 0) (u v : Finset (Fin (2 + 2)) → ℝ) :
    IsAmplitude (((1 : ℝ) + 0) • (1 : Matrix _ _ ℝ) - H) u ((leadOp 2 false [1, 0])ᵀ) (leadOp 2 false [1, 0]) v
      (u ⬝ᵥ (leadOp 2 false [1, 0])ᵀ *ᵥ (leadOp 2 false [1, 0] *ᵥ v)) := by
  rw [hH, add_zero, one_smul, sub_zero]
  exact ⟨⟨_, one_mulVec _⟩, fun x hx => by rw [← hx, one_mulVec]⟩

theorem amplitude_unique {ι : Type} [Fintype ι] {K : Matrix ι ι ℝ} {F : ι → ℝ} {A B : Matrix ι ι ℝ} {I : ι → ℝ} {v v' : ℝ} (h : IsAmplitude K F A B I v)
    (h' : IsAmplitude K F A B I v') : v = v' := by
  obtain ⟨x, hx⟩ := h.1
  rw [← h.2 x hx, ← h'.2 x hx]

theorem flat_both : nKet 2 flatEs oneUp ⬝ᵥ (leadOp 2 false [1, 0])ᵀ *ᵥ (leadOp 2 false [1, 0] *ᵥ nKet 2 flatEs oneUp) +
    nKet 2 flatEs oneUp ⬝ᵥ leadOp 2 false [1, 0] *ᵥ ((leadOp 2 false [1, 0])ᵀ *ᵥ nKet 2 flatEs oneUp) = 1 := by
  have h := flat_run.basis.orth oneUp oneUp
  rw [if_pos rfl] at h
  rw [leadOp_first, cre, transpose_transpose, mulVec_mulVec, mulVec_mulVec, ← dotProduct_add, ← add_mulVec]
  have := ann_cre_swap (R := ℝ) (orb false (0 : Fin 2)) (orb false 0)
  rw [if_pos rfl, cre] at this
  rw [this, sub_add_cancel, one_mulVec]
  exact h

theorem flat_removed : nKet 2 flatEs oneUp ⬝ᵥ leadOp 2 false [1, 0] *ᵥ ((leadOp 2 false [1, 0])ᵀ *ᵥ nKet 2 flatEs oneUp) = 1 := by
  obtain ⟨sK, gK, oK, lK⟩ := flat_run.get 0 (by simp)
  obtain ⟨sI, gI, oI, lI⟩ := flat_run.get 1 (by simp [hopArgs, freeArgs])
  have h := down_amplitude flat_run (N := 0) (by simp [hopArgs, freeArgs]) oK oI ⟨0, by simp [hopArgs, freeArgs]⟩ ⟨0, by simp [hopArgs, freeArgs]⟩ false false
    (v := [1, 0]) (w := [1, 0]) rfl rfl 1 (by
      intro x _
      rw [flat_val, flat_val]; norm_num)
  rw [flat_val, creSum_leadOp, annSum_leadOp] at h
  refine (amplitude_unique h (flat_hole hopArgs_hamN _ _)).symm.trans ?_
  rw [ampGf_down _ _ _ _ _ _ (n := hopArgs.n) rfl rfl]
  have s0 : sK = gs 64 4 0 := by
    have := oK.states
    rw [flat_sct (by norm_num)] at this
    exact (SectorStates.total.inj this).symm
  have s1 : sI = gs 64 4 1 := by
    have := oI.states
    rw [flat_sct (by norm_num)] at this
    exact (SectorStates.total.inj this).symm
  have hk : (nSctAt flatEs 0).eigvals.length = 1 := by rw [lK]; simp
  have e0 : (nSctAt flatEs 1).eigvals[0]?.getD 0 = 0 := flat_val oneUp
  have e1 : (nSctAt flatEs 0).eigvals[0]?.getD 0 = 0 := flat_val ⟨⟨0, by simp⟩, ⟨0, by simp⟩⟩
  rw [hk, Finset.sum_range_one, s0, s1]
  have hamp : ∀ k : Fin hopArgs.n, amplitude hopArgs.n (gs 64 4 0) (gs 64 4 1) (nSctAt flatEs 0) (nSctAt flatEs (0 + 1)) 0 0 0 k = mixVec false 1 0 k := by
    intro k
    rw [flat_sct (by norm_num), flat_sct (by norm_num)]
    have := mix_amp false (j := 0) (x := k) (by norm_num) k.2 0 (by norm_num)
    simp only [zero_mul, add_zero] at this
    exact this
  simp only [Bool.false_eq_true, if_false, zero_add] at hamp ⊢
  rw [e0, e1]
  have hs : (∑ x : Fin hopArgs.n, ([1, 0] : List ℝ)[(x : ℕ)]?.getD 0 * amplitude hopArgs.n (gs 64 4 0) (gs 64 4 1) (nSctAt flatEs 0) (nSctAt flatEs 1) 0 0 0 x) = 1 := by
    rw [Finset.sum_congr rfl fun x _ => by rw [hamp x]]
    change ∑ x : Fin 2, _ = _
    rw [Fin.sum_univ_two]
    simp [mixVec]
  rw [hs]
  norm_num

/-- **C170 refuted** next to the empty dot: "calling an element gives the square of the second-order amplitude" is false for one electron. For two uncoupled sites at
level zero, both leads coupled to the first site, an electron of spin up on that site and the elastic process that takes one electron of spin up in and out, the amplitude is
one (through the empty dot), but the element has the value zero: no element for the sector of one electron contains the process through the empty dot. -/
theorem C170_refuted : ∃ (a : HamArgs) (es : Espace ℕ) (e0 : WithTop ℝ) (sd : List ((NId × NId) × List NSigma)) (p : (NId × NId) × List NSigma) (s : NSigma) (x : NIdx a.n),
    a.NValid ∧ NBuildEspace 64 a none (.ok (es, e0)) ∧ cotnlBuild 0 a.n es (some 1) none none = .ok sd ∧ p ∈ sd ∧ s ∈ p.2 ∧ p.1 = ((1, 0), (1, 0)) ∧ s.spins = (0, 0) ∧
      s.call 1 [[1, 0], [1, 0]] 0 1 = .ok 0 ∧ (x.1 : ℕ) = 1 ∧ (x.2 : ℕ) = 0 ∧
      IsTransfer a.n a.hamN false false [1, 0] [1, 0] (nVal a.n es x) (nVal a.n es x) 1 (nKet a.n es x) (nKet a.n es x) 1 := by
  obtain ⟨sK, gK, oK, lK⟩ := flat_run.get 0 (by simp)
  obtain ⟨sI, gI, oI, lI⟩ := flat_run.get 1 (by simp [hopArgs, freeArgs])
  obtain ⟨sJ, gJ, oJ, lJ⟩ := flat_run.get 2 (by simp [hopArgs, freeArgs])
  have hn : hopArgs.n = 2 := rfl
  have c1 : ((1 : ℕ) : ℤ) + 1 < 2 * hopArgs.n := by rw [hn]; norm_num
  have c2 : ¬ ((1 : ℕ) : ℤ) - 1 > 0 := by norm_num
  obtain ⟨sd, g1, -, g3, g4⟩ := cotnlBuild_lists (junk := 0) (N := 1) flat_run.le ⟨gI, oI⟩ (fun _ => ⟨gJ, oJ⟩) (fun h => absurd h c2) none (Or.inl c1)
    (K := nSctAt flatEs 0) (sK := sK)
  have hl : (nSctAt flatEs 1).eigvals.length = 4 := by rw [lI]; rfl
  have hk := (g3 ((1, 0), (1, 0))).mpr ⟨(0, 0), mem_ndindex2.mpr ⟨by rw [hl]; norm_num, by rw [hl]; norm_num⟩, rfl⟩
  obtain ⟨p, hp, e⟩ := List.mem_map.mp hk
  obtain ⟨fi, -, e1, e2⟩ := g4 p hp
  have hfi : fi = (0, 0) := by
    rw [e1] at e
    simp only [Prod.mk.injEq] at e
    exact Prod.ext e.1.2 e.2.2
  subst hfi
  refine ⟨hopArgs, flatEs, _, sd, p, sigmaOf hopArgs.n sK sI sJ (nSctAt flatEs 0) (nSctAt flatEs 1) (nSctAt flatEs 2) 1 (0, 0) (0, 0), oneUp, hopArgs_nvalid, mix_run false, g1, hp,
    e2.mem_iff.mpr (List.mem_map.mpr ⟨(0, 0), by decide, rfl⟩), e, rfl, ?_, rfl, rfl, ?_⟩
  · have hs := sigma_call (n := hopArgs.n) (s := sigmaOf hopArgs.n sK sI sJ (nSctAt flatEs 0) (nSctAt flatEs 1) (nSctAt flatEs 2) 1 (0, 0) (0, 0)) (by
      intro g hg
      unfold sigmaOf at hg
      rw [if_pos c1, if_neg c2] at hg
      simp only [List.append_nil, List.mem_cons, List.not_mem_nil, or_false] at hg
      subst hg
      exact shaped_up _ _ _ _ _ _ (flat_run.vals_ne (by simp [hopArgs, freeArgs])))
      (A := [[1, 0], [1, 0]]) (e := 0) (i := 1) (a := [1, 0]) (b := [1, 0]) rfl rfl rfl rfl 1
    have ha : ampSigma [1, 0] [1, 0] 1 (sigmaOf hopArgs.n sK sI sJ (nSctAt flatEs 0) (nSctAt flatEs 1) (nSctAt flatEs 2) 1 (0, 0) (0, 0)) = 0 := by
      unfold ampSigma sigmaOf
      rw [if_pos c1, if_neg c2]
      simp only [List.append_nil, List.map_cons, List.map_nil, List.sum_cons, List.sum_nil, add_zero]
      have h := up_amplitude flat_run (N := 1) (by simp [hopArgs, freeArgs]) oI oJ ⟨0, by simp [hopArgs, freeArgs]⟩ ⟨0, by simp [hopArgs, freeArgs]⟩ false false
        (v := [1, 0]) (w := [1, 0]) rfl rfl 1 (by
          intro x _
          rw [flat_val, flat_val]; norm_num)
      rw [flat_val, creSum_leadOp, annSum_leadOp] at h
      have h2 := amplitude_unique h (flat_electron hopArgs_hamN _ _)
      have h3 := flat_both
      rw [flat_removed] at h3
      have h4 := h2.trans (add_eq_right.mp h3)
      exact neg_eq_zero.mp h4
    rw [ha, zero_pow two_ne_zero] at hs
    exact hs
  · rw [flat_val]
    have h1 := flat_electron hopArgs_hamN (nKet 2 flatEs oneUp) (nKet 2 flatEs oneUp)
    have h2 := flat_hole hopArgs_hamN (nKet 2 flatEs oneUp) (nKet 2 flatEs oneUp)
    rw [← annSum_leadOp, ← creSum_leadOp] at h1 h2
    exact ⟨_, _, flat_both.symm, h1, h2⟩

/-- C170 is not vacuous: two sites, two electrons, at the energy one, away from all resonances. -/
example : ∃ (sd : List ((NId × NId) × List NSigma)) (p : (NId × NId) × List NSigma), cotnlBuild 0 2 flatEs (some 2) none none = .ok sd ∧ p ∈ sd ∧
    ∀ s ∈ p.2, ∃ r, s.call 1 [[1, 0], [1, 1]] 0 1 = .ok (r ^ 2) := by
  obtain ⟨sd, h1, -, h3, h4⟩ := C170_elements_partial hopArgs_nvalid (w := 64) (by simp [hopArgs, freeArgs]) (mix_run false) 0 (N := 2) (by norm_num) (by simp [hopArgs, freeArgs]) none
  have hk := (h3 ((2, 0), (2, 0))).mpr ⟨⟨0, by decide⟩, ⟨0, by decide⟩, rfl⟩
  obtain ⟨p, hp, -⟩ := List.mem_map.mp hk
  refine ⟨sd, p, h1, hp, fun s hs => ?_⟩
  obtain ⟨f, i, -, -, h5⟩ := h4 p hp
  obtain ⟨σ', σ, -, -, h6⟩ := h5 s hs
  obtain ⟨r, hr, -⟩ := h6 1 [[1, 0], [1, 1]] 0 1 [1, 0] [1, 1] rfl rfl rfl rfl (fun x _ => by
    have h1 := flat_val x
    have h2 := flat_val ⟨⟨2, by simp [hopArgs, freeArgs]⟩, f⟩
    unfold flatEs at h1 h2
    rw [h1, h2]; norm_num) (fun x _ => by
    have h1 := flat_val x
    have h2 := flat_val ⟨⟨2, by simp [hopArgs, freeArgs]⟩, i⟩
    unfold flatEs at h1 h2
    rw [h1, h2]; norm_num)
  exact ⟨r, hr⟩

end Edpyt
