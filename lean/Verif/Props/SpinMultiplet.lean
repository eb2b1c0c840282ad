import Verif.Proof.Levels
/-!
# C130: spin multiplets
-/
namespace Edpyt
open Spec Matrix
variable {a : HamArgs} {w : ℕ} {es : Espace (ℕ × ℕ)} {E0 : WithTop ℝ}

/-- No spin exchange: `Jx` is absent, or its off-diagonal elements are so small that the code drops them. -/
def HamArgs.NoExchange (a : HamArgs) : Prop := ∀ A ∈ a.V.Jx, ∀ i j, i < a.n → j < a.n → i ≠ j → |A i j| ≤ 1 / 10 ^ 7

theorem ham_spinTurn (hs : a.SpinFree) (hx : a.NoExchange) (s : Bool) : Commute a.ham (spinTurn (n := a.n) s) := by
  have h0 : offdiag (n := a.n) (optMat a.V.Jx) = 0 := by
    funext i j
    unfold offdiag
    rw [if_neg]
    · rfl
    rintro ⟨hne, hgt⟩
    cases hJ : a.V.Jx with
    | none => rw [hJ] at hgt; norm_num [optMat] at hgt
    | some A =>
      rw [hJ] at hgt
      exact absurd (hx A (by rw [hJ]; rfl) i j i.2 j.2 fun hc => hne (Fin.ext hc)) (not_le.mpr hgt)
  have h1 : codeExchange (n := a.n) a.V.Jx a.V.Jp = pairHopping (offdiag (n := a.n) (optMat a.V.Jp)) := by
    unfold codeExchange
    rw [h0]
    simp [exchangeSame, exchangeFlip]
  unfold HamArgs.ham hubbard
  rw [h1]
  refine (((kinetic_comm s ?_).add_left (onsite_comm s _ _)).add_left (inter_comm s _ _)).add_left (pair_comm s _)
  funext i j
  simp only [Bool.false_eq_true, if_false, if_true]
  rw [kept_apply, kept_apply, hs i j i.2 j.2, hs i i i.2 i.2]

/-- The key of the sector with `p` electrons of spin `s` and `q` of the other. -/
def spinKey (s : Bool) (p q : ℕ) : ℕ × ℕ := if s then (q, p) else (p, q)

theorem step_count (hes : EigenEspace a.n a.ham es) (hs : a.SpinFree) (hx : a.NoExchange) (s : Bool) {p q : ℕ} (hp : p + 1 ≤ a.n) (hpq : q ≤ p) (x : ℝ) :
    (sctAt es (spinKey s (p + 1) q)).eigvals.count x ≤ (sctAt es (spinKey s p (q + 1))).eigvals.count x := by
  have hc := ham_spinTurn hs hx s
  have hg := grade_spinTurn (n := a.n) s
  cases s
  · have := level_transfer hes hes hc.symm.eq (p := p + 1) (q := q) (p' := p) (q' := q + 1) hp (by omega) (by omega) (by omega)
      (fun T S hTS h1 h2 => by
        have e1 := hg T S hTS false
        have e2 := hg T S hTS true
        simp only [if_true, Bool.true_eq_false, if_false] at e1 e2
        push_cast at h1 ⊢
        omega)
      (fun y hy h0 => spinTurn_inj false (c := (p + 1 : ℕ)) (d := q) (fun S hS => (hy S hS).1) (fun S hS => (hy S hS).2) (by push_cast; omega) h0) x
    exact this
  · have := level_transfer hes hes hc.symm.eq (p := q) (q := p + 1) (p' := q + 1) (q' := p) (by omega) hp (by omega) (by omega)
      (fun T S hTS h1 h2 => by
        have e1 := hg T S hTS false
        have e2 := hg T S hTS true
        simp only [if_true, Bool.false_eq_true, if_false] at e1 e2
        push_cast at h2 ⊢
        omega)
      (fun y hy h0 => spinTurn_inj true (c := (p + 1 : ℕ)) (d := q) (fun S hS => (hy S hS).2) (fun S hS => (hy S hS).1) (by push_cast; omega) h0) x
    exact this

theorem chain_count (hes : EigenEspace a.n a.ham es) (hs : a.SpinFree) (hx : a.NoExchange) (s : Bool) (x : ℝ) (m : ℕ) {p q : ℕ} (hp : p + m ≤ a.n) (hpq : q + m ≤ p + 1) :
    (sctAt es (spinKey s (p + m) q)).eigvals.count x ≤ (sctAt es (spinKey s p (q + m))).eigvals.count x := by
  induction m generalizing q with
  | zero => exact le_rfl
  | succ m ih =>
    refine (step_count hes hs hx s (p := p + m) (by omega) (by omega) x).trans ?_
    rw [show q + (m + 1) = q + 1 + m by omega]
    exact ih (by omega) (by omega)

theorem flip_count (hes : EigenEspace a.n a.ham es) (hs : a.SpinFree) {p q : ℕ} (hp : p ≤ a.n) (hq : q ≤ a.n) (x : ℝ) :
    (sctAt es (p, q)).eigvals.count x ≤ (sctAt es (q, p)).eigvals.count x := by
  have := level_transfer hes hes hs.invariant.ham hp hq hq hp (fun T S hTS h1 h2 => by
      simp only [permOp, Matrix.of_apply] at hTS
      have hT : T = S.map (modePerm true (Equiv.refl (Fin a.n))).toEmbedding := by
        by_contra hc
        exact hTS (if_neg hc)
      have key : ∀ (b : Bool) (i : Fin a.n), orb b i ∈ T ↔ orb (!b) i ∈ S := fun b i => by
        have := Finset.mem_map' (modePerm true (Equiv.refl (Fin a.n))).toEmbedding (a := orb (!b) i) (s := S)
        rw [Equiv.coe_toEmbedding, modePerm_orb] at this
        rw [hT]
        simpa using this
      have eu : upPart T = dwPart S := by
        ext i
        have := key false i
        simpa [orb, upPart, dwPart] using this
      have ed : dwPart T = upPart S := by
        ext i
        have := key true i
        simpa [orb, upPart, dwPart] using this
      simp only [spinCount, if_true, Bool.false_eq_true, if_false] at h1 h2 ⊢
      rw [eu, ed]
      exact ⟨h2, h1⟩)
    (fun y _ h0 => by
      have := congrArg ((permOp ℝ (modePerm true (Equiv.refl (Fin a.n))))ᵀ *ᵥ ·) h0
      simpa only [Matrix.mulVec_mulVec, permOp_orth, Matrix.one_mulVec, Matrix.mulVec_zero] using this) x
  exact this

/-- **C130** Without magnetic field and without spin exchange the levels form multiplets: a level of a sector occurs, at least as often, in every sector with as many electrons
and no larger spin polarisation. -/
theorem C130_multiplets_partial (ha : a.Valid) (hw : a.n ≤ w) (hs : a.SpinFree) (hx : a.NoExchange) (h : BuildEspace w a none (.ok (es, E0))) {p q p' q' : ℕ} {I J : Sct}
    (hI : ((p, q), I) ∈ es) (hJ : ((p', q'), J) ∈ es) (hN : p' + q' = p + q) (hpol : |(p' : ℤ) - q'| ≤ |(p : ℤ) - q|) (x : ℝ) : I.eigvals.count x ≤ J.eigvals.count x := by
  have hes := buildEspace_eigen ha hw h
  have b1 := mem_ndindex2.mp (hes.keys.mem_iff.mp (List.mem_map.mpr ⟨_, hI, rfl⟩))
  have b2 := mem_ndindex2.mp (hes.keys.mem_iff.mp (List.mem_map.mpr ⟨_, hJ, rfl⟩))
  simp only at b1 b2
  have e1 : sctAt es (p, q) = I := by unfold sctAt; rw [dictGet_mem hes.toCompleteEspace.nodup hI]
  have e2 : sctAt es (p', q') = J := by unfold sctAt; rw [dictGet_mem hes.toCompleteEspace.nodup hJ]
  rw [← e1, ← e2]
  clear hI hJ e1 e2 I J
  wlog hpq : q ≤ p generalizing p q
  · exact (flip_count hes hs (by omega) (by omega) x).trans (this (p := q) (q := p) (by omega) (by rwa [abs_sub_comm (q : ℤ)]) ⟨b1.2, b1.1⟩ (by omega))
  wlog hpq' : q' ≤ p' generalizing p' q'
  · exact (this (p' := q') (q' := p') ⟨b2.2, b2.1⟩ (by omega) (by rwa [abs_sub_comm (q' : ℤ)]) (by omega)).trans (flip_count hes hs (by omega) (by omega) x)
  rw [abs_of_nonneg (by omega), abs_of_nonneg (by omega)] at hpol
  have := chain_count hes hs hx false x (p - p') (p := p') (q := q) (by omega) (by omega)
  rwa [show p' + (p - p') = p by omega, show q + (p - p') = q' by omega] at this

/-- **C130** In particular the ground state energy for every number of electrons, and the energy `build_espace` returns, is found in the sector of lowest polarisation. -/
theorem C130_lowest_spin (ha : a.Valid) (hw : a.n ≤ w) (hs : a.SpinFree) (hx : a.NoExchange) (h : BuildEspace w a none (.ok (es, E0))) {p q : ℕ} {I J : Sct}
    (hI : ((p, q), I) ∈ es) (hJ : (((p + q + 1) / 2, (p + q) / 2), J) ∈ es) {x : ℝ} (hx' : x ∈ I.eigvals) : x ∈ J.eigvals := by
  rw [← List.count_pos_iff] at hx' ⊢
  refine lt_of_lt_of_le hx' (C130_multiplets_partial ha hw hs hx h hI hJ (by omega) ?_ x)
  have : |(((p + q + 1) / 2 : ℕ) : ℤ) - ((p + q) / 2 : ℕ)| = ((p + q) % 2 : ℕ) := by rw [abs_of_nonneg (by omega)]; omega
  rw [this]
  rcases le_total (p : ℤ) q with hc | hc
  · rw [abs_of_nonpos (by omega)]; omega
  · rw [abs_of_nonneg (by omega)]; omega

/-- Non-vacuity: the two-site Hubbard model meets the hypotheses; its triplet level of the sector `(2, 0)` is found in `(1, 1)`. -/
example : exampleArgs.Valid ∧ exampleArgs.SpinFree ∧ exampleArgs.NoExchange ∧ ∃ es E0, BuildEspace 64 exampleArgs none (.ok (es, E0)) ∧
    ∃ I J, ((2, 0), I) ∈ es ∧ ((1, 1), J) ∈ es ∧ ∃ x ∈ I.eigvals, x ∈ J.eigvals := by
  have hv := exampleArgs_valid
  have hw : exampleArgs.n ≤ 64 := by norm_num [exampleArgs]
  have hs : exampleArgs.SpinFree := fun i j _ _ => rfl
  have hx : exampleArgs.NoExchange := fun A hA => by cases hA
  obtain ⟨⟨es, E0⟩, h⟩ := (buildEspace_none_ok hv hw).1
  have hes : EigenEspace 2 exampleArgs.ham es := buildEspace_eigen hv hw h
  obtain ⟨-, -, hI, -, -, -, -, hlen⟩ := hes.toCompleteEspace.at (u := 2) (d := 0) le_rfl (by omega)
  obtain ⟨-, -, hJ, -⟩ := hes.toCompleteEspace.at (u := 1) (d := 1) (by omega) (by omega)
  have hk : 0 < (sctAt es (2, 0)).eigvals.length := by rw [hlen]; decide
  exact ⟨hv, hs, hx, es, E0, h, _, _, hI, hJ, _, List.getElem_mem hk, C130_lowest_spin hv hw hs hx h hI hJ (List.getElem_mem hk)⟩

/-- Two sites with hopping 1 and spin exchange `Jx = 1`. -/
noncomputable def exchArgs : HamArgs where
  n := 2
  H := fun _ i j => if i = j then 0 else 1
  V := { U := some fun _ _ => 0, Jx := some fun i j => if i = j then 0 else 1, Jp := none }
  z := none
  hf := false
  mu := 0

theorem exchArgs_valid : exchArgs.Valid := by
  refine ⟨le_rfl, by norm_num [exchArgs], rfl, fun s i j _ _ => ?_, fun A hA i j _ _ => ?_, (fun A hA => by cases hA), fun h => by cases h⟩
  · simp only [exchArgs, eq_comm]
  · obtain rfl := Option.some.inj hA
    simp only [eq_comm]

/-- Its Hamiltonian. -/
noncomputable def exchH : Matrix (Finset (Fin (2 + 2))) (Finset (Fin (2 + 2))) ℝ :=
  kinetic (fun _ i j => if i = j then 0 else 1) + (exchangeSame (fun i j => if i = j then 0 else 1) - exchangeFlip (fun i j => if i = j then 0 else 1))

theorem exch_ham : exchArgs.ham = exchH := by
  have e1 : ∀ (s : ℕ), kept (n := 2) exchArgs.mu (exchArgs.H s) = fun i j => if i = j then 0 else 1 := by
    intro s
    funext i j
    rw [kept_apply]
    by_cases h : i = j
    · simp [h, exchArgs]
    · have : ((i : ℕ) = j) = False := by simpa [Fin.ext_iff] using h
      simp only [h, exchArgs, this, if_false]
      norm_num
  have e2 : offdiag (n := 2) (optMat exchArgs.V.Jx) = fun i j => if i = j then 0 else 1 := by
    funext i j
    rw [show exchArgs.V.Jx = some (fun i j => if i = j then 0 else 1) from rfl]
    unfold offdiag optMat
    by_cases h : i = j
    · simp [h]
    · have : ((i : ℕ) = j) = False := by simpa [Fin.ext_iff] using h
      simp only [this, Option.getD_some, if_false]
      norm_num [h]
  have e3 : offdiag (n := 2) (optMat exchArgs.V.Jp) = fun i j => 0 := by
    funext i j
    rw [show exchArgs.V.Jp = none from rfl]
    simp [offdiag, optMat]
  unfold HamArgs.ham hubbard codeExchange exchH
  have e4 : onsiteU exchArgs.hf (fun i j : Fin exchArgs.n => exchArgs.V.U.getD 0 i j) = 0 := by
    rw [show exchArgs.V.U = some fun _ _ => 0 from rfl]
    simp [onsiteU]
  have e5 : ∀ z, interSite z (fun i j : Fin exchArgs.n => exchArgs.V.U.getD 0 i j) = 0 := by
    intro z
    rw [show exchArgs.V.U = some fun _ _ => 0 from rfl]
    simp [interSite]
  rw [e4, e5]
  simp only [add_zero]
  refine congrArg₂ _ (congrArg kinetic (funext fun s => e1 _)) ?_
  have e6 : pairHopping (offdiag (n := exchArgs.n) (optMat exchArgs.V.Jp)) = 0 := by
    rw [show offdiag (n := exchArgs.n) (optMat exchArgs.V.Jp) = fun i j => 0 from e3]; simp [pairHopping]
  rw [e6, add_zero]
  exact congrArg₂ _ (congrArg exchangeSame e2) (congrArg exchangeFlip e2)

theorem exch_sets : (({0, 2} : Finset (Fin (2 + 2))).erase 2 = {0}) ∧ (({1, 3} : Finset (Fin (2 + 2))).erase 3 = {1}) ∧ (({0, 3} : Finset (Fin (2 + 2))).erase 3 = {0}) ∧ (({1, 2} : Finset (Fin (2 + 2))).erase 2 = {1}) ∧
    (({0, 1} : Finset (Fin (2 + 2))).erase 1 = {0}) ∧ ({3, 0} : Finset (Fin (2 + 2))) = {0, 3} ∧ ({2, 0} : Finset (Fin (2 + 2))) = {0, 2} ∧ ({2, 1} : Finset (Fin (2 + 2))) = {1, 2} ∧ ({3, 1} : Finset (Fin (2 + 2))) = {1, 3} ∧ ({1, 0} : Finset (Fin (2 + 2))) = {0, 1} := by decide
theorem exch_card2 : ∀ i j k : Fin (2 + 2), ({x ∈ ({i, j} : Finset (Fin (2 + 2))) | k < x}).card = (if k < i then 1 else 0) + (if k < j ∧ i ≠ j then 1 else 0) := by decide
theorem exch_card1 : ∀ i k : Fin (2 + 2), ({x ∈ ({i} : Finset (Fin (2 + 2))) | k < x}).card = (if k < i then 1 else 0) := by decide
theorem exch_ord : ((0 : Fin (2 + 2)) < 2 ∧ (1 : Fin (2 + 2)) < 2 ∧ (0 : Fin (2 + 2)) < 3 ∧ (1 : Fin (2 + 2)) < 3 ∧ ((0 : Fin (2 + 2)) = 2) = False ∧ ((0 : Fin (2 + 2)) = 3) = False ∧ ((1 : Fin (2 + 2)) = 2) = False ∧
    ((1 : Fin (2 + 2)) = 3) = False ∧ ((2 : Fin (2 + 2)) = 0) = False ∧ ((3 : Fin (2 + 2)) = 0) = False) := by decide
theorem exch_col02 (T : Finset (Fin (2 + 2))) : exchH T {0, 2} = (if T = {1, 2} then 1 else 0) + (if T = {0, 3} then 1 else 0) := by
  unfold exchH kinetic exchangeSame exchangeFlip
  simp [orb, sgn, mul_ann_apply, cre_apply, mul_cre_apply]
  obtain ⟨f1, f2, f3, f4, f5, f6, f7, f8, f9, f10⟩ := exch_sets
  simp only [f1, f2, f3, f4, f5, f6, f7, f8, f9, f10, exch_card2, exch_card1, Finset.erase_singleton, insert_empty_eq]
  norm_num
  obtain ⟨l1, l2, l3, l4, l5, l6, l7, l8, l9, l10⟩ := exch_ord
  try simp only [l1, l2, l3, l4, l5, l6, l7, l8, l9, l10, true_and, not_false_eq_true, if_true, if_false, neg_neg]
  all_goals clear f1 f2 f3 f4 f5 f6 f7 f8 f9 f10 l1 l2 l3 l4 l5 l6 l7 l8 l9 l10
  all_goals (split_ifs <;> norm_num)
theorem exch_col13 (T : Finset (Fin (2 + 2))) : exchH T {1, 3} = (if T = {1, 2} then 1 else 0) + (if T = {0, 3} then 1 else 0) := by
  unfold exchH kinetic exchangeSame exchangeFlip
  simp [orb, sgn, mul_ann_apply, cre_apply, mul_cre_apply]
  obtain ⟨f1, f2, f3, f4, f5, f6, f7, f8, f9, f10⟩ := exch_sets
  simp only [f1, f2, f3, f4, f5, f6, f7, f8, f9, f10, exch_card2, exch_card1, Finset.erase_singleton, insert_empty_eq]
  norm_num
  obtain ⟨l1, l2, l3, l4, l5, l6, l7, l8, l9, l10⟩ := exch_ord
  try simp only [l1, l2, l3, l4, l5, l6, l7, l8, l9, l10, true_and, not_false_eq_true, if_true, if_false, neg_neg]
  all_goals clear f1 f2 f3 f4 f5 f6 f7 f8 f9 f10 l1 l2 l3 l4 l5 l6 l7 l8 l9 l10
  all_goals (split_ifs <;> norm_num)
theorem exch_col03 (T : Finset (Fin (2 + 2))) : exchH T {0, 3} = (if T = {1, 3} then 1 else 0) + (if T = {0, 2} then 1 else 0) + (if T = {1, 2} then -1 else 0) := by
  unfold exchH kinetic exchangeSame exchangeFlip
  simp [orb, sgn, mul_ann_apply, cre_apply, mul_cre_apply]
  obtain ⟨f1, f2, f3, f4, f5, f6, f7, f8, f9, f10⟩ := exch_sets
  simp only [f1, f2, f3, f4, f5, f6, f7, f8, f9, f10, exch_card2, exch_card1, Finset.erase_singleton, insert_empty_eq]
  norm_num
  obtain ⟨l1, l2, l3, l4, l5, l6, l7, l8, l9, l10⟩ := exch_ord
  try simp only [l1, l2, l3, l4, l5, l6, l7, l8, l9, l10, true_and, not_false_eq_true, if_true, if_false, neg_neg]
  all_goals clear f1 f2 f3 f4 f5 f6 f7 f8 f9 f10 l1 l2 l3 l4 l5 l6 l7 l8 l9 l10
  all_goals (split_ifs <;> norm_num)
theorem exch_col12 (T : Finset (Fin (2 + 2))) : exchH T {1, 2} = (if T = {0, 2} then 1 else 0) + (if T = {1, 3} then 1 else 0) + (if T = {0, 3} then -1 else 0) := by
  unfold exchH kinetic exchangeSame exchangeFlip
  simp [orb, sgn, mul_ann_apply, cre_apply, mul_cre_apply]
  obtain ⟨f1, f2, f3, f4, f5, f6, f7, f8, f9, f10⟩ := exch_sets
  simp only [f1, f2, f3, f4, f5, f6, f7, f8, f9, f10, exch_card2, exch_card1, Finset.erase_singleton, insert_empty_eq]
  norm_num
  obtain ⟨l1, l2, l3, l4, l5, l6, l7, l8, l9, l10⟩ := exch_ord
  try simp only [l1, l2, l3, l4, l5, l6, l7, l8, l9, l10, true_and, not_false_eq_true, if_true, if_false, neg_neg]
  all_goals clear f1 f2 f3 f4 f5 f6 f7 f8 f9 f10 l1 l2 l3 l4 l5 l6 l7 l8 l9 l10
  all_goals (split_ifs <;> norm_num)
theorem exch_col01 (T : Finset (Fin (2 + 2))) : exchH T {0, 1} = (if T = {0, 1} then -1 else 0) := by
  unfold exchH kinetic exchangeSame exchangeFlip
  simp [orb, sgn, mul_ann_apply, cre_apply, mul_cre_apply]
  obtain ⟨f1, f2, f3, f4, f5, f6, f7, f8, f9, f10⟩ := exch_sets
  simp only [f1, f2, f3, f4, f5, f6, f7, f8, f9, f10, exch_card2, exch_card1, Finset.erase_singleton, insert_empty_eq]
  norm_num
  obtain ⟨l1, l2, l3, l4, l5, l6, l7, l8, l9, l10⟩ := exch_ord
  try simp only [l1, l2, l3, l4, l5, l6, l7, l8, l9, l10, true_and, not_false_eq_true, if_true, if_false, neg_neg]
  all_goals clear f1 f2 f3 f4 f5 f6 f7 f8 f9 f10 l1 l2 l3 l4 l5 l6 l7 l8 l9 l10
  all_goals (split_ifs <;> norm_num)

theorem exch_support20 : ∀ S : Finset (Fin (2 + 2)), spinCount false S = (2 : ℕ) ∧ spinCount true S = (0 : ℕ) → S = {0, 1} := by decide

theorem exch_support11 : ∀ S : Finset (Fin (2 + 2)), spinCount false S = (1 : ℕ) ∧ spinCount true S = (1 : ℕ) → S ∈ ({{0, 2}, {1, 3}, {0, 3}, {1, 2}} : Finset (Finset (Fin (2 + 2)))) := by decide

/-- **C130** is false with spin exchange: for two sites with hopping 1 and `Jx = 1` every run of `build_espace` finds the level `-1` in the sector `(2, 0)` and not in `(1, 1)`,
because of the sign of the opposite spin term (C22). -/
theorem C130_refuted : exchArgs.Valid ∧ exchArgs.SpinFree ∧ (∃ r, BuildEspace 64 exchArgs none (.ok r)) ∧
    ∀ es E0, BuildEspace 64 exchArgs none (.ok (es, E0)) → ∀ I J, ((2, 0), I) ∈ es → ((1, 1), J) ∈ es → -1 ∈ I.eigvals ∧ -1 ∉ J.eigvals := by
  have hw : exchArgs.n ≤ 64 := by norm_num [exchArgs]
  refine ⟨exchArgs_valid, fun i j _ _ => rfl, (buildEspace_none_ok exchArgs_valid hw).1, fun es E0 h I J hI hJ => ?_⟩
  have hes : EigenEspace 2 exchH es := by
    have := buildEspace_eigen exchArgs_valid hw h
    rw [exch_ham] at this
    exact this
  obtain ⟨up, dw, hok, -⟩ := hes.ok _ hI
  obtain ⟨up', dw', hok', -⟩ := hes.ok _ hJ
  have hsum : ∀ (v : Finset (Fin (2 + 2)) → ℝ) (A : Finset (Finset (Fin (2 + 2)))), (∀ S, v S ≠ 0 → S ∈ A) → ∀ T, (exchH *ᵥ v) T = ∑ S ∈ A, exchH T S * v S := by
    intro v A hA T
    change ∑ S, exchH T S * v S = _
    refine (Finset.sum_subset (f := fun S => exchH T S * v S) (Finset.subset_univ A) fun S _ hS => ?_).symm
    have : v S = 0 := by by_contra hc; exact hS (hA S hc)
    simp only [this, mul_zero]
  constructor
  · obtain ⟨-, -, -, -, -, -, -, hlen⟩ := hes.toCompleteEspace.at (u := 2) (d := 0) le_rfl (by omega)
    have eI : sctAt es (2, 0) = I := by unfold sctAt; rw [dictGet_mem hes.toCompleteEspace.nodup hI]
    rw [eI] at hlen
    have hk : 0 < I.eigvals.length := by rw [hlen]; decide
    have hn := (hes.subEspace.sct _ hI).ket_norm hk
    have he := hes.eig _ hI 0 hk
    simp only at hn he
    have hsup : ∀ S, I.ket 2 0 S ≠ 0 → S ∈ ({{0, 1}} : Finset (Finset (Fin (2 + 2)))) := fun S hS => by
      rw [hok.ket_eq] at hS
      exact Finset.mem_singleton.mpr (exch_support20 S (ket_support hok.hup hok.hdw _ hS))
    have h1 := congrFun he {0, 1}
    rw [hsum _ _ hsup, Finset.sum_singleton, exch_col01, if_pos rfl, Pi.smul_apply, smul_eq_mul] at h1
    have hne : I.ket 2 0 {0, 1} ≠ 0 := by
      intro h0
      have hz : I.ket 2 0 = 0 := by
        funext S
        by_contra hc
        have := Finset.mem_singleton.mp (hsup S hc)
        subst this
        exact hc h0
      rw [hz] at hn
      simp at hn
    have h2 := mul_right_cancel₀ hne h1
    rw [h2, List.getElem?_eq_getElem hk]
    exact List.getElem_mem _
  · intro hm
    obtain ⟨k, hk, hk'⟩ := List.getElem_of_mem hm
    have hn := (hes.subEspace.sct _ hJ).ket_norm hk
    have he := hes.eig _ hJ k hk
    simp only at hn he
    rw [List.getElem?_eq_getElem hk, Option.getD_some, hk'] at he
    have hsup : ∀ S, J.ket 2 k S ≠ 0 → S ∈ ({{0, 2}, {1, 3}, {0, 3}, {1, 2}} : Finset (Finset (Fin (2 + 2)))) := fun S hS => by
      rw [hok'.ket_eq] at hS
      exact exch_support11 S (ket_support hok'.hup hok'.hdw _ hS)
    generalize J.ket 2 k = v at *
    have d1 : ({0, 2} : Finset (Fin (2 + 2))) ∉ ({{1, 3}, {0, 3}, {1, 2}} : Finset (Finset (Fin (2 + 2)))) := by decide
    have d2 : ({1, 3} : Finset (Fin (2 + 2))) ∉ ({{0, 3}, {1, 2}} : Finset (Finset (Fin (2 + 2)))) := by decide
    have d3 : ({0, 3} : Finset (Fin (2 + 2))) ∉ ({{1, 2}} : Finset (Finset (Fin (2 + 2)))) := by decide
    have eq : ∀ T, exchH T {0, 2} * v {0, 2} + (exchH T {1, 3} * v {1, 3} + (exchH T {0, 3} * v {0, 3} + exchH T {1, 2} * v {1, 2})) = -v T := by
      intro T
      have := congrFun he T
      rw [hsum _ _ hsup, Finset.sum_insert d1, Finset.sum_insert d2, Finset.sum_insert d3, Finset.sum_singleton, Pi.smul_apply, smul_eq_mul, neg_one_mul] at this
      exact this
    simp only [exch_col02, exch_col13, exch_col03, exch_col12] at eq
    have n1 : (({0, 2} : Finset (Fin (2 + 2))) = {1, 2}) = False ∧ (({0, 2} : Finset (Fin (2 + 2))) = {0, 3}) = False ∧ (({0, 2} : Finset (Fin (2 + 2))) = {1, 3}) = False ∧
      (({1, 3} : Finset (Fin (2 + 2))) = {1, 2}) = False ∧ (({1, 3} : Finset (Fin (2 + 2))) = {0, 3}) = False ∧ (({1, 3} : Finset (Fin (2 + 2))) = {0, 2}) = False ∧
      (({0, 3} : Finset (Fin (2 + 2))) = {1, 2}) = False ∧ (({0, 3} : Finset (Fin (2 + 2))) = {1, 3}) = False ∧ (({0, 3} : Finset (Fin (2 + 2))) = {0, 2}) = False ∧
      (({1, 2} : Finset (Fin (2 + 2))) = {0, 2}) = False ∧ (({1, 2} : Finset (Fin (2 + 2))) = {0, 3}) = False ∧ (({1, 2} : Finset (Fin (2 + 2))) = {1, 3}) = False := by decide
    obtain ⟨m1, m2, m3, m4, m5, m6, m7, m8, m9, m10, m11, m12⟩ := n1
    have q1 := eq {0, 2}
    have q2 := eq {1, 3}
    have q3 := eq {0, 3}
    have q4 := eq {1, 2}
    simp only [m1, m2, m3, m4, m5, m6, m7, m8, m9, m10, m11, m12, if_true, if_false] at q1 q2 q3 q4
    have z1 : v {0, 2} = 0 := by linarith
    have z2 : v {1, 3} = 0 := by linarith
    have z3 : v {0, 3} = 0 := by linarith
    have z4 : v {1, 2} = 0 := by linarith
    have hz : v = 0 := by
      funext S
      by_contra hc
      have := hsup S hc
      simp only [Finset.mem_insert, Finset.mem_singleton] at this
      rcases this with rfl | rfl | rfl | rfl
      · exact hc z1
      · exact hc z2
      · exact hc z3
      · exact hc z4
    rw [hz] at hn
    simp at hn

end Edpyt
