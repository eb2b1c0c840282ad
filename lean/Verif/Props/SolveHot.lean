import Verif.Props.ImpSolve
/-!
# C119: a hot impurity for which `Gfimp.solve` returns the zero-temperature Green function
-/

namespace Edpyt
open Spec Matrix

/-- A `Gfimp` with one bath site after `fit` (level -1, no coupling) and `update(3)`. -/
noncomputable def hotImp : Imp := impAfter 1 (fun _ => 0) (fun _ => 0) [] (fun _ => -1) (fun _ => 0) [3]

/-- Its arguments with `U = 2`. -/
noncomputable def hotArgs : HamArgs := hotImp.args 2 2
theorem hotArgs_valid : hotArgs.Valid := impAfter_valid 1 _ _ [] _ _ [3] le_rfl (by norm_num) 2
theorem hot_00 : hotImp.H 0 0 = -3 := by
  simp [hotImp, impAfter, Imp.run, Imp.step, Imp.init]
/-- The energy of an occupation of the two sites. -/
def hotE (S : Finset (Fin (2 + 2))) : ℝ :=
  (if orb false (0 : Fin 2) ∈ S then -3 else 0) + (if orb false (1 : Fin 2) ∈ S then -1 else 0) + (if orb true (0 : Fin 2) ∈ S then -3 else 0) +
    (if orb true (1 : Fin 2) ∈ S then -1 else 0) + if orb false (0 : Fin 2) ∈ S ∧ orb true (0 : Fin 2) ∈ S then 2 else 0

theorem hot_ham : hotArgs.ham = (Matrix.diagonal hotE : Matrix (Finset (Fin (2 + 2))) (Finset (Fin (2 + 2))) ℝ) := by
  have h := (impAfter_only 1 (fun _ => 0) (fun _ => 0) [] (fun _ => -1) (fun _ => 0) [3] 2).ham
  have h1 : ∀ s, (((impAfter 1 (fun _ => 0) (fun _ => 0) [] (fun _ => -1) (fun _ => 0) [3]).args (1 + 1) 2).oneBody s : Matrix (Fin (1 + 1)) (Fin (1 + 1)) ℝ) =
      siam (-3) (fun _ => -1) (fun _ => 0) := fun s => by
    rw [impAfter_oneBody]
    have : (impAfter 1 (fun _ => 0) (fun _ => 0) [] (fun _ => -1) (fun _ => 0) [3]).H 0 0 = -3 := hot_00
    rw [this]
    congr 1
    funext k
    simp [keptCouplings]
  have hk : kinetic (n := 2) (fun _ i j => siam (nb := 1) (-3) (fun _ => -1) (fun _ => 0) i j) = ∑ s : Bool, ((-3 : ℝ) • num ℝ (orb s (0 : Fin 2)) + (-1 : ℝ) • num ℝ (orb s (1 : Fin 2))) := by
    unfold kinetic num
    refine Finset.sum_congr rfl fun s _ => ?_
    rw [Fin.sum_univ_two, Fin.sum_univ_two, Fin.sum_univ_two]
    have e00 : siam (nb := 1) (-3) (fun _ => -1) (fun _ => 0) (0 : Fin 2) (0 : Fin 2) = -3 := rfl
    have e01 : siam (nb := 1) (-3) (fun _ => -1) (fun _ => 0) (0 : Fin 2) (1 : Fin 2) = 0 := rfl
    have e10 : siam (nb := 1) (-3) (fun _ => -1) (fun _ => 0) (1 : Fin 2) (0 : Fin 2) = 0 := rfl
    have e11 : siam (nb := 1) (-3) (fun _ => -1) (fun _ => 0) (1 : Fin 2) (1 : Fin 2) = -1 := rfl
    simp only [e00, e01, e10, e11]
    simp
  have hi : ((impAfter 1 (fun _ => 0) (fun _ => 0) [] (fun _ => -1) (fun _ => 0) [3]).args (1 + 1) 2).impW (0 : Fin (1 + 1)) =
      (2 : ℝ) • (num ℝ (orb false (0 : Fin (1 + 1))) * num ℝ (orb true (0 : Fin (1 + 1)))) := by
    unfold HamArgs.impW
    simp only [Imp.args, VArg.array, Bool.false_eq_true, if_false, Option.getD_some, Fin.val_zero, and_self, if_true]
    change (2 : ℝ) • ((num ℝ (orb false (0 : Fin 2)) - (0 : ℝ) • (1 : Matrix (Finset (Fin (2 + 2))) (Finset (Fin (2 + 2))) ℝ)) * (num ℝ (orb true (0 : Fin 2)) - (0 : ℝ) • 1)) = _
    rw [zero_smul, sub_zero, sub_zero]
  have h2 : hotArgs.ham = (∑ s : Bool, ((-3 : ℝ) • num ℝ (orb s (0 : Fin 2)) + (-1 : ℝ) • num ℝ (orb s (1 : Fin 2))) +
      (2 : ℝ) • (num ℝ (orb false (0 : Fin 2)) * num ℝ (orb true (0 : Fin 2))) : Matrix (Finset (Fin (2 + 2))) (Finset (Fin (2 + 2))) ℝ) := by
    refine h.trans (congrArg₂ (· + ·) ?_ hi)
    refine Eq.trans ?_ hk
    exact congrArg (kinetic (n := 2)) (funext fun s => funext fun i => funext fun j => congrFun (congrFun (h1 s) i) j)
  refine h2.trans ?_
  ext T S
  simp only [num_diagonal, Matrix.diagonal_mul_diagonal, Fintype.sum_bool, Matrix.add_apply, Matrix.smul_apply, Matrix.diagonal_apply, hotE, smul_eq_mul]
  by_cases hTS : T = S
  · subst hTS
    simp only [if_true]
    by_cases c1 : orb false (0 : Fin 2) ∈ T <;> by_cases c2 : orb false (1 : Fin 2) ∈ T <;> by_cases c3 : orb true (0 : Fin 2) ∈ T <;> by_cases c4 : orb true (1 : Fin 2) ∈ T <;>
      simp only [c1, c2, c3, c4, if_true, if_false, and_true, and_false, true_and, false_and] <;> norm_num
  · simp [hTS]

theorem hotE_univ : hotE Finset.univ = -6 := by simp [hotE]; norm_num

theorem hotE_erase (s : Bool) : hotE (Finset.univ.erase (orb s (0 : Fin 2))) = -5 := by
  have h1 : orb false (0 : Fin 2) ≠ orb true (0 : Fin 2) := by decide
  have h2 : orb false (1 : Fin 2) ≠ orb true (0 : Fin 2) := by decide
  have h3 : orb true (1 : Fin 2) ≠ orb true (0 : Fin 2) := by decide
  have h4 : orb false (1 : Fin 2) ≠ orb false (0 : Fin 2) := by decide
  have h5 : orb true (1 : Fin 2) ≠ orb false (0 : Fin 2) := by decide
  cases s <;> simp [hotE, h1, h1.symm, h2, h3, h4, h5] <;> norm_num

theorem hotE_ge {S : Finset (Fin (2 + 2))} (h : S ≠ Finset.univ) : -5 ≤ hotE S := by
  unfold hotE
  by_cases c1 : orb false (0 : Fin 2) ∈ S <;> by_cases c2 : orb false (1 : Fin 2) ∈ S <;> by_cases c3 : orb true (0 : Fin 2) ∈ S <;> by_cases c4 : orb true (1 : Fin 2) ∈ S <;>
      simp only [c1, c2, c3, c4, if_true, if_false, and_true, and_false, true_and, false_and] <;> norm_num
  apply h
  ext x
  simp only [Finset.mem_univ, iff_true]
  have : x = orb false 0 ∨ x = orb false 1 ∨ x = orb true 0 ∨ x = orb true 1 := by revert x; decide
  rcases this with rfl | rfl | rfl | rfl <;> assumption


theorem resElem_eig {ι : Type} [Fintype ι] [DecidableEq ι] {A : Matrix ι ι ℝ} (hA : A.IsSymm) {z : ℂ} (hz : z.im ≠ 0) {y : ι → ℝ} {l : ℝ} (h : A *ᵥ y = l • y) :
    resElem z A y y = ((y ⬝ᵥ y : ℝ) : ℂ) / (z - l) := by
  have hne : z - (l : ℂ) ≠ 0 := by
    intro h0
    apply hz
    have := congrArg Complex.im h0
    simpa using this
  have h1 : resolvent z A *ᵥ (fun i => (y i : ℂ)) = fun i => (y i : ℂ) / (z - l) := by
    apply resolvent_mulVec hA hz
    intro i
    have := congrArg (fun x : ℝ => (x : ℂ)) (congrFun h i)
    simp only [Matrix.mulVec, dotProduct, Pi.smul_apply, smul_eq_mul] at this
    push_cast at this
    simp only [← mul_div_assoc, ← Finset.sum_div, this]
    field_simp
  unfold resElem
  rw [h1]
  simp only [dotProduct, ← mul_div_assoc, ← Finset.sum_div]
  push_cast
  rfl

theorem full_of_count (S : Finset (Fin (2 + 2))) : spinCount false S = 2 → spinCount true S = 2 → S = Finset.univ := by
  revert S; decide
theorem count_univ (s : Bool) : spinCount s (Finset.univ : Finset (Fin (2 + 2))) = 2 := by revert s; decide

theorem hot_state {q : ℕ × ℕ} {I : Sct} (h : SctSub 2 (Matrix.diagonal hotE) q I) {k : ℕ} (hk : k < I.eigvals.length) {S : Finset (Fin (2 + 2))} (hS : I.ket 2 k S ≠ 0) :
    I.eigvals[k]?.getD 0 = hotE S ∧ spinCount false S = q.1 ∧ spinCount true S = q.2 := by
  refine ⟨?_, ?_⟩
  · have := congrFun (h.eig k hk) S
    rw [Matrix.mulVec_diagonal, Pi.smul_apply, smul_eq_mul] at this
    exact (mul_right_cancel₀ hS this).symm
  · obtain ⟨up, dw, hok⟩ := h.ok
    unfold Sct.ket at hS
    simp only [hok.states] at hS
    exact ket_support hok.hup hok.hdw _ hS

theorem ket_ne {q : ℕ × ℕ} {I : Sct} {H : Matrix (Finset (Fin (2 + 2))) (Finset (Fin (2 + 2))) ℝ} (h : SctSub 2 H q I) {k : ℕ} (hk : k < I.eigvals.length) : ∃ S, I.ket 2 k S ≠ 0 := by
  by_contra hcon
  push Not at hcon
  have := h.ket_norm hk
  rw [show I.ket 2 k = 0 from funext hcon] at this
  simp at this

theorem hot_low {I : Sct} (h : SctSub 2 (Matrix.diagonal hotE) (2, 2) I) {k : ℕ} (hk : k < I.eigvals.length) :
    I.eigvals[k]?.getD 0 = -6 ∧ ∀ S, I.ket 2 k S ≠ 0 → S = Finset.univ := by
  have h2 : ∀ S, I.ket 2 k S ≠ 0 → S = Finset.univ := fun S hS => by
    obtain ⟨-, h1, h2⟩ := hot_state h hk hS
    exact full_of_count S h1 h2
  refine ⟨?_, h2⟩
  obtain ⟨S, hS⟩ := ket_ne h hk
  rw [(hot_state h hk hS).1, h2 S hS, hotE_univ]

theorem hot_high {q : ℕ × ℕ} (hq : q ≠ (2, 2)) {I : Sct} (h : SctSub 2 (Matrix.diagonal hotE) q I) {k : ℕ} (hk : k < I.eigvals.length) : -5 ≤ I.eigvals[k]?.getD 0 := by
  obtain ⟨S, hS⟩ := ket_ne h hk
  obtain ⟨h0, h1, h2⟩ := hot_state h hk hS
  rw [h0]
  apply hotE_ge
  rintro rfl
  rw [count_univ] at h1 h2
  apply hq
  ext
  · exact_mod_cast h1.symm
  · exact_mod_cast h2.symm

/-- The Green function of the state with every orbital occupied. -/
theorem hot_term (s : Bool) {x : Finset (Fin (2 + 2)) → ℝ} (hx : x ⬝ᵥ x = 1) (hs : ∀ S, x S ≠ 0 → S = Finset.univ) (β : ℝ) {z : ℂ} (hz : z.im ≠ 0) :
    sctTerm 2 (Matrix.diagonal hotE) (cre ℝ (orb s (0 : Fin 2))) β (-6) x (-6) z = 1 / (z + 1) := by
  have hB : cre ℝ (orb s (0 : Fin 2)) *ᵥ x = 0 := by
    funext T
    simp only [Matrix.mulVec, dotProduct, Pi.zero_apply]
    refine Finset.sum_eq_zero fun S _ => ?_
    by_cases hS : x S = 0
    · simp [hS]
    · rw [hs S hS]
      have : cre ℝ (orb s (0 : Fin 2)) T Finset.univ = 0 := by
        simp only [cre, ann, Matrix.transpose_apply, Matrix.of_apply]
        rw [if_neg]
        rintro ⟨-, h2⟩
        have := h2 ▸ Finset.mem_univ (orb s (0 : Fin 2))
        simp at this
      rw [this, zero_mul]
  have hy : ∀ T, ((cre ℝ (orb s (0 : Fin 2)))ᵀ *ᵥ x) T ≠ 0 → T = Finset.univ.erase (orb s (0 : Fin 2)) := by
    intro T hT
    by_contra hne
    apply hT
    simp only [Matrix.mulVec, dotProduct]
    refine Finset.sum_eq_zero fun S _ => ?_
    by_cases hS : x S = 0
    · simp [hS]
    · rw [hs S hS]
      have : (cre ℝ (orb s (0 : Fin 2)))ᵀ T Finset.univ = 0 := by
        simp only [cre, ann, Matrix.transpose_apply, Matrix.of_apply]
        rw [if_neg]
        rintro ⟨-, h2⟩
        exact hne h2
      rw [this, zero_mul]
  have hn := car_norm (c := 1) (B := cre ℝ (orb s (0 : Fin 2))) (by
    have := ann_cre_anticomm (R := ℝ) (orb s (0 : Fin 2)) (orb s (0 : Fin 2))
    rw [if_pos rfl] at this
    rw [one_smul, ← this]; simp [cre]) x
  rw [hB, hx] at hn
  simp only [zero_dotProduct, zero_add, mul_one] at hn
  unfold sctTerm
  have hsym : (Ladder.c.sign • (Matrix.diagonal hotE - (-6 : ℝ) • (1 : Matrix (Finset (Fin (2 + 2))) (Finset (Fin (2 + 2))) ℝ))).IsSymm := by
    unfold Matrix.IsSymm; simp
  have he : (Ladder.c.sign • (Matrix.diagonal hotE - (-6 : ℝ) • (1 : Matrix (Finset (Fin (2 + 2))) (Finset (Fin (2 + 2))) ℝ))) *ᵥ ((cre ℝ (orb s (0 : Fin 2)))ᵀ *ᵥ x) =
      (-1 : ℝ) • ((cre ℝ (orb s (0 : Fin 2)))ᵀ *ᵥ x) := by
    rw [Matrix.smul_mulVec, Matrix.sub_mulVec, Matrix.smul_mulVec, Matrix.one_mulVec]
    funext T
    simp only [Pi.smul_apply, Pi.sub_apply, smul_eq_mul, Matrix.mulVec_diagonal, Ladder.sign]
    by_cases hT : ((cre ℝ (orb s (0 : Fin 2)))ᵀ *ᵥ x) T = 0
    · simp [hT]
    · rw [hy T hT, hotE_erase]; ring
  rw [resElem_eig hsym hz he, hB, hn]
  simp [resElem]


variable {cfg : LancCfg} {w junk : ℕ} {beta : ℝ} {spin : Bool}

/-- At every temperature `solve` keeps the state with four electrons and nothing else. -/
theorem hot_gf (jk : ℝ) (hw : 2 ≤ w) (hc : cfg.Ok) (hβ : 0 ≤ beta) {r : Except PyErr SolveOut} (hr : ImpSolve cfg w junk hotArgs beta spin none false r) :
    ∃ out, r = .ok out ∧ (out.es.map Prod.fst = [(2, 2)] ∧ SubEspace 2 (Matrix.diagonal hotE) out.es ∧ 1 ≤ partition out.es beta out.egs) ∧ (∀ run ∈ out.log, run.d ≤ 4 ∧ run.Of cfg) ∧
      ∀ (e eta ε : ℝ), eta ≠ 0 → 0 ≤ ε → (∀ run ∈ out.log, run.ResLe ε) →
      ‖out.gf.call jk e eta - 1 / (e + Complex.I * eta + 1)‖ ≤ ε / eta ^ 2 + 2 * (cfg.delta ^ 2 / |eta|) := by
  have ha := hotArgs_valid
  have hw' : hotArgs.n ≤ w := hw
  obtain ⟨es, egs, h1, es', h2, h3, hr⟩ := impSolve_cases ha hw' hr
  have hE := buildEspace_eigen ha hw' h1
  have hS : SubEspace 2 (Matrix.diagonal hotE) es := by
    have : SubEspace 2 hotArgs.ham es := hE.subEspace
    rwa [hot_ham] at this
  obtain ⟨up, dw, a1, a2, a3, a4, a5, a6⟩ := hE.toCompleteEspace.at (u := 2) (d := 2) le_rfl le_rfl
  have hL : (sctAt es (2, 2)).eigvals.length = 1 := a6
  have hI := hS.sct _ a1
  have h6 := (hot_low hI (k := 0) (by simp only; omega)).1
  simp only at h6
  have hegs : egs = -6 := by
    obtain ⟨E, e1, ⟨p, hp, hpE⟩, hmin⟩ := buildEspace_least ha hw' h1
    have e1 : egs = E := by exact_mod_cast e1
    subst e1
    apply le_antisymm
    · apply hmin
      refine ⟨_, a1, ?_⟩
      rw [← h6, List.getElem?_eq_getElem (by omega)]
      simp
    · obtain ⟨k, hk, rfl⟩ := List.getElem_of_mem hpE
      by_cases hq : p.1 = (2, 2)
      · have hp' := hS.sct _ hp
        rw [hq] at hp'
        have := (hot_low hp' hk).1
        rw [List.getElem?_eq_getElem hk] at this
        simp only [Option.getD_some] at this
        exact this.ge
      · have := hot_high hq (hS.sct _ hp) hk
        rw [List.getElem?_eq_getElem hk] at this
        simp only [Option.getD_some] at this
        linarith
  subst hegs
  obtain ⟨k1, -⟩ := screen_weights' ha hw' h1 (β := beta) (by norm_num) hβ (by norm_num) (by norm_num) h2
  have hkeys : es'.map Prod.fst = [(2, 2)] := by
    obtain ⟨es'', c1, -, c3, -⟩ := C30_screen_espace es hE.subEspace.espaceOk (-6) (10 ^ 6) (1 / 10 ^ 9)
    obtain rfl : es'' = es' := by rw [h2] at c1; injection c1 with c1; exact c1.symm
    have hall : ∀ q ∈ es''.map Prod.fst, q = (2, 2) := by
      intro q hq
      rw [c3] at hq
      obtain ⟨p, hp, rfl⟩ := List.mem_map.mp hq
      obtain ⟨hp, hne⟩ := List.mem_filter.mp hp
      by_contra hq
      apply of_decide_eq_true hne
      unfold Spec.boltzmannPairs
      rw [List.filter_eq_nil_iff]
      intro x hx
      simp only [gt_iff_lt, decide_eq_true_eq, not_lt]
      obtain ⟨k, hk, hke⟩ := List.getElem_of_mem (List.of_mem_zip (a := x.1) (b := x.2) hx).1
      have := hot_high hq (hS.sct _ hp) hk
      rw [List.getElem?_eq_getElem hk] at this
      simp only [Option.getD_some, hke] at this
      have h7 : Real.exp (-10 ^ 6 * (x.1 - -6)) ≤ Real.exp (-10 ^ 6) := Real.exp_le_exp.mpr (by nlinarith)
      have h8 := Real.quadratic_le_exp_of_nonneg (x := 10 ^ 6) (by norm_num)
      rw [Real.exp_neg] at h7
      refine h7.trans ?_
      rw [one_div]
      exact inv_anti₀ (by norm_num) (le_trans (by norm_num) h8)
    have hnd := h3.nodup
    match hm : es''.map Prod.fst with
    | [] =>
      have : es'' = [] := by simpa using hm
      rw [this] at k1
      simp [partition] at k1
      linarith
    | [q] => rw [hall q (by rw [hm]; simp)]
    | q :: q' :: l =>
      rw [hm] at hnd hall
      have e1 := hall q (by simp)
      have e2 := hall q' (by simp)
      simp [e1, e2] at hnd
  have hW : sctWt beta (-6) (sctAt es (2, 2)) = 1 := by
    unfold sctWt
    rw [hL]
    simp [h6]
  rcases hr with ⟨x, hx, hr⟩ | ⟨e, hx, -⟩
  swap
  · obtain ⟨out, e1, -⟩ := gfBuild_sub (g := ⟨cfg, .sp, w, junk, hotArgs, beta, -6, spin⟩) (jk := jk) ha hw' hc (by change 0 < 2; norm_num) hE h3 hx
    cases e1
  obtain ⟨out, e1, hsub, hkeys', -, hgood, hK, hZ, hb⟩ := gfBuild_sub (g := ⟨cfg, .sp, w, junk, hotArgs, beta, -6, spin⟩) (jk := jk) ha hw' hc (by change 0 < 2; norm_num) hE h3 hx
  injection e1 with e1; subst e1
  rw [hkeys] at hZ hb
  simp only [List.map_cons, List.map_nil, List.sum_cons, List.sum_nil, add_zero, hW] at hK hZ hb
  have hK1 : partition es' beta (-6) = 1 := le_antisymm (hK.trans hZ) k1
  have hZ1 : x.gfe.Z = 1 := le_antisymm hZ (by rw [← hK1]; exact hK)
  refine ⟨_, hr, ⟨hkeys'.trans hkeys, by rw [← hot_ham]; exact hsub, ?_⟩, fun run hrun => ?_, fun e eta ε he hε hlog => ?_⟩
  · have := gfBuild_Z hx
    rw [hZ1] at this
    exact this.le
  · obtain ⟨⟨q, hq, hd⟩, hof⟩ := hgood run hrun
    refine ⟨?_, hof⟩
    have hd' : run.d = (2 : ℕ).choose q.1 * (2 : ℕ).choose q.2 := hd
    have h2 : ∀ m, (2 : ℕ).choose m ≤ 2 := fun m => by
      have := Nat.choose_le_middle m 2
      simpa using this
    rw [hd']
    exact Nat.mul_le_mul (h2 _) (h2 _)
  · have hz : (e + Complex.I * eta : ℂ).im ≠ 0 := by simpa using he
    have hv : sctVal 2 (Matrix.diagonal hotE) (cre ℝ (orb spin (0 : Fin 2))) beta (-6) (sctAt es (2, 2)) (e + Complex.I * eta) = 1 / (e + Complex.I * eta + 1) := by
      rw [sctVal_eq, hL]
      simp only [Finset.range_one, Finset.sum_singleton]
      rw [h6]
      exact hot_term spin (hI.ket_norm (by simp only; omega)) (hot_low hI (by simp only; omega)).2 beta hz
    rw [← hot_ham] at hv
    have h9 := hb e eta ε he hε hlog
    have hv' : sctVal hotArgs.n hotArgs.ham (cre ℝ (orb spin (⟨0, by change 0 < 2; norm_num⟩ : Fin hotArgs.n))) beta (-6) (sctAt es (2, 2)) (e + Complex.I * eta) =
      1 / (e + Complex.I * eta + 1) := hv
    rw [hv', hK1, hZ1] at h9
    simp only [sub_self, zero_mul, one_mul, zero_add] at h9
    have h10 : x.gfe.call jk e eta = fsum jk x.gfe.funcs e eta := by
      unfold GfL.call fsum
      rw [hZ1]; simp
    simp only
    rw [h10]
    exact h9


theorem hot_isolated : hotArgs.Isolated (⟨0, by change 0 < 2; norm_num⟩ : Fin hotArgs.n) := by
  refine ⟨fun s j hj => ?_, fun j hj => ?_, rfl, rfl⟩
  · have hj0 : (j : ℕ) ≠ 0 := fun h => hj (Fin.ext h)
    have hj2 : (j : ℕ) < 2 := j.2
    have hj1 : (j : ℕ) = 1 := by omega
    simp only [hj1]
    change |hotImp.H 0 1| ≤ _
    have : hotImp.H 0 1 = 0 := by simp [hotImp, impAfter, Imp.run, Imp.step, Imp.init, setArms, setFlatDiag]
    rw [this]; norm_num
  · have hj0 : (j : ℕ) ≠ 0 := fun h => hj (Fin.ext h)
    simp [hotArgs, Imp.args, VArg.array, hj0]

theorem hot_green (s : Bool) : IsGreen (ι := Finset (Fin (2 + 2))) (Real.log 2) hotArgs.ham (ann ℝ (orb s (0 : Fin 2))) (cre ℝ (orb s (0 : Fin 2))) (0 + Complex.I * (1 : ℝ))
    (3 / 11 / (Complex.I + 3) + 8 / 11 / (Complex.I + 1)) := by
  obtain ⟨es, hes⟩ := eigenEspace_exists hotArgs_valid
  have hd := hes.basis.diag (Fintype.equivOfCardEq hes.basis.card.symm)
  have h := (hot_isolated.pair hes.basis.symm s).isGreen hd (Real.log 2) (z := 0 + Complex.I * (1 : ℝ)) (by simp)
  have hl : ∀ s, hotArgs.siteLevel s (⟨0, by change 0 < 2; norm_num⟩ : Fin hotArgs.n) = -3 := fun s => by
    unfold HamArgs.siteLevel
    change hotImp.H 0 0 + 0 - (if false = true then _ else 0) = _
    rw [hot_00]; simp
  have hU : hotArgs.V.U.getD 0 ((⟨0, by change 0 < 2; norm_num⟩ : Fin hotArgs.n) : ℕ) ((⟨0, by change 0 < 2; norm_num⟩ : Fin hotArgs.n) : ℕ) = 2 := by
    simp [hotArgs, Imp.args, VArg.array]
  rw [hl, hl, hU] at h
  have e3 : Real.exp (-Real.log 2 * -3) = 8 := by
    rw [show -Real.log 2 * -3 = Real.log (2 ^ 3) by rw [Real.log_pow]; push_cast; ring, Real.exp_log (by norm_num)]; norm_num
  have e4 : Real.exp (-Real.log 2 * (-3 + -3 + 2)) = 16 := by
    rw [show -Real.log 2 * (-3 + -3 + 2) = Real.log (2 ^ 4) by rw [Real.log_pow]; push_cast; ring, Real.exp_log (by norm_num)]; norm_num
  have ho : atomicOcc (Real.log 2) (-3) (-3) 2 = 8 / 11 := by
    unfold atomicOcc
    rw [e3, e4]; norm_num
  have hg : atomicGreen (Real.log 2) (-3) (-3) 2 (0 + Complex.I * (1 : ℝ)) = 3 / 11 / (Complex.I + 3) + 8 / 11 / (Complex.I + 1) := by
    unfold atomicGreen
    rw [ho]
    push_cast
    congr 2 <;> ring
  rw [hg] at h
  exact h

/-- **C119** refuted: `Gfimp.solve` does not give the Green function at `self.beta`. For an object with one bath site after `fit` and `update`, every successful
call at `beta = log 2` returns a function that is off by more than `1/20` at `z = i`, whatever the Lanczos parameters. -/
theorem C119_refuted : ∃ (s : Imp) (U β : ℝ), 0 < β ∧ s = impAfter 1 (fun _ => 0) (fun _ => 0) [] (fun _ => -1) (fun _ => 0) [3] ∧ (s.args 2 U).Valid ∧
    ∀ (cfg : LancCfg) (w junk : ℕ) (jk : ℝ) (spin : Bool), cfg.Ok → 2 ≤ cfg.ND → (∀ x y, cfg.close x y = false) → 5 ≤ cfg.maxn → cfg.delta ≤ 1 / 100 → 2 ≤ w →
      (∃ r, ImpSolve cfg w junk (s.args 2 U) β spin none false r) ∧ ∀ r, ImpSolve cfg w junk (s.args 2 U) β spin none false r →
        ∃ out, r = .ok out ∧ ∃ gr, IsGreen (ι := Finset (Fin (2 + 2))) β (s.args 2 U).ham (ann ℝ (orb spin (0 : Fin 2))) (cre ℝ (orb spin (0 : Fin 2))) (0 + Complex.I * (1 : ℝ)) gr ∧
          1 / 20 < ‖out.gf.call jk 0 1 - gr‖ := by
  refine ⟨hotImp, 2, Real.log 2, Real.log_pos (by norm_num), rfl, hotArgs_valid, fun cfg w junk jk spin hc hND hclose hm hd hw => ⟨impSolve_exists hotArgs_valid hw hc (by change 0 < 2; norm_num) _ _, fun r hr => ?_⟩⟩
  obtain ⟨out, e1, -, hlog, hb⟩ := hot_gf jk hw hc (Real.log_pos (by norm_num)).le hr
  refine ⟨out, e1, _, hot_green spin, ?_⟩
  have h := hb 0 1 cfg.delta one_ne_zero hc.delta.le fun run hrun => LancRun.resLe_delta hc hND hclose (hlog run hrun).2 (by have := (hlog run hrun).1; omega)
  have hdz : (1 / ((0 : ℝ) + Complex.I * (1 : ℝ) + 1) - (3 / 11 / (Complex.I + 3) + 8 / 11 / (Complex.I + 1)) : ℂ) = 3 / 55 - 6 / 55 * Complex.I := by
    have h1 : Complex.I + 3 ≠ 0 := fun h => by have := congrArg Complex.im h; simp at this
    have h2 : Complex.I + 1 ≠ 0 := fun h => by have := congrArg Complex.im h; simp at this
    have e1 : ∀ c : ℂ, c / (Complex.I + 3) = c * ((3 - Complex.I) / 10) := fun c => by
      rw [div_eq_iff h1]
      linear_combination c / 10 * Complex.I_mul_I
    have e2 : ∀ c : ℂ, c / (Complex.I + 1) = c * ((1 - Complex.I) / 2) := fun c => by
      rw [div_eq_iff h2]
      linear_combination c / 2 * Complex.I_mul_I
    push_cast
    simp only [zero_add, mul_one]
    rw [e1, e2, e2]
    ring
  have h4 : 6 / 55 ≤ ‖(1 / ((0 : ℝ) + Complex.I * (1 : ℝ) + 1) - (3 / 11 / (Complex.I + 3) + 8 / 11 / (Complex.I + 1)) : ℂ)‖ := by
    rw [hdz]
    refine le_trans ?_ (Complex.abs_im_le_norm _)
    simp
    rw [abs_of_pos] <;> norm_num
  have h5 : ‖(1 / ((0 : ℝ) + Complex.I * (1 : ℝ) + 1) - (3 / 11 / (Complex.I + 3) + 8 / 11 / (Complex.I + 1)) : ℂ)‖ ≤
      ‖out.gf.call jk 0 1 - (1 / ((0 : ℝ) + Complex.I * (1 : ℝ) + 1) : ℂ)‖ + ‖out.gf.call jk 0 1 - (3 / 11 / (Complex.I + 3) + 8 / 11 / (Complex.I + 1))‖ := by
    rw [← norm_neg (out.gf.call jk 0 1 - (1 / ((0 : ℝ) + Complex.I * (1 : ℝ) + 1) : ℂ))]
    refine le_trans (le_of_eq ?_) (norm_add_le _ _)
    congr 1; ring
  have h6 : cfg.delta / 1 ^ 2 + 2 * (cfg.delta ^ 2 / |(1 : ℝ)|) ≤ 1 / 50 := by
    rw [abs_one]
    have := hc.delta
    nlinarith
  linarith

/-- The hypotheses of `C119_solve_partial`, `C119_spin_solve_partial` and `C118_screened` are met: this object at `beta = 10⁷`, where the neglected weight is below
`10⁻⁸⁰`. -/
example : ∃ cfg : LancCfg, cfg.Ok ∧ hotArgs.Valid ∧ hotArgs.n ≤ 64 ∧ 0 < hotArgs.n ∧ (∃ r, ImpSolve cfg 64 0 hotArgs (10 ^ 7) false none false r) ∧
    (∃ r, SpinImpSolve cfg 64 0 hotArgs (10 ^ 7) none false r) ∧ (∃ es egs, BuildEspace 64 hotArgs none (.ok (es, ((egs : ℝ) : WithTop ℝ)))) ∧
    2 * (4 ^ 2 * (1 / 10 ^ 9 : ℝ) ^ ((10 : ℝ) ^ 7 / 10 ^ 6)) / |(1 : ℝ)| ≤ 1 / 10 ^ 80 := by
  refine ⟨⟨20, 2, 1 / 100, fun _ _ => 0, fun _ _ => false⟩, ⟨by norm_num, by norm_num, by norm_num⟩, hotArgs_valid, by change 2 ≤ 64; norm_num, by change 0 < 2; norm_num,
    impSolve_exists hotArgs_valid (by change 2 ≤ 64; norm_num) ⟨by norm_num, by norm_num, by norm_num⟩ (by change 0 < 2; norm_num) _ _,
    spinImpSolve_exists hotArgs_valid (by change 2 ≤ 64; norm_num) ⟨by norm_num, by norm_num, by norm_num⟩ (by change 0 < 2; norm_num) _, ?_, ?_⟩
  · obtain ⟨⟨es, e0⟩, h⟩ := (buildEspace_none_ok hotArgs_valid (w := 64) (by change 2 ≤ 64; norm_num)).1
    obtain ⟨E, rfl, -⟩ := buildEspace_least hotArgs_valid (by change 2 ≤ 64; norm_num) h
    exact ⟨es, E, h⟩
  · rw [show (10 : ℝ) ^ 7 / 10 ^ 6 = ((10 : ℕ) : ℝ) by norm_num, Real.rpow_natCast, abs_one]
    norm_num

end Edpyt
