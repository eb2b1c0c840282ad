import Verif.Spec.NEspace
import Verif.Props.Espace
import Verif.Props.NonLocal
import Verif.Proof.EigenEspace
import Verif.Proof.NProject
/-!
Lemmas for `build_espace(…, symmetry='N')`.
-/
namespace Edpyt
open Spec Matrix

variable {a : HamArgs}

theorem occF_split (n s : ℕ) : occF (n + n) s = occ2 n (s % 2 ^ n) (s / 2 ^ n) := by
  unfold occ2; rw [Nat.mod_add_div]

theorem split_lt {n s : ℕ} (h : s < 2 ^ (n + n)) : s % 2 ^ n < 2 ^ n ∧ s / 2 ^ n < 2 ^ n :=
  ⟨Nat.mod_lt _ (by positivity), Nat.div_lt_of_lt_mul (by rwa [← pow_add])⟩

theorem split_inj {n s t : ℕ} : (s % 2 ^ n = t % 2 ^ n ∧ s / 2 ^ n = t / 2 ^ n) ↔ s = t :=
  ⟨fun h => by rw [← Nat.mod_add_div s (2 ^ n), ← Nat.mod_add_div t (2 ^ n), h.1, h.2], fun h => by rw [h]; exact ⟨rfl, rfl⟩⟩

theorem hubN_val (a : HamArgs) {t s : ℕ} (ht : t < 2 ^ (a.n + a.n)) (hs : s < 2 ^ (a.n + a.n)) :
    hubbard a.hf (fun _ (i j : Fin a.n) => if i = j then a.H 1 i i + a.mu else 0) (fun i => (a.z.getD (fun _ => if a.hf then 1 else 0)) i)
      (fun i j => a.V.U.getD 0 i j) (occF (a.n + a.n) t) (occF (a.n + a.n) s) =
    if t = s then localEnergy a.n (fun i => a.H 1 i i) (fun i => a.H 1 i i) (a.V.U.getD 0) (a.z.getD (fun _ => if a.hf then 1 else 0)) a.hf a.mu
      (s % 2 ^ a.n) (s / 2 ^ a.n) else 0 := by
  let Hd : ℕ → ℕ → ℕ → ℝ := fun _ i j => if i = j then a.H 1 i i else 0
  have hk : (fun (_ : Bool) (i j : Fin a.n) => if i = j then a.H 1 i i + a.mu else 0) = fun s => kept (n := a.n) a.mu (Hd (if s then 1 else 0)) := by
    funext s i j
    rw [kept_apply]
    by_cases h : i = j
    · simp [h, Hd]
    · have h' : (i : ℕ) ≠ j := fun e => h (Fin.ext e)
      simp [h, Hd, h']
  have ho : ∀ s, offdiag (n := a.n) (Hd s) = 0 := by
    intro s; funext i j
    simp only [offdiag, Hd, Pi.zero_apply]
    by_cases h : i = j
    · simp [h]
    · have h' : (i : ℕ) ≠ j := fun e => h (Fin.ext e)
      simp [h']
  have ht' := split_lt ht
  have hs' := split_lt hs
  rw [hk, occF_split, occF_split, hubbard_occ2 a.hf a.mu Hd _ _ ht'.1 ht'.2 hs'.1 hs'.2]
  simp only [ho, oneBody, Pi.zero_apply, zero_smul, Finset.sum_const_zero, Matrix.zero_apply, zero_mul, mul_zero, add_zero, split_inj]
  simp [Hd]

theorem hamN_symm (ha : a.NValid) (T S : Finset (Fin (a.n + a.n))) : a.hamN T S = a.hamN S T := by
  obtain ⟨t, ht, rfl⟩ := occF_surj T
  obtain ⟨s, hs, rfl⟩ := occF_surj S
  have hx : ∀ i j : Fin a.n, offdiag (n := a.n) (optMat a.V.Jx) i j = offdiag (n := a.n) (optMat a.V.Jx) j i := by
    apply offdiag_symm
    intro i j hi hj
    cases h : a.V.Jx with
    | none => rfl
    | some A => exact ha.symmX A (by rw [h]; rfl) i j hi hj
  have hp : ∀ i j : Fin a.n, offdiag (n := a.n) (optMat a.V.Jp) i j = offdiag (n := a.n) (optMat a.V.Jp) j i := by
    apply offdiag_symm
    intro i j hi hj
    cases h : a.V.Jp with
    | none => rfl
    | some A => exact ha.symmP A (by rw [h]; rfl) i j hi hj
  have h0 : ∀ i : Fin a.n, offdiag (n := a.n) (optMat a.V.Jx) i i = 0 := by intro i; simp [offdiag]
  unfold HamArgs.hamN
  simp only [Matrix.add_apply]
  rw [hubN_val a ht hs, hubN_val a hs ht, exchange_split, Matrix.add_apply, Matrix.add_apply, exchangeFlip_symm _ hx, pairHopping_symm _ hp,
    occF_split a.n t, occF_split a.n s, exchangeSame_occ2 _ h0 (split_lt hs).1, exchangeSame_occ2 _ h0 (split_lt ht).1]
  by_cases e : t = s
  · subst e; simp
  · have e' : ¬ s = t := fun h => e h.symm
    have e2 : ¬ occ2 a.n (t % 2 ^ a.n) (t / 2 ^ a.n) = occ2 a.n (s % 2 ^ a.n) (s / 2 ^ a.n) := by
      rw [← occF_split, ← occF_split]; exact fun h => e (occF_inj ht hs h)
    rw [if_neg e, if_neg e', if_neg e2, if_neg (fun h => e2 h.symm)]

/-! ### Operators of a sector -/

theorem nElems_mem {n N : ℕ} {L : List ℕ} (hL : SectorList (n + n) N L) (bj : ℕ) (A : ℕ → ℕ → ℝ)
    (ops : ℕ → ℕ → ℕ × ℕ → Option (ℤ × ℕ)) (spins : List (ℕ × ℕ))
    (hops : ∀ (i j : Fin n) (sg) (r : ℤ × ℕ), sg ∈ spins → ops i j sg = some r → InSector (n + n) N r.2)
    {x : ℝ × ℤ} (hx : x ∈ nElems bj n L ops spins A) : 0 ≤ x.2 ∧ x.2 < L.length := by
  unfold nElems at hx
  rw [List.mem_flatMap] at hx
  obtain ⟨i, hi, hx⟩ := hx
  rw [List.mem_flatMap] at hx
  obtain ⟨j, hj, hx⟩ := hx
  rw [List.mem_range] at hi hj
  split at hx
  · rw [List.mem_flatMap] at hx
    obtain ⟨sg, hsg, hx⟩ := hx
    cases ho : ops i j sg with
    | none => rw [ho] at hx; simp at hx
    | some r =>
      rw [ho] at hx
      simp only [Option.elim, List.mem_singleton] at hx
      subst hx
      exact binsearch_range hL bj ((hL.mem _).mpr (hops ⟨i, hi⟩ ⟨j, hj⟩ sg r hsg ho))
  · simp at hx

theorem nEntries_mem {n N : ℕ} (hn : n + n ≤ 32) {L : List ℕ} (hL : SectorList (n + n) N L) (bj : ℕ) (Jx Jp : Option (ℕ → ℕ → ℝ)) {s : ℕ}
    (hs : s ∈ L) {x : ℝ × ℤ} (hx : x ∈ nEntries bj n L Jx Jp s) : 0 ≤ x.2 ∧ x.2 < L.length := by
  have hsS := (hL.mem s).mp hs
  have lt : ∀ (i : Fin n) (k : ℕ), k = 0 ∨ k = 1 → (i : ℕ) + k * n < n + n := by
    intro i k hk; have := i.2; rcases hk with rfl | rfl <;> omega
  unfold nEntries at hx
  rcases List.mem_append.mp hx with hx | hx
  · cases Jx with
    | none => simp at hx
    | some A =>
      refine nElems_mem hL bj A _ _ ?_ hx
      intro i j sg r hsg h
      have h1 : sg.1 = 0 ∨ sg.1 = 1 := by simp at hsg; rcases hsg with h | h | h | h <;> simp [h]
      have h2 : sg.2 = 0 ∨ sg.2 = 1 := by simp at hsg; rcases hsg with h | h | h | h <;> simp [h]
      rw [xOps, two_mul] at h
      exact fourOps_ok hn ⟨_, lt j _ h1⟩ ⟨_, lt i _ h2⟩ ⟨_, lt j _ h2⟩ ⟨_, lt i _ h1⟩ hsS h
  · cases Jp with
    | none => simp at hx
    | some A =>
      refine nElems_mem hL bj A _ _ ?_ hx
      intro i j sg r hsg h
      have h1 : sg.1 = 0 ∨ sg.1 = 1 := by simp at hsg; rcases hsg with h | h <;> simp [h]
      have h2 : sg.2 = 0 ∨ sg.2 = 1 := by simp at hsg; rcases hsg with h | h <;> simp [h]
      rw [pOps, two_mul] at h
      exact fourOps_ok hn ⟨_, lt j _ h1⟩ ⟨_, lt j _ h2⟩ ⟨_, lt i _ h2⟩ ⟨_, lt i _ h1⟩ hsS h

/-- The operators built for the sector of `N` electrons: their dense sum is the sector Hamiltonian. -/
theorem nBuild_core (ha : a.NValid) {w N : ℕ} (hw : a.n + a.n ≤ w) (hN : N ≤ a.n + a.n) {L : List ℕ}
    (hL : generateStates w (a.n + a.n) (N : ℤ) = .ok L) {r : Except PyErr (List (Op ℝ))} (h : a.Build (.total L) r) :
    ∃ diag m, r = .ok (.loc diag :: [.non m]) ∧ diag.length = L.length ∧ (∀ op ∈ [Op.non m], op.WF L.length ∧ op.diag1 = none) ∧
      IsSectorHamN a L ⟨L.length, fun i j => (((Op.loc diag) :: [Op.non m]).map fun op => op.val i j).sum⟩ := by
  have hS := sectorList_of_generate ha.le hw hN hL
  have hl : 0 < L.length := by rw [hS.len]; exact Nat.choose_pos hN
  obtain ⟨U, hU⟩ := Option.isSome_iff_exists.mp ha.hU
  have hJ : ¬ (a.V.Jx.isNone ∧ a.V.Jp.isNone) := by
    rintro ⟨h1, h2⟩
    rcases ha.hJ with h | h
    · rw [Option.isNone_iff_eq_none.mp h1] at h; simp at h
    · rw [Option.isNone_iff_eq_none.mp h2] at h; simp at h
  obtain ⟨jk, bj, h⟩ := h
  simp only [BuildMbHam, hU] at h
  obtain ⟨diag, hd, rfl⟩ := h
  obtain ⟨d1, d2⟩ := C18_n_local_energy a.n (by have := ha.le; omega) a.H U a.z a.hf a.mu L (fun s hs => ((hS.mem s).mp hs).1) diag hd
  obtain ⟨m, m1, m2⟩ := C22_nonlocal_fixed_N ha.le hw hN hL a.V.Jx a.V.Jp hJ jk bj
  obtain ⟨m', e1, e2, e3⟩ := nBuildNonLocal_core (n := a.n) hl jk bj a.V.Jx a.V.Jp hJ
  obtain rfl : m = m' := by rw [m1] at e1; exact Except.ok.inj e1
  refine ⟨diag, m, ?_, d1, ?_, rfl, ?_⟩
  · unfold mbHamTotal
    rw [if_pos ha.hJ, m1]; rfl
  · intro op hop
    rw [List.mem_singleton] at hop
    subst hop
    refine ⟨⟨wf_of_isCsr e2 ?_, ?_, ?_⟩, rfl⟩
    · intro x hx
      rw [e2.2.1, List.mem_map] at hx
      obtain ⟨y, hy, rfl⟩ := hx
      rw [List.mem_flatten] at hy
      obtain ⟨row, hrow, hy⟩ := hy
      obtain ⟨s, hs, rfl⟩ := List.mem_map.mp hrow
      rw [e3]
      exact nEntries_mem ha.le hS bj _ _ hs hy
    · rw [e3, e2.2.2.2]; simp
    · rw [e2.2.2.2]; simp
  · intro r c hr hc
    have br := (hS.mem _).mp (List.getElem_mem hr)
    have bc := (hS.mem _).mp (List.getElem_mem hc)
    rw [hamN_symm ha]
    unfold HamArgs.hamN
    rw [Matrix.add_apply, hubN_val a bc.1 br.1]
    simp only [List.map_cons, List.map_nil, List.sum_cons, List.sum_nil, add_zero, Op.val, hU, Option.getD_some]
    rw [m2 r c hr hc]
    congr 1
    by_cases e : r = c
    · subst e
      rw [if_pos rfl, if_pos rfl, d2 r hr]; rfl
    · rw [if_neg e, if_neg (fun h => e ((hS.nodup.getElem_inj_iff).mp h).symm)]

theorem nBuild_exists (ha : a.NValid) {L : List ℕ} : ∃ r, a.Build (.total L) r := by
  obtain ⟨U, hU⟩ := Option.isSome_iff_exists.mp ha.hU
  have hd : ∃ diag, NBuildHamLocal a.n a.H U a.z a.hf a.mu L diag := ⟨_, _, Interleaving.sequential _, rfl⟩
  obtain ⟨diag, hd⟩ := hd
  refine ⟨mbHamTotal ⟨fun _ => 0, fun _ => 0⟩ 0 a.n a.V L diag, ⟨⟨fun _ => 0, fun _ => 0⟩, 0, ?_⟩⟩
  simp only [BuildMbHam, hU]
  exact ⟨diag, hd, rfl⟩

theorem isSectorHamN_symm (ha : a.NValid) {L : List ℕ} {D : Dense ℝ} (hD : IsSectorHamN a L D) (i j : ℕ) (hi : i < D.size) (hj : j < D.size) :
    D.val i j = D.val j i := by
  rw [hD.size] at hi hj
  rw [hD.val i j hi hj, hD.val j i hj hi, hamN_symm ha]

/-- Outcome of `solve_sector` for a sector of fixed particle number. -/
theorem nSolveSector_spec (ha : a.NValid) {w N : ℕ} (hw : a.n + a.n ≤ w) (hN : N ≤ a.n + a.n) {L : List ℕ}
    (hL : generateStates w (a.n + a.n) (N : ℤ) = .ok L) {k : ℕ} (hk : 0 < k)
    {r : Except PyErr EigRes} (h : SolveSector a (.total L) L.length (some k) r) :
    (∃ w v, LowestPairsN a L k w v ∧ r = .ok (w, v)) ∨ (L.length < k ∧ 512 < L.length ∧ r = .error .runtimeError) := by
  simp only [SolveSector, Option.getD_some] at h
  by_cases hc : k = L.length ∨ L.length ≤ 512
  · rw [if_pos hc] at h
    left
    obtain ⟨r1, h1, rfl⟩ := h
    rcases h1 with ⟨e, he, -⟩ | ⟨ops, hb, h1⟩
    · obtain ⟨_, _, h, -⟩ := nBuild_core ha hw hN hL he; cases h
    · obtain ⟨diag, m, h, hd, hops, hDs⟩ := nBuild_core ha hw hN hL hb
      obtain rfl := Except.ok.inj h
      have hD := todense_eq (by simp) hd hops
      rcases h1 with ⟨e, he, -⟩ | ⟨D', w', v', hD', hE, rfl⟩
      · rw [hD] at he; cases he
      · rw [hD] at hD'
        obtain rfl := Except.ok.inj hD'
        refine ⟨_, _, ⟨_, w', v', hDs, hE, rfl, rfl⟩, ?_⟩
        simp only [Except.map, Except.ok.injEq]
        split_ifs with hlt
        · rfl
        · rw [List.take_of_length_le (by rw [hE.wlen]; simp only; omega), List.take_of_length_le (by rw [hE.vlen]; simp only; omega)]
  · rw [if_neg hc] at h
    rcases h with ⟨e, he, -⟩ | ⟨ops, hb, h1⟩
    · obtain ⟨_, _, h, -⟩ := nBuild_core ha hw hN hL he; cases h
    · rcases h1 with ⟨hbad, rfl⟩ | ⟨hok, D, w', v', hsz, hmv, hE, rfl⟩
      · right
        refine ⟨?_, by omega, rfl⟩
        by_contra hcon
        exact hbad (arpack_args_ok (by omega) hk (by omega))
      · left
        refine ⟨_, _, ⟨D, w', v', ?_, hE, rfl, rfl⟩, rfl⟩
        obtain ⟨diag, m, h, hd, hops, hDs⟩ := nBuild_core ha hw hN hL hb
        obtain rfl := Except.ok.inj h
        refine ⟨hsz, ?_⟩
        intro r c hr hc'
        rw [← hDs.val r c hr hc']
        let e : List ℝ := (List.range L.length).map fun i => if i = c then 1 else 0
        have hel : e.length = L.length := by simp [e]
        have hget : ∀ x, x < L.length → e[x]?.getD 0 = if x = c then 1 else 0 := by
          intro x hx; simp [e, hx]
        have hsum : ∀ f : ℕ → ℝ, ∑ x ∈ Finset.range L.length, f x * (e[x]?.getD 0) = f c := by
          intro f
          rw [Finset.sum_eq_single c]
          · rw [hget c hc']; simp
          · intro b hb hne; rw [hget b (Finset.mem_range.mp hb), if_neg hne, mul_zero]
          · intro hn; exact absurd (Finset.mem_range.mpr hc') hn
        obtain ⟨res, hres⟩ := C24_matvec_exists (Op.loc diag :: [Op.non m]) e
        have e1 := hmv e res hel hres
        have e2 := (matvecOperator_eq hd hops hel hres).2 r hr
        rw [e1] at e2
        simp only [List.getElem?_map, List.getElem?_range hr, Option.map_some, Option.getD_some] at e2
        rw [hsum, hsum] at e2
        exact e2

/-- `solve_sector` has a run. -/
theorem nSolveSector_exists (ha : a.NValid) {w N : ℕ} (hw : a.n + a.n ≤ w) (hN : N ≤ a.n + a.n) {L : List ℕ}
    (hL : generateStates w (a.n + a.n) (N : ℤ) = .ok L) (k : ℕ) : ∃ r, SolveSector a (.total L) L.length (some k) r := by
  obtain ⟨r, hb⟩ := nBuild_exists ha (L := L)
  obtain ⟨diag, m, rfl, hd, hops, hDs⟩ := nBuild_core ha hw hN hL hb
  have hD := todense_eq (by simp) hd hops
  obtain ⟨w', v', hE⟩ := eigh_exists _ (isSectorHamN_symm ha hDs)
  simp only [SolveSector, Option.getD_some]
  by_cases hc : k = L.length ∨ L.length ≤ 512
  · simp only [if_pos hc]
    exact ⟨_, _, Or.inr ⟨_, hb, Or.inr ⟨_, w', v', hD, hE, rfl⟩⟩, rfl⟩
  · simp only [if_neg hc]
    by_cases hok : ArpackArgsOk L.length k (arpackNcv L.length k)
    · refine ⟨_, Or.inr ⟨_, hb, Or.inr ⟨hok, _, w', v', rfl, ?_, hE, rfl⟩⟩⟩
      intro vec result hv hm
      obtain ⟨f1, f2⟩ := matvecOperator_eq hd hops hv hm
      apply List.ext_getElem?
      intro i
      by_cases hi : i < L.length
      · have := f2 i hi
        rw [List.getElem?_eq_getElem (by rw [f1]; exact hi)] at this ⊢
        simp only [Option.getD_some] at this
        rw [this]
        simp [hi]
      · rw [List.getElem?_eq_none (by rw [f1]; omega), List.getElem?_eq_none (by simp; omega)]
    · exact ⟨_, Or.inr ⟨_, hb, Or.inl ⟨hok, rfl⟩⟩⟩

/-! ### Eigenvectors on the Fock space -/

theorem ketN_at {m N : ℕ} {L : List ℕ} (hL : SectorList m N L) (v : ℕ → ℝ) (b : Fin L.length) : ketN m L v (occF m L[b]) = v b := by
  unfold ketN
  rw [Finset.sum_eq_single b]
  · simp
  · intro c _ hne
    rw [if_neg]
    intro h
    have := occF_inj ((hL.mem _).mp (List.getElem_mem b.2)).1 ((hL.mem _).mp (List.getElem_mem c.2)).1 h
    exact hne (Fin.ext ((hL.nodup.getElem_inj_iff).mp this)).symm
  · simp

theorem ketN_support {m N : ℕ} {L : List ℕ} (hL : SectorList m N L) (v : ℕ → ℝ) {S : Finset (Fin m)} (h : ketN m L v S ≠ 0) : S.card = N := by
  unfold ketN at h
  obtain ⟨b, -, h⟩ := Finset.exists_ne_zero_of_sum_ne_zero h
  split at h
  · rename_i hS
    have hb := (hL.mem _).mp (List.getElem_mem b.2)
    subst hS
    simp only [Fin.getElem_fin]
    rw [card_occF hb.1]; exact_mod_cast hb.2
  · exact absurd rfl h

theorem sectorN_exists {m N : ℕ} {L : List ℕ} (hL : SectorList m N L) {T : Finset (Fin m)} (h : T.card = N) : ∃ b : Fin L.length, T = occF m L[b] := by
  obtain ⟨s, hs, rfl⟩ := occF_surj T
  rw [card_occF hs] at h
  obtain ⟨i, hi, e⟩ := List.getElem_of_mem ((hL.mem s).mpr ⟨hs, by exact_mod_cast h⟩)
  exact ⟨⟨i, hi⟩, by simp only [Fin.getElem_fin, e]⟩

theorem ketN_mulVec {m : ℕ} (A : Matrix (Finset (Fin m)) (Finset (Fin m)) ℝ) (L : List ℕ) (v : ℕ → ℝ) (T : Finset (Fin m)) :
    (A *ᵥ ketN m L v) T = ∑ b : Fin L.length, A T (occF m L[b]) * v b := by
  simp only [Matrix.mulVec, dotProduct, ketN, Finset.mul_sum]
  rw [Finset.sum_comm]
  apply Finset.sum_congr rfl; intro b _
  simp

theorem ketN_inner {m N : ℕ} {L : List ℕ} (hL : SectorList m N L) (x y : ℕ → ℝ) : ketN m L x ⬝ᵥ ketN m L y = ∑ r ∈ Finset.range L.length, x r * y r := by
  have := ketN_dot m L L x y 1
  rw [Matrix.one_mulVec] at this
  rw [this, Finset.sum_range]
  apply Finset.sum_congr rfl; intro b _
  rw [Finset.sum_eq_single b]
  · simp
  · intro c _ hne
    rw [Matrix.one_apply, if_neg, zero_mul]
    intro h
    have := occF_inj ((hL.mem _).mp (List.getElem_mem c.2)).1 ((hL.mem _).mp (List.getElem_mem b.2)).1 h
    exact hne (Fin.ext ((hL.nodup.getElem_inj_iff).mp this))
  · simp

theorem ketN_perp {m N N' : ℕ} {L L' : List ℕ} (hL : SectorList m N L) (hL' : SectorList m N' L') (hne : N ≠ N') (x y : ℕ → ℝ) :
    ketN m L x ⬝ᵥ ketN m L' y = 0 := by
  apply Finset.sum_eq_zero; intro S _
  by_contra h
  exact hne ((ketN_support hL x (left_ne_zero_of_mul h)).symm.trans (ketN_support hL' y (right_ne_zero_of_mul h)))

theorem card_spinCount {n : ℕ} (S : Finset (Fin (n + n))) : (S.card : ℤ) = spinCount false S + spinCount true S := by
  have h1 : ∀ {m : ℕ} (S : Finset (Fin m)), S.card = ∑ x : Fin m, if x ∈ S then 1 else 0 := by
    intro m S; rw [Finset.sum_ite_mem, Finset.univ_inter, Finset.card_eq_sum_ones]
  simp only [spinCount, Bool.false_eq_true, if_false, if_true]
  rw [h1 S, h1 (upPart S), h1 (dwPart S), Fin.sum_univ_add]
  push_cast
  simp

theorem grade_hamN (a : HamArgs) : Grade a.hamN 0 := by
  have mul0 : ∀ {A B : Matrix (Finset (Fin (a.n + a.n))) (Finset (Fin (a.n + a.n))) ℝ}, Grade A 0 → Grade B 0 → Grade (A * B) 0 :=
    fun ha hb => (ha.mul hb).of_eq fun s => by simp
  unfold HamArgs.hamN hubbard
  refine Grade.add (Grade.add (Grade.add ?_ ?_) ?_) (Grade.add ?_ ?_)
  · refine Grade.sum fun s _ => Grade.sum fun i _ => Grade.sum fun j _ => Grade.smul ?_ _
    exact ((grade_cre s i).mul (grade_ann s j)).of_eq fun s' => by simp only [Pi.add_apply, Pi.zero_apply]; split <;> simp
  · refine Grade.sum fun i _ => Grade.smul (mul0 ?_ ?_) _
    · exact (grade_num false i).sub (grade_one.smul _)
    · exact (grade_num true i).sub (grade_one.smul _)
  · refine Grade.smul (Grade.sum fun i _ => Grade.sum fun j _ => Grade.smul (mul0 ?_ ?_) _) _
    · exact ((grade_num false i).add (grade_num true i)).sub (grade_one.smul _)
    · exact ((grade_num false j).add (grade_num true j)).sub (grade_one.smul _)
  · unfold spinExchange
    refine Grade.smul (Grade.sum fun i _ => Grade.sum fun j _ => Grade.smul (Grade.sum fun s _ => Grade.sum fun s' _ => ?_) _) _
    refine ((((grade_cre s i).mul (grade_cre s' j)).mul (grade_ann s' i)).mul (grade_ann s j)).of_eq fun t => ?_
    simp only [Pi.add_apply, Pi.zero_apply]
    cases s <;> cases s' <;> cases t <;> simp
  · unfold pairHopping
    refine Grade.smul (Grade.sum fun i _ => Grade.sum fun j _ => Grade.smul (Grade.sum fun s _ => ?_) _) _
    refine ((((grade_cre s i).mul (grade_cre (!s) i)).mul (grade_ann (!s) j)).mul (grade_ann s j)).of_eq fun s' => ?_
    cases s <;> cases s' <;> simp

/-- The Hamiltonian conserves the number of electrons. -/
theorem hamN_card (a : HamArgs) {T S : Finset (Fin (a.n + a.n))} (h : a.hamN T S ≠ 0) : T.card = S.card := by
  have h0 := grade_hamN a T S h
  have h1 := h0 false
  have h2 := h0 true
  have e1 := card_spinCount T
  have e2 := card_spinCount S
  simp only [Pi.zero_apply, add_zero] at h1 h2
  rw [h1, h2] at e1
  exact_mod_cast e1.trans e2.symm

theorem sectorN_eigen {N : ℕ} {L : List ℕ} (hL : SectorList (a.n + a.n) N L) {D : Dense ℝ} (hD : IsSectorHamN a L D) {v : ℕ → ℝ} {E : ℝ}
    (he : ∀ r, r < D.size → ∑ c ∈ Finset.range D.size, D.val r c * v c = E * v r) :
    a.hamN *ᵥ ketN (a.n + a.n) L v = E • ketN (a.n + a.n) L v := by
  funext T
  rw [ketN_mulVec, Pi.smul_apply, smul_eq_mul]
  by_cases hT : T.card = N
  · obtain ⟨b, hb⟩ := sectorN_exists hL hT
    rw [hb, ketN_at hL, ← he b (by rw [hD.size]; exact b.2), hD.size, Finset.sum_range]
    apply Finset.sum_congr rfl; intro c _
    rw [hD.val b c b.2 c.2]; rfl
  · have h0 : ketN (a.n + a.n) L v T = 0 := by
      by_contra h
      exact hT (ketN_support hL v h)
    rw [h0, mul_zero]
    apply Finset.sum_eq_zero; intro b _
    by_contra h
    apply hT
    rw [hamN_card a (left_ne_zero_of_mul h)]
    have hb := (hL.mem _).mp (List.getElem_mem b.2)
    simp only [Fin.getElem_fin]
    rw [card_occF hb.1]; exact_mod_cast hb.2

end Edpyt
