import Verif.Props.NLevels
/-!
C169: runs of `build_espace(…, symmetry='N')` with given eigenvectors, and rates between single states.
-/
namespace Edpyt
open Spec Matrix

/-! ## Runs with given eigenvectors -/

/-- The sector of `N` electrons with the eigenpairs `ch N`. -/
def nChosenSct (w n : ℕ) (ch : ℕ → EigRes) (N : ℕ) : Sct := ⟨.total (gs w (n + n) N), (gs w (n + n) N).length, (ch N).1, (ch N).2⟩

/-- The espace with the eigenpairs `ch`. -/
def nChosen (w n : ℕ) (ch : ℕ → EigRes) : Espace ℕ := (List.range (2 * n + 1)).map fun N => (N, nChosenSct w n ch N)

theorem forR_nChosen {a : HamArgs} {w : ℕ} {ch : ℕ → EigRes} {l : List ℕ} (L : List ℕ) (hL : L.Nodup)
    (hstep : ∀ N ∈ L, ∃ k, getItem l (N : ℕ) = .ok (k + 1) ∧
      SolveSector a (.total (gs w (a.n + a.n) N)) (gs w (a.n + a.n) N).length (some (k + 1)) (.ok (ch N)) ∧ (ch N).1.length ≠ 0) :
    ∀ (st : Espace ℕ × WithTop ℝ), (∀ q ∈ L, q ∉ st.1.map Prod.fst) →
    ForR (EspaceStep a (fun q => q) l) (L.map (nItem w a.n)) st
      (.ok (st.1 ++ L.map (fun q => (q, nChosenSct w a.n ch q)), L.foldl (fun e q => min (eigMin (ch q).1) e) st.2)) := by
  induction L with
  | nil => intro st _; simp [ForR]
  | cons q L ih =>
    intro st hst
    obtain ⟨k, h1, h2, h3⟩ := hstep q (List.mem_cons_self ..)
    rw [List.map_cons]
    refine Or.inl ⟨(dictSet st.1 q (nChosenSct w a.n ch q), min (eigMin (ch q).1) st.2), ?_, ?_⟩
    · unfold EspaceStep
      simp only [nItem_eq, h1]
      exact Or.inr ⟨(ch q).1, (ch q).2, h2, by rw [if_neg h3]; rfl⟩
    · have hq : q ∉ st.1.map Prod.fst := hst q (List.mem_cons_self ..)
      have e : dictSet st.1 q (nChosenSct w a.n ch q) = st.1 ++ [(q, nChosenSct w a.n ch q)] := by
        unfold dictSet; rw [if_neg hq]
      have := ih (List.nodup_cons.mp hL).2 (fun q' hq' => hstep q' (List.mem_cons_of_mem _ hq'))
        (dictSet st.1 q (nChosenSct w a.n ch q), min (eigMin (ch q).1) st.2) (by
          intro q' hq'
          have h4 := hst q' (List.mem_cons_of_mem _ hq')
          have h5 : q' ≠ q := fun h => (List.nodup_cons.mp hL).1 (h ▸ hq')
          rw [e, List.map_append, List.mem_append]
          simp [h4, h5])
      rw [List.map_cons, List.foldl_cons]
      rw [e] at this ⊢
      rw [List.append_assoc] at this
      exact this

/-- Every choice of eigenvectors that `eigh` may return is a run. -/
theorem nChosen_run {a : HamArgs} (ha : a.NValid) {w : ℕ} (hw : a.n + a.n ≤ w) {ch : ℕ → EigRes}
    (hch : ∀ N ≤ a.n + a.n, ∀ D, IsSectorHamN a (gs w (a.n + a.n) N) D → Eigh D (ch N).1 (ch N).2) :
    NBuildEspace w a none (.ok (nChosen w a.n ch, (List.range (2 * a.n + 1)).foldl (fun e q => min (eigMin (ch q).1) e) ⊤)) := by
  rw [nBuild_none]
  simp only [NBuildEspace, neigOrDefault, nIterSectors_eq, EspaceLoop]
  have := forR_nChosen (a := a) (w := w) (ch := ch) (l := nDims a.n) (List.range (2 * a.n + 1)) List.nodup_range (by
    intro N hN
    have hN' : N ≤ a.n + a.n := by have := List.mem_range.mp hN; omega
    have hL := nGs w a.n N hN'
    obtain ⟨r, hb⟩ := nBuild_exists ha (L := gs w (a.n + a.n) N)
    obtain ⟨diag, m, rfl, hd, hops, hDs⟩ := nBuild_core ha hw hN' hL hb
    have hD := todense_eq (by simp) hd hops
    have he := hch N hN' _ hDs
    have hpos := Nat.choose_pos hN'
    obtain ⟨k, hk⟩ := Nat.exists_eq_succ_of_ne_zero hpos.ne'
    have hlen : (gs w (a.n + a.n) N).length = k + 1 := by rw [gs_length hN', hk]
    refine ⟨k, ?_, ?_, ?_⟩
    · rw [getItem_natCast _ _ (by simp [nDims]; omega)]
      have := nDims_get hN'
      rw [List.getElem?_eq_getElem (by simp [nDims]; omega)] at this
      rw [Option.some.inj this, hk]
    · simp only [SolveSector, Option.getD_some]
      rw [if_pos (Or.inl hlen.symm)]
      refine ⟨.ok (ch N), Or.inr ⟨_, hb, Or.inr ⟨_, _, _, hD, he, rfl⟩⟩, ?_⟩
      rw [hlen]
      simp [Except.map]
    · rw [he.wlen, hDs.size, hlen]; omega) ([], ⊤) (by simp)
  simpa [nChosen] using this

theorem nChosen_get {w n : ℕ} {ch : ℕ → EigRes} {N : ℕ} (h : N ≤ n + n) : dictGet (nChosen w n ch) N = .ok (nChosenSct w n ch N) := by
  have hk : (nChosen w n ch).map Prod.fst = List.range (2 * n + 1) := by simp [nChosen, Function.comp_def]
  obtain ⟨s, hs⟩ := dictGet_of_key (es := nChosen w n ch) (q := N) (by rw [hk, List.mem_range]; omega)
  have hm := dictGet_mem_of_ok hs
  obtain ⟨M, -, e⟩ := List.mem_map.mp hm
  simp only [Prod.mk.injEq] at e
  obtain ⟨rfl, rfl⟩ := e
  exact hs

/-! ## Two degenerate sites -/

/-- Eigenvectors for two uncoupled sites: in the sector of one electron the spin-up orbitals of the two sites are mixed if `rot`. -/
noncomputable def mixVec (rot : Bool) (N j r : ℕ) : ℝ :=
  if rot = true ∧ N = 1 ∧ j < 2 ∧ r < 2 then (if j = 1 ∧ r = 1 then -√(1 / 2) else √(1 / 2)) else if j = r then 1 else 0

noncomputable def mixChoice (rot : Bool) (N : ℕ) : EigRes := (List.replicate (Nat.choose 4 N) 0, (List.range (Nat.choose 4 N)).map (mixVec rot N))

theorem mix_orth (rot : Bool) {N i j : ℕ} (hN : N ≤ 4) (hi : i < Nat.choose 4 N) (hj : j < Nat.choose 4 N) :
    ∑ r ∈ Finset.range (Nat.choose 4 N), mixVec rot N i r * mixVec rot N j r = if i = j then 1 else 0 := by
  by_cases hc : rot = true ∧ N = 1
  · obtain ⟨rfl, rfl⟩ := hc
    have hq : √(1 / 2 : ℝ) * √(1 / 2) = 1 / 2 := Real.mul_self_sqrt (by norm_num)
    have h4 : Nat.choose 4 1 = 4 := rfl
    rw [h4] at hi hj ⊢
    simp only [Finset.sum_range_succ, Finset.sum_range_zero]
    interval_cases i <;> interval_cases j <;> simp [mixVec] <;> simp at hq <;> linarith
  · have e : ∀ i r, mixVec rot N i r = if i = r then 1 else 0 := by
      intro i r
      unfold mixVec
      rw [if_neg]
      rintro ⟨h1, h2, -⟩
      exact hc ⟨h1, h2⟩
    simp only [e]
    rw [Finset.sum_eq_single i]
    · simp [eq_comm]
    · intro b _ hb; rw [if_neg (Ne.symm hb), zero_mul]
    · intro h; exact absurd (Finset.mem_range.mpr hi) h

theorem mix_run (rot : Bool) : NBuildEspace 64 hopArgs none (.ok (nChosen 64 2 (mixChoice rot), (List.range 5).foldl (fun e q => min (eigMin (mixChoice rot q).1) e) ⊤)) := by
  refine nChosen_run hopArgs_nvalid (w := 64) (by simp [hopArgs, freeArgs]) (ch := mixChoice rot) ?_
  intro N hN D hD
  have hN' : N ≤ 4 := hN
  have hs : D.size = Nat.choose 4 N := hD.size.trans (gs_length hN')
  have hl : (mixChoice rot N).2.length = Nat.choose 4 N := by simp [mixChoice]
  have hl' : (mixChoice rot N).1.length = Nat.choose 4 N := by simp [mixChoice]
  refine ⟨by rw [hl', hs], by rw [hl, hs], ?_, ?_, ?_⟩
  · exact List.pairwise_replicate.mpr (.inr le_rfl)
  · intro i j hi hj
    rw [hs]
    have := mix_orth rot hN' (hl ▸ hi) (hl ▸ hj)
    have hg : ∀ i (hi : i < (mixChoice rot N).2.length), (mixChoice rot N).2[i] = mixVec rot N i := by
      intro i hi; simp only [mixChoice, List.getElem_map, List.getElem_range]
    rw [hg i hi, hg j hj]
    exact this
  · intro i hi hi' r hr
    have hz : ∀ c < D.size, D.val r c = 0 := by
      intro c hc
      have := hD.val r c (hD.size ▸ hr) (hD.size ▸ hc)
      rw [this, hopArgs_hamN]; rfl
    rw [Finset.sum_eq_zero fun c hc => by rw [hz c (Finset.mem_range.mp hc), zero_mul]]
    simp [mixChoice]

/-- The amplitude to add a spin-up electron to the empty dot. -/
theorem mix_amp (rot : Bool) {j x : ℕ} (hj : j < 4) (hx : x < 2) (s : ℕ) (hs : s < 2) :
    amplitude 2 (gs 64 4 0) (gs 64 4 1) (nChosenSct 64 2 (mixChoice rot) 0) (nChosenSct 64 2 (mixChoice rot) 1) j 0 s x = mixVec rot 1 j (x + s * 2) := by
  have g0 : gs 64 4 0 = [0] := by decide
  have g1 : gs 64 4 1 = [1, 2, 4, 8] := by decide
  have hm : x + s * 2 < 2 * 2 := by omega
  unfold amplitude
  rw [dif_pos hm, g0, g1]
  have e0 : ketN (2 * 2) [0] ((nChosenSct 64 2 (mixChoice rot) 0).eigvecs[0]?.getD 0) = Pi.single ∅ 1 := by
    have hv : (nChosenSct 64 2 (mixChoice rot) 0).eigvecs[0]?.getD 0 = mixVec rot 0 0 := by simp [nChosenSct, mixChoice]
    rw [hv]
    funext S
    have : ketN (2 * 2) [0] (mixVec rot 0 0) S = ∑ i : Fin 1, if S = occF (2 * 2) ([0][(i : ℕ)]'i.2) then mixVec rot 0 0 i else 0 := rfl
    have ho : occF (2 * 2) 0 = ∅ := by decide
    rw [this, Fin.sum_univ_one, Pi.single_apply]
    simp [ho, mixVec]
  have e1 : (nChosenSct 64 2 (mixChoice rot) 1).eigvecs[j]?.getD 0 = mixVec rot 1 j := by
    have : j < Nat.choose 4 1 := hj
    simp [nChosenSct, mixChoice, hj]
  rw [e0, e1, cre_vac]
  have hL : SectorList (2 * 2) 1 [1, 2, 4, 8] := by rw [← g1]; exact gsN_list hopArgs_nvalid (w := 64) (by simp [hopArgs, freeArgs]) (by simp [hopArgs, freeArgs])
  have := ketN_at hL (mixVec rot 1 j) ⟨x + s * 2, hm⟩
  have hocc : occF (2 * 2) ([1, 2, 4, 8][x + s * 2]'hm) = {⟨x + s * 2, hm⟩} := by
    have : ∀ y (hy : y < 4), occF (2 * 2) ([1, 2, 4, 8][y]'hy) = {⟨y, hy⟩} := by decide
    exact this _ hm
  rw [← hocc]
  exact this

/-- **C169 refuted** for single states: "the rates do not depend on which eigenvectors were returned" is false. Two runs on the same arguments, two uncoupled sites at
the same level, differ in the rate at which the first lead fills the first state of one electron. -/
theorem C169_refuted_states : ∃ (a : HamArgs) (es es1 : Espace ℕ) (e0 e1 : WithTop ℝ) (gd gd1 : List ((NId × NId) × List NGf)) (l l1 : List NGf) (γ γ1 : ℝ), a.NValid ∧
    NBuildEspace 64 a none (.ok (es, e0)) ∧ NBuildEspace 64 a none (.ok (es1, e1)) ∧ sqtnlBuild 0 a.n es (some 0) none = .ok gd ∧ sqtnlBuild 0 a.n es1 (some 0) none = .ok gd1 ∧
    dictGet gd ((1, 0), (0, 0)) = .ok l ∧ dictGet gd1 ((1, 0), (0, 0)) = .ok l1 ∧ sqtnlGamma l 1 [0, 0] [[1, 0], [0, 1]] 0 = .ok γ ∧ sqtnlGamma l1 1 [0, 0] [[1, 0], [0, 1]] 0 = .ok γ1 ∧ γ ≠ γ1 := by
  have key : ∀ rot : Bool, ∃ gd l, sqtnlBuild 0 2 (nChosen 64 2 (mixChoice rot)) (some 0) none = .ok gd ∧ dictGet gd ((1, 0), (0, 0)) = .ok l ∧
      sqtnlGamma l 1 [0, 0] [[1, 0], [0, 1]] 0 = .ok (mixVec rot 1 0 0 ^ 2 * nFcut 0) := by
    intro rot
    have hr := nRun hopArgs hopArgs_nvalid (w := 64) (by simp [hopArgs, freeArgs]) (mix_run rot)
    have hsec : ∀ N, N ≤ 4 → NSctOk 2 N (nChosenSct 64 2 (mixChoice rot) N) (gs 64 4 N) := fun N hN =>
      ⟨rfl, gsN_list hopArgs_nvalid (w := 64) (by simp [hopArgs, freeArgs]) hN, rfl⟩
    obtain ⟨gd, h1, h2⟩ := C77_elements_up (junk := 0) (n := 2) (N := 0) (by norm_num) (es := nChosen 64 2 (mixChoice rot)) hr.ok (by norm_num) none
      (nChosen_get (n := 2) (N := 0) (by norm_num)) (nChosen_get (n := 2) (N := 1) (by norm_num)) (hsec 0 (by norm_num)) (hsec 1 (by norm_num))
    have h3 := (h2 0 0 (by simp [nChosenSct, mixChoice]) (by simp [nChosenSct, mixChoice])).1
    refine ⟨gd, _, h1, h3, ?_⟩
    have hv : ∀ s, s < 2 → (element 2 (gs 64 4 0) (gs 64 4 1) (nChosenSct 64 2 (mixChoice rot) 0) (nChosenSct 64 2 (mixChoice rot) 1) 0 0 true s) =
        ⟨true, s, [mixVec rot 1 0 (0 + s * 2), mixVec rot 1 0 (1 + s * 2)], 0⟩ := by
      intro s hs
      unfold element
      have hr2 : List.range 2 = [0, 1] := rfl
      rw [hr2, List.map_cons, List.map_cons, List.map_nil, mix_amp rot (by norm_num) (by norm_num) s hs, mix_amp rot (by norm_num) (by norm_num) s hs]
      simp [nChosenSct, mixChoice]
    rw [hv 0 (by norm_num), hv 1 (by norm_num)]
    have hp : pyIndex 2 0 = .ok 0 := by decide
    unfold sqtnlGamma
    simp [forM', bind, Except.bind, pure, Except.pure, getItem, hp, NGf.call, dotArr, mixVec]
  obtain ⟨gd, l, h1, h2, h3⟩ := key false
  obtain ⟨gd1, l1, k1, k2, k3⟩ := key true
  refine ⟨hopArgs, _, _, _, _, gd, gd1, l, l1, _, _, hopArgs_nvalid, mix_run false, mix_run true, h1, k1, h2, k2, h3, k3, ?_⟩
  have hq : √(1 / 2 : ℝ) ^ 2 = 1 / 2 := Real.sq_sqrt (by norm_num)
  simp only [mixVec]
  norm_num [nFcut]

/-- Non-vacuity of `C169_levels`: the two runs, whose matrices exist. -/
example : ∃ gd gd1 st st1, sqtnlBuild 0 2 (nChosen 64 2 (mixChoice false)) (some 0) none = .ok gd ∧ sqtnlBuild 0 2 (nChosen 64 2 (mixChoice true)) (some 0) none = .ok gd1 ∧
    sqtnlDicts gd 1 [1, 0] [[1, 0], [0, 1]] 0 = .ok st ∧ sqtnlDicts gd1 1 [1, 0] [[1, 0], [0, 1]] 0 = .ok st1 ∧ matrixIds st.W = matrixIds st1.W ∧
    nCurrent st (fun i => Real.exp (-(nRowLevel (nChosen 64 2 (mixChoice false)) (matrixIds st.T) i).2)) = nCurrent st1 (fun i => Real.exp (-(nRowLevel (nChosen 64 2 (mixChoice true)) (matrixIds st1.T) i).2)) := by
  have hr := fun rot => nRun hopArgs hopArgs_nvalid (w := 64) (by simp [hopArgs, freeArgs]) (mix_run rot)
  obtain ⟨gd, st, h1, h2, -⟩ := C55_sqtnl_from_spectrum (junk := 0) (n := 2) (N := 0) (by norm_num) (hr false).ok (by norm_num) none 1 (mu := [1, 0]) (A := [[1, 0], [0, 1]]) rfl rfl (by simp) (inject := 0) (by norm_num)
  obtain ⟨gd1, st1, k1, k2, -⟩ := C55_sqtnl_from_spectrum (junk := 0) (n := 2) (N := 0) (by norm_num) (hr true).ok (by norm_num) none 1 (mu := [1, 0]) (A := [[1, 0], [0, 1]]) rfl rfl (by simp) (inject := 0) (by norm_num)
  have := C169_levels hopArgs_nvalid (w := 64) (w' := 64) (by simp [hopArgs, freeArgs]) (by simp [hopArgs, freeArgs]) (mix_run false) (mix_run true) (N := 0) (by norm_num) h1 k1 (by norm_num) h2 k2
  exact ⟨gd, gd1, st, st1, h1, k1, h2, k2, this.1, this.2.2.2.2.2 fun k => Real.exp (-k.2)⟩

end Edpyt
