import Verif.Proof.Project
/-!
Lemmas for the projections of `gf_lanczos.py`, which produce coefficient arrays.
-/
namespace Edpyt
open Spec

theorem ladder_apply_snd {op : Ladder} {s pos n : ℕ} {g : ℤ} {t : ℕ} (h : op.apply s pos n = .ok (g, t)) : t = flip s pos := by
  cases op
  · simp only [Ladder.apply, c] at h
    split at h
    · exact (Prod.mk.inj (Except.ok.inj h)).2.symm
    · cases h
  · simp only [Ladder.apply, cdg] at h
    split at h
    · exact (Prod.mk.inj (Except.ok.inj h)).2.symm
    · cases h

/-- A state with a nonzero element lies in the arrival sector. -/
theorem ladder_mem {n pI pJ pos : ℕ} {sJ : List ℕ} {op : Ladder} (hn : n ≤ 32) (hsh : op.Shift pI pJ)
    (hJ : SectorList n pJ sJ) (hpos : pos < n) {s t : ℕ} (hs : InSector n pI s) (ht : t < 2 ^ n)
    (h : op.mat (⟨pos, hpos⟩ : Fin n) (occF n t) (occF n s) ≠ 0) : t ∈ sJ ∧ t = flip s pos := by
  by_cases hc : op.check s pos ≠ 0
  · obtain ⟨iJ, hiJ, ha, -, -⟩ := ladder_check hn hsh hJ hpos hs hc 0
    have hf := ladder_apply_snd ha
    have : occF n t = occF n (flip s pos) := by
      cases op with
      | c =>
        have hb : s.testBit pos = true := by simpa [Ladder.check, checkFull_eq] using hc
        have := occF_flip_of_full (i := (⟨pos, hpos⟩ : Fin n)) hn hs.1 hb
        simp only [Ladder.mat] at h
        rw [ann_apply, if_pos (by simp [hb])] at h
        rw [this]
        by_contra hne
        exact h (if_neg hne)
      | cdg =>
        have hb : s.testBit pos = false := by simpa [Ladder.check, checkEmpty_eq] using hc
        have := occF_flip_of_empty (i := (⟨pos, hpos⟩ : Fin n)) hn hs.1 hb
        simp only [Ladder.mat] at h
        rw [cre_apply, if_pos (by simp [hb])] at h
        rw [this]
        by_contra hne
        exact h (if_neg hne)
    have := occF_inj ht (flip_lt hs.1 hpos) this
    exact ⟨by rw [this, ← hf]; exact List.getElem_mem hiJ, this⟩
  · exact absurd (ladder_nocheck hpos hc _) h

/-- The loop of `project_up/dw` in closed form. -/
theorem project_loop {n pI pJ pos junk : ℕ} {sI sJ : List ℕ} {op : Ladder} (hn : n ≤ 32) (hpos : pos < n)
    (hsh : op.Shift pI pJ) (hI : SectorList n pI sI) (hJ : SectorList n pJ sJ) (rows : ℕ → ℕ → ℤ → Except PyErr (List ℕ))
    (dupI dupJ m : ℕ) (I J : Sct) (hlI : I.eigvecs.length = I.eigvals.length)
    (fJ fI : ℕ → ℕ → ℕ)
    (hinj : ∀ i a i' a', i < sJ.length → i' < sJ.length → a < m → a' < m → fJ i a = fJ i' a' → i = i' ∧ a = a')
    (hrJ : ∀ i, i < sJ.length → rows J.d dupJ i = .ok ((List.range m).map (fJ i)))
    (hrI : ∀ i, i < sI.length → rows I.d dupI i = .ok ((List.range m).map (fI i))) :
    ∃ M, forM' (projectStep rows junk op pos n sI sJ dupI dupJ I J) (List.range sI.length) (fun _ _ => 0) = .ok M ∧
      ∀ (k : ℕ) (iJ : Fin sJ.length) (a : ℕ), a < m → M k (fJ iJ a) = ∑ iI : Fin sI.length,
          op.mat (⟨pos, hpos⟩ : Fin n) (occF n sJ[iJ]) (occF n sI[iI]) * (I.eigvecs[k]?.getD 0) (fI iI a) := by
  let L : ℕ → ℕ → ℝ := fun iJ iI => op.mat (⟨pos, hpos⟩ : Fin n) (occF n (sJ[iJ]?.getD 0)) (occF n (sI[iI]?.getD 0))
  have main : ∀ r, r ≤ sI.length → ∃ M, forM' (projectStep rows junk op pos n sI sJ dupI dupJ I J) (List.range r) (fun _ _ => 0) = .ok M ∧
      ∀ (k iJ a : ℕ), iJ < sJ.length → a < m → M k (fJ iJ a) = ∑ iI ∈ Finset.range r, L iJ iI * (I.eigvecs[k]?.getD 0) (fI iI a) := by
    intro r
    induction r with
    | zero => intro _; exact ⟨_, rfl, by intros; simp⟩
    | succ r ih =>
      intro hr
      obtain ⟨M, hM, hM'⟩ := ih (by omega)
      have hi : r < sI.length := hr
      have hs := (hI.mem _).mp (List.getElem_mem hi)
      rw [List.range_succ, forM'_append, hM]
      simp only [forM']
      unfold projectStep
      rw [getItem_natCast _ _ hi]
      simp only [bind, Except.bind, pure, Except.pure]
      have hLr : ∀ iJ (h : iJ < sJ.length), L iJ r = op.mat (⟨pos, hpos⟩ : Fin n) (occF n sJ[iJ]) (occF n sI[r]) := by
        intro iJ h; simp only [L, List.getElem?_eq_getElem h, List.getElem?_eq_getElem hi, Option.getD_some]
      by_cases hc : op.check sI[r] pos ≠ 0
      · rw [if_pos hc]
        obtain ⟨iJ, hiJ, ha, hb, hm⟩ := ladder_check hn hsh hJ hpos hs hc junk
        rw [ha]
        simp only [hb, hrJ iJ hiJ, hrI r hi]
        rw [if_neg (by simp), if_neg (by simp [hlI])]
        refine ⟨_, rfl, fun k ju a hju ham => ?_⟩
        rw [Finset.sum_range_succ, hLr ju hju, hm ju hju]
        by_cases hj : ju = iJ
        · subst hj
          have hmem : fJ ju a ∈ (List.range m).map (fJ ju) := List.mem_map.mpr ⟨a, List.mem_range.mpr ham, rfl⟩
          have hidx : ((List.range m).map (fJ ju)).idxOf (fJ ju a) = a := by
            have hnd : ((List.range m).map (fJ ju)).Nodup := by
              refine List.Nodup.map_on ?_ List.nodup_range
              intro x hx y hy he
              exact (hinj ju x ju y hju hju (List.mem_range.mp hx) (List.mem_range.mp hy) he).2
            have := hnd.idxOf_getElem a (by simpa using ham)
            simpa using this
          rw [if_pos hmem, hidx, if_pos rfl]
          have hz : ∑ iI ∈ Finset.range r, L ju iI * (I.eigvecs[k]?.getD 0) (fI iI a) = 0 := by
            apply Finset.sum_eq_zero
            intro iI hiI
            rw [Finset.mem_range] at hiI
            have hi' : iI < sI.length := by omega
            have hs' := (hI.mem _).mp (List.getElem_mem hi')
            have h0 : L ju iI = 0 := by
              simp only [L, List.getElem?_eq_getElem hju, List.getElem?_eq_getElem hi', Option.getD_some]
              by_contra hne
              obtain ⟨-, he⟩ := ladder_mem hn hsh hJ hpos hs' ((hJ.mem _).mp (List.getElem_mem hju)).1 hne
              have he' := ladder_apply_snd ha
              have b32 : ∀ {x}, InSector n pI x → x < 2 ^ 32 := fun h => lt_of_lt_of_le h.1 (Nat.pow_le_pow_right (by norm_num) hn)
              have : sI[iI] = sI[r] := by
                rw [← flip_flip (b32 hs') (lt_of_lt_of_le hpos hn), ← he, he', flip_flip (b32 hs) (lt_of_lt_of_le hpos hn)]
              have := (hI.nodup.getElem_inj_iff).mp this
              omega
            rw [h0, zero_mul]
          rw [hz, zero_add]
          simp [ham]
        · have hmem : fJ ju a ∉ (List.range m).map (fJ iJ) := by
            intro h
            obtain ⟨b, hb', he⟩ := List.mem_map.mp h
            exact hj (hinj iJ b ju a hiJ hju (List.mem_range.mp hb') ham he).1.symm
          rw [if_neg hmem, if_neg hj, hM' k ju a hju ham]; ring
      · rw [if_neg hc]
        refine ⟨_, rfl, fun k ju a hju ham => ?_⟩
        rw [Finset.sum_range_succ, hLr ju hju, ladder_nocheck hpos hc, hM' k ju a hju ham]; ring
  obtain ⟨M, h1, h2⟩ := main _ le_rfl
  refine ⟨M, h1, fun k iJ a ha => ?_⟩
  rw [h2 k iJ a iJ.2 ha, Finset.sum_range]
  apply Finset.sum_congr rfl
  intro iI _
  simp only [L, List.getElem?_eq_getElem iJ.2, List.getElem?_eq_getElem iI.2, Option.getD_some]
  rfl

theorem ket_mulVec (n : ℕ) (upI dwI : List ℕ) (y : ℕ → ℝ) (A : Matrix (Finset (Fin (n + n))) (Finset (Fin (n + n))) ℝ)
    (T : Finset (Fin (n + n))) : A.mulVec (ket n upI dwI y) T = ∑ iu : Fin upI.length, ∑ id : Fin dwI.length,
      A T (occ2 n upI[iu] dwI[id]) * y (iu + upI.length * id) := by
  unfold Matrix.mulVec dotProduct ket
  simp only [Finset.mul_sum]
  rw [Finset.sum_comm]
  apply Finset.sum_congr rfl; intro iu _
  rw [Finset.sum_comm]
  apply Finset.sum_congr rfl; intro id _
  simp only [mul_ite, mul_zero]
  rw [Finset.sum_ite_eq' Finset.univ]; simp

theorem occ2_surj {n : ℕ} (T : Finset (Fin (n + n))) : ∃ tu td, tu < 2 ^ n ∧ td < 2 ^ n ∧ T = occ2 n tu td := by
  obtain ⟨tu, h1, h2⟩ := occF_surj (upPart T)
  obtain ⟨td, h3, h4⟩ := occF_surj (dwPart T)
  exact ⟨tu, td, h1, h3, ext2 (by rw [upPart_occ2 h1, h2]) (by rw [dwPart_occ2 h1, h4])⟩

/-- Summing an indicator over a list without repetitions. -/
theorem sum_ind {L : List ℕ} (hL : L.Nodup) (t : ℕ) (F : Fin L.length → ℝ) (i : Fin L.length) (hi : L[i] = t) :
    ∑ j : Fin L.length, (if t = L[j] then F j else 0) = F i := by
  rw [Finset.sum_eq_single i]
  · rw [if_pos hi.symm]
  · intro j _ hj
    rw [if_neg]
    intro h
    rw [← hi] at h
    exact hj (Fin.ext ((hL.getElem_inj_iff).mp h.symm))
  · simp

/-- Assembling the image vector, operator on the up modes. -/
theorem ket_image_up {n ndw pos p q : ℕ} {op : Ladder} (hn : n ≤ 32) (hpos : pos < n) (hsh : op.Shift p q)
    {upI upJ dw : List ℕ} (hI : SectorList n p upI) (hJ : SectorList n q upJ) (hd : SectorList n ndw dw) (x y : ℕ → ℝ)
    (hx : ∀ (iJ : Fin upJ.length) (a : ℕ), a < dw.length → x (iJ + upJ.length * a) = ∑ iI : Fin upI.length,
      op.mat (⟨pos, hpos⟩ : Fin n) (occF n upJ[iJ]) (occF n upI[iI]) * y (iI + upI.length * a)) :
    ket n upJ dw x = (-1 : ℝ) ^ ndw • (op.mat (orb false (⟨pos, hpos⟩ : Fin n))).mulVec (ket n upI dw y) := by
  funext T
  obtain ⟨tu, td, htu, htd, rfl⟩ := occ2_surj T
  have bJ : ∀ i : Fin upJ.length, upJ[i] < 2 ^ n := fun i => ((hJ.mem _).mp (List.getElem_mem i.2)).1
  have bI : ∀ i : Fin upI.length, upI[i] < 2 ^ n := fun i => ((hI.mem _).mp (List.getElem_mem i.2)).1
  have bd : ∀ i : Fin dw.length, dw[i] < 2 ^ n := fun i => ((hd.mem _).mp (List.getElem_mem i.2)).1
  have pd : ∀ i : Fin dw.length, particles dw[i] = ndw := fun i => ((hd.mem _).mp (List.getElem_mem i.2)).2
  have hone : ((-1 : ℝ) ^ ndw) * (-1) ^ ndw = 1 := by rw [← mul_pow]; simp
  rw [Pi.smul_apply, smul_eq_mul, ket_mulVec, ladder_up]
  have hR : ∀ (iu : Fin upI.length) (id : Fin dw.length), lift2 (op.mat (⟨pos, hpos⟩ : Fin n)) (par ℝ n) (occ2 n tu td) (occ2 n upI[iu] dw[id])
      = op.mat (⟨pos, hpos⟩ : Fin n) (occF n tu) (occF n upI[iu]) * (if td = dw[id] then (-1) ^ ndw else 0) := by
    intro iu id
    rw [lift2_occ2 _ _ htu (bI iu), par, Matrix.diagonal_apply]
    congr 1
    by_cases h : td = dw[id]
    · rw [if_pos h, if_pos (by rw [h]), card_occF htd, h, pd]
    · rw [if_neg h, if_neg (fun he => h (occF_inj htd (bd id) he))]
  simp only [hR]
  unfold ket
  have hL : ∀ (iu : Fin upJ.length) (id : Fin dw.length), (occ2 n tu td = occ2 n upJ[iu] dw[id]) ↔ (tu = upJ[iu] ∧ td = dw[id]) :=
    fun iu id => occ2_inj htu htd (bJ iu) (bd id)
  simp only [hL]
  by_cases hdm : td ∈ dw
  · obtain ⟨jd, hjd, rfl⟩ := List.getElem_of_mem hdm
    have hin : ∀ iu : Fin upJ.length, ∑ id : Fin dw.length, (if tu = upJ[iu] ∧ dw[jd] = dw[id] then x (iu + upJ.length * id) else 0)
        = if tu = upJ[iu] then x (iu + upJ.length * jd) else 0 := by
      intro iu
      by_cases h : tu = upJ[iu]
      · simp only [h, true_and, if_true]
        exact sum_ind hd.nodup dw[jd] (fun id => x (iu + upJ.length * id)) ⟨jd, hjd⟩ rfl
      · simp only [h, false_and, if_false, Finset.sum_const_zero]
    have hin2 : ∀ iu : Fin upI.length, ∑ id : Fin dw.length, op.mat (⟨pos, hpos⟩ : Fin n) (occF n tu) (occF n upI[iu]) * (if dw[jd] = dw[id] then (-1) ^ ndw else 0) * y (iu + upI.length * id)
        = op.mat (⟨pos, hpos⟩ : Fin n) (occF n tu) (occF n upI[iu]) * (-1) ^ ndw * y (iu + upI.length * jd) := by
      intro iu
      rw [← sum_ind hd.nodup dw[jd] (fun id => op.mat (⟨pos, hpos⟩ : Fin n) (occF n tu) (occF n upI[iu]) * (-1) ^ ndw * y (iu + upI.length * id)) ⟨jd, hjd⟩ rfl]
      apply Finset.sum_congr rfl
      intro id _
      by_cases h : dw[jd] = dw[id]
      · rw [if_pos h, if_pos h]
      · rw [if_neg h, if_neg h]; ring
    simp only [hin, hin2]
    by_cases hum : tu ∈ upJ
    · obtain ⟨ju, hju, rfl⟩ := List.getElem_of_mem hum
      rw [sum_ind hJ.nodup upJ[ju] (fun iu => x (iu + upJ.length * jd)) ⟨ju, hju⟩ rfl, hx ⟨ju, hju⟩ jd hjd, Finset.mul_sum]
      apply Finset.sum_congr rfl
      intro iu _
      simp only [Fin.getElem_fin]
      linear_combination (-(op.mat (⟨pos, hpos⟩ : Fin n) (occF n upJ[ju]) (occF n upI[(iu : ℕ)]) * y (iu + upI.length * jd))) * hone
    · rw [Finset.sum_eq_zero, Finset.sum_eq_zero, mul_zero]
      · intro iu _
        have : op.mat (⟨pos, hpos⟩ : Fin n) (occF n tu) (occF n upI[iu]) = 0 := by
          by_contra hne
          exact hum (ladder_mem hn hsh hJ hpos ((hI.mem _).mp (List.getElem_mem iu.2)) htu hne).1
        rw [this]; ring
      · intro iu _
        rw [if_neg]
        intro h; exact hum (h ▸ List.getElem_mem iu.2)
  · have hno : ∀ id : Fin dw.length, ¬ td = dw[id] := fun id h => hdm (h ▸ List.getElem_mem id.2)
    simp only [hno, and_false, if_false, Finset.sum_const_zero, mul_zero, zero_mul]

/-- Assembling the image vector, operator on the down modes. -/
theorem ket_image_dw {n nup pos p q : ℕ} {op : Ladder} (hn : n ≤ 32) (hpos : pos < n) (hsh : op.Shift p q)
    {up dwI dwJ : List ℕ} (hI : SectorList n p dwI) (hJ : SectorList n q dwJ) (hd : SectorList n nup up) (x y : ℕ → ℝ)
    (hx : ∀ (iJ : Fin dwJ.length) (a : ℕ), a < up.length → x (a + up.length * iJ) = ∑ iI : Fin dwI.length,
      op.mat (⟨pos, hpos⟩ : Fin n) (occF n dwJ[iJ]) (occF n dwI[iI]) * y (a + up.length * iI)) :
    ket n up dwJ x = (op.mat (orb true (⟨pos, hpos⟩ : Fin n))).mulVec (ket n up dwI y) := by
  funext T
  obtain ⟨tu, td, htu, htd, rfl⟩ := occ2_surj T
  have bJ : ∀ i : Fin dwJ.length, dwJ[i] < 2 ^ n := fun i => ((hJ.mem _).mp (List.getElem_mem i.2)).1
  have bd : ∀ i : Fin up.length, up[i] < 2 ^ n := fun i => ((hd.mem _).mp (List.getElem_mem i.2)).1
  rw [ket_mulVec, ladder_dw]
  have hR : ∀ (iu : Fin up.length) (id : Fin dwI.length), lift2 1 (op.mat (⟨pos, hpos⟩ : Fin n)) (occ2 n tu td) (occ2 n up[iu] dwI[id])
      = (if tu = up[iu] then 1 else 0) * op.mat (⟨pos, hpos⟩ : Fin n) (occF n td) (occF n dwI[id]) := by
    intro iu id
    rw [lift2_occ2 _ _ htu (bd iu), Matrix.one_apply]
    congr 1
    by_cases h : tu = up[iu]
    · rw [if_pos h, if_pos (by rw [h])]
    · rw [if_neg h, if_neg (fun he => h (occF_inj htu (bd iu) he))]
  simp only [hR]
  unfold ket
  have hL : ∀ (iu : Fin up.length) (id : Fin dwJ.length), (occ2 n tu td = occ2 n up[iu] dwJ[id]) ↔ (tu = up[iu] ∧ td = dwJ[id]) :=
    fun iu id => occ2_inj htu htd (bd iu) (bJ id)
  simp only [hL]
  apply Finset.sum_congr rfl
  intro iu _
  by_cases hu : tu = up[iu]
  · simp only [hu, true_and, if_true, one_mul]
    by_cases hum : td ∈ dwJ
    · obtain ⟨jd, hjd, rfl⟩ := List.getElem_of_mem hum
      rw [sum_ind hJ.nodup dwJ[jd] (fun id => x (iu + up.length * id)) ⟨jd, hjd⟩ rfl, hx ⟨jd, hjd⟩ iu iu.2]
      rfl
    · rw [Finset.sum_eq_zero, Finset.sum_eq_zero]
      · intro id _
        have : op.mat (⟨pos, hpos⟩ : Fin n) (occF n td) (occF n dwI[id]) = 0 := by
          by_contra hne
          exact hum (ladder_mem hn hsh hJ hpos ((hI.mem _).mp (List.getElem_mem id.2)) htd hne).1
        rw [this]; ring
      · intro id _
        rw [if_neg]
        intro h; exact hum (h ▸ List.getElem_mem id.2)
  · simp only [hu, false_and, if_false, Finset.sum_const_zero, zero_mul]

end Edpyt
