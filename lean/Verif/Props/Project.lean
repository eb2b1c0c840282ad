import Verif.Proof.ProjectL
/-!
Property C34: projections between sectors are matrix elements of the ladder operators.
-/
namespace Edpyt
open Spec

variable {n nup ndw pos junk : ℕ} {upI dwI upJ dwJ : List ℕ} {I J : Sct}

/-- **C34**, spin up, both operators: for two sectors related by the operator the projection exists and its element
`(j, k)` is `⟨j| op_{pos,↑} |k⟩` between the stored eigenvectors, up to the global factor `(-1)^ndw` (the code
counts only the up electrons in the sign). -/
theorem C34_project_exact_up (hn : n ≤ 32) (hpos : pos < n) (op : Ladder) {p q : ℕ} (hsh : op.Shift p q)
    (hI : SctOk n p ndw I upI dwI) (hJ : SctOk n q ndw J upJ dwJ) :
    ∃ M, projectExactUp junk pos n op I J = .ok M ∧ ∀ j k, j < J.eigvals.length → k < I.eigvals.length →
      M j k = (-1) ^ ndw * (ket n upJ dwJ (J.eigvecs[j]?.getD 0) ⬝ᵥ
        ((op.mat (orb false (⟨pos, hpos⟩ : Fin n))).mulVec (ket n upI dwI (I.eigvecs[k]?.getD 0)))) := by
  have hdw : dwI = dwJ := List.Perm.eq_of_pairwise' hI.hdw.sorted hJ.hdw.sorted
    ((List.perm_ext_iff_of_nodup hI.hdw.nodup hJ.hdw.nodup).mpr fun s => by rw [hI.hdw.mem, hJ.hdw.mem])
  subst hdw
  have hloop := projectExact_loop (junk := junk) hn hpos hsh hI.hup hJ.hup _ _ _ dwI.length I J hI.len hJ.len
      (fun i a => i + upJ.length * a) (fun i a => i + upI.length * a)
      (fun i hi => by rw [hJ.d]; exact rowsUp_eq hi) (fun i hi => by rw [hI.d]; exact rowsUp_eq hi)
  have bJu : ∀ i : Fin upJ.length, upJ[i] < 2 ^ n := fun i => ((hJ.hup.mem _).mp (List.getElem_mem i.2)).1
  have bIu : ∀ i : Fin upI.length, upI[i] < 2 ^ n := fun i => ((hI.hup.mem _).mp (List.getElem_mem i.2)).1
  have bJd : ∀ i : Fin dwI.length, dwI[i] < 2 ^ n := fun i => ((hJ.hdw.mem _).mp (List.getElem_mem i.2)).1
  have pJd : ∀ i : Fin dwI.length, particles dwI[i] = ndw := fun i => ((hJ.hdw.mem _).mp (List.getElem_mem i.2)).2
  refine ⟨_, by unfold projectExactUp; rw [hI.states, hJ.states]; exact hloop, fun j k _ _ => ?_⟩
  · rw [ket_dot, ladder_up, Finset.mul_sum, Finset.sum_comm]
    apply Finset.sum_congr rfl; intro ju _
    simp only [Finset.sum_range (n := dwI.length), Finset.mul_sum]
    rw [Finset.sum_comm]
    apply Finset.sum_congr rfl; intro jd _
    apply Finset.sum_congr rfl; intro iu _
    rw [Finset.sum_eq_single jd]
    · have := lift2_occ2 (op.mat (⟨pos, hpos⟩ : Fin n)) (par ℝ n) (td := dwI[jd]) (sd := dwI[jd]) (bJu ju) (bIu iu)
      rw [this, par,
        Matrix.diagonal_apply_eq, card_occF (bJd jd),
        pJd jd]
      have h1 : ((-1 : ℝ) ^ ndw) * (-1) ^ ndw = 1 := by rw [← mul_pow]; simp
      linear_combination (-(op.mat (⟨pos, hpos⟩ : Fin n) (occF n upJ[ju]) (occF n upI[iu]) *
        (J.eigvecs[j]?.getD 0) (ju + upJ.length * jd) * (I.eigvecs[k]?.getD 0) (iu + upI.length * jd))) * h1
    · intro id _ hne
      have := lift2_occ2 (op.mat (⟨pos, hpos⟩ : Fin n)) (par ℝ n) (td := dwI[jd]) (sd := dwI[id]) (bJu ju) (bIu iu)
      rw [this, par,
        Matrix.diagonal_apply_ne]
      · ring
      · intro h
        have := occF_inj (bJd jd) (bJd id) h
        exact hne (Fin.ext ((hI.hdw.nodup.getElem_inj_iff).mp this.symm))
    · simp

/-- **C34**, spin down: the element is exactly `⟨j| op_{pos,↓} |k⟩`. -/
theorem C34_project_exact_dw (hn : n ≤ 32) (hpos : pos < n) (op : Ladder) {p q : ℕ} (hsh : op.Shift p q)
    (hI : SctOk n nup p I upI dwI) (hJ : SctOk n nup q J upJ dwJ) :
    ∃ M, projectExactDw junk pos n op I J = .ok M ∧ ∀ j k, j < J.eigvals.length → k < I.eigvals.length →
      M j k = ket n upJ dwJ (J.eigvecs[j]?.getD 0) ⬝ᵥ
        ((op.mat (orb true (⟨pos, hpos⟩ : Fin n))).mulVec (ket n upI dwI (I.eigvecs[k]?.getD 0))) := by
  have hup : upI = upJ := List.Perm.eq_of_pairwise' hI.hup.sorted hJ.hup.sorted
    ((List.perm_ext_iff_of_nodup hI.hup.nodup hJ.hup.nodup).mpr fun s => by rw [hI.hup.mem, hJ.hup.mem])
  subst hup
  have hloop := projectExact_loop (junk := junk) hn hpos hsh hI.hdw hJ.hdw _ _ _ upI.length I J hI.len hJ.len
      (fun i a => a + upI.length * i) (fun i a => a + upI.length * i)
      (fun i hi => by rw [hJ.d]; exact rowsDw_eq hi) (fun i hi => by rw [hI.d]; exact rowsDw_eq hi)
  have bJu : ∀ i : Fin upI.length, upI[i] < 2 ^ n := fun i => ((hJ.hup.mem _).mp (List.getElem_mem i.2)).1
  have bIu : ∀ i : Fin upI.length, upI[i] < 2 ^ n := fun i => ((hI.hup.mem _).mp (List.getElem_mem i.2)).1
  refine ⟨_, by unfold projectExactDw; rw [hI.states, hJ.states]; exact hloop, fun j k _ _ => ?_⟩
  · rw [ket_dot, ladder_dw, Finset.sum_comm, Finset.sum_comm (s := (Finset.univ : Finset (Fin upI.length)))]
    apply Finset.sum_congr rfl; intro jd _
    simp only [Finset.sum_range (n := upI.length), Finset.mul_sum]
    rw [Finset.sum_comm]
    apply Finset.sum_congr rfl; intro ju _
    rw [Finset.sum_comm]
    apply Finset.sum_congr rfl; intro id _
    rw [Finset.sum_eq_single ju]
    · have := lift2_occ2 1 (op.mat (⟨pos, hpos⟩ : Fin n)) (td := dwJ[jd]) (sd := dwI[id]) (bJu ju) (bIu ju)
      rw [this,
        Matrix.one_apply_eq]
      ring
    · intro iu _ hne
      have := lift2_occ2 1 (op.mat (⟨pos, hpos⟩ : Fin n)) (td := dwJ[jd]) (sd := dwI[id]) (bJu ju) (bIu iu)
      rw [this,
        Matrix.one_apply_ne]
      · ring
      · intro h
        have := occF_inj (bJu ju) (bIu iu) h
        exact hne (Fin.ext ((hI.hup.nodup.getElem_inj_iff).mp this.symm))
    · simp

theorem mat_transpose {M : Type} [Fintype M] [LinearOrder M] (i : M) :
    (Ladder.mat .cdg i).transpose = Ladder.mat .c i := Matrix.transpose_transpose _

/-- **C34**, adjointness: projecting with `cdg` from `I` to `J` gives the transpose of projecting with `c` from `J`
to `I`, for either spin. -/
theorem C34_adjoint_up (hn : n ≤ 32) (hpos : pos < n) (hI : SctOk n nup ndw I upI dwI) (hJ : SctOk n (nup + 1) ndw J upJ dwJ) :
    ∃ A B, projectExactUp junk pos n .cdg I J = .ok A ∧ projectExactUp junk pos n .c J I = .ok B ∧
      ∀ j k, j < J.eigvals.length → k < I.eigvals.length → A j k = B k j := by
  obtain ⟨A, hA, hA'⟩ := C34_project_exact_up (junk := junk) hn hpos .cdg (p := nup) (q := nup + 1) rfl hI hJ
  obtain ⟨B, hB, hB'⟩ := C34_project_exact_up (junk := junk) hn hpos .c (p := nup + 1) (q := nup) rfl hJ hI
  refine ⟨A, B, hA, hB, fun j k hj hk => ?_⟩
  rw [hA' j k hj hk, hB' k j hk hj, Matrix.dotProduct_mulVec, ← Matrix.mulVec_transpose, mat_transpose, dotProduct_comm]

theorem C34_adjoint_dw (hn : n ≤ 32) (hpos : pos < n) (hI : SctOk n nup ndw I upI dwI) (hJ : SctOk n nup (ndw + 1) J upJ dwJ) :
    ∃ A B, projectExactDw junk pos n .cdg I J = .ok A ∧ projectExactDw junk pos n .c J I = .ok B ∧
      ∀ j k, j < J.eigvals.length → k < I.eigvals.length → A j k = B k j := by
  obtain ⟨A, hA, hA'⟩ := C34_project_exact_dw (junk := junk) hn hpos .cdg (p := ndw) (q := ndw + 1) rfl hI hJ
  obtain ⟨B, hB, hB'⟩ := C34_project_exact_dw (junk := junk) hn hpos .c (p := ndw + 1) (q := ndw) rfl hJ hI
  refine ⟨A, B, hA, hB, fun j k hj hk => ?_⟩
  rw [hA' j k hj hk, hB' k j hk hj, Matrix.dotProduct_mulVec, ← Matrix.mulVec_transpose, mat_transpose, dotProduct_comm]

/-- **C34** for `gf_lanczos.project_up`: row `k` of the result is the coefficient array of `op_{pos,↑}` applied to the
`k`-th eigenvector, up to the factor `(-1)^ndw`. -/
theorem C34_project_up (hn : n ≤ 32) (hpos : pos < n) (op : Ladder) {p q : ℕ} (hsh : op.Shift p q)
    (hI : SctOk n p ndw I upI dwI) (hJ : SctOk n q ndw J upJ dwJ) :
    ∃ M, projectUp junk pos n op I J = .ok M ∧ ∀ k, ket n upJ dwJ (M k) =
      (-1 : ℝ) ^ ndw • (op.mat (orb false (⟨pos, hpos⟩ : Fin n))).mulVec (ket n upI dwI (I.eigvecs[k]?.getD 0)) := by
  have hdw : dwI = dwJ := List.Perm.eq_of_pairwise' hI.hdw.sorted hJ.hdw.sorted
    ((List.perm_ext_iff_of_nodup hI.hdw.nodup hJ.hdw.nodup).mpr fun s => by rw [hI.hdw.mem, hJ.hdw.mem])
  subst hdw
  obtain ⟨M, h1, h2⟩ := project_loop (junk := junk) hn hpos hsh hI.hup hJ.hup rowsUp upI.length upJ.length dwI.length I J hI.len
      (fun i a => i + upJ.length * a) (fun i a => i + upI.length * a)
      (fun i a i' a' hi hi' _ _ h => by
        have := (split_index_eq (a := a) (b := i) (c := a') (d := i') hi hi').mp (by rw [mul_comm a, mul_comm a']; omega)
        exact ⟨this.2, this.1⟩)
      (fun i hi => by rw [hJ.d]; exact rowsUp_eq hi) (fun i hi => by rw [hI.d]; exact rowsUp_eq hi)
  refine ⟨M, by unfold projectUp; rw [hI.states, hJ.states]; exact h1, fun k => ?_⟩
  exact ket_image_up hn hpos hsh hI.hup hJ.hup hI.hdw _ _ (h2 k)

/-- **C34** for `gf_lanczos.project_dw`. -/
theorem C34_project_dw (hn : n ≤ 32) (hpos : pos < n) (op : Ladder) {p q : ℕ} (hsh : op.Shift p q)
    (hI : SctOk n nup p I upI dwI) (hJ : SctOk n nup q J upJ dwJ) :
    ∃ M, projectDw junk pos n op I J = .ok M ∧ ∀ k, ket n upJ dwJ (M k) =
      (op.mat (orb true (⟨pos, hpos⟩ : Fin n))).mulVec (ket n upI dwI (I.eigvecs[k]?.getD 0)) := by
  have hup : upI = upJ := List.Perm.eq_of_pairwise' hI.hup.sorted hJ.hup.sorted
    ((List.perm_ext_iff_of_nodup hI.hup.nodup hJ.hup.nodup).mpr fun s => by rw [hI.hup.mem, hJ.hup.mem])
  subst hup
  obtain ⟨M, h1, h2⟩ := project_loop (junk := junk) hn hpos hsh hI.hdw hJ.hdw rowsDw upI.length upI.length upI.length I J hI.len
      (fun i a => a + upI.length * i) (fun i a => a + upI.length * i)
      (fun i a i' a' _ _ ha ha' h => by
        have := (split_index_eq (a := i) (b := a) (c := i') (d := a') ha ha').mp (by rw [mul_comm i, mul_comm i']; omega)
        exact ⟨this.1, this.2⟩)
      (fun i hi => by rw [hJ.d]; exact rowsDw_eq hi) (fun i hi => by rw [hI.d]; exact rowsDw_eq hi)
  refine ⟨M, by unfold projectDw; rw [hI.states, hJ.states]; exact h1, fun k => ?_⟩
  exact ket_image_dw hn hpos hsh hI.hdw hJ.hdw hI.hup _ _ (h2 k)

/-- Non-vacuity: two sites, sectors (1,1) and (2,1) with some eigenvectors. -/
example : ∃ I J : Sct, SctOk 2 1 1 I [1, 2] [1, 2] ∧ SctOk 2 2 1 J [3] [1, 2] ∧ I.eigvals.length = 1 ∧ J.eigvals.length = 2 := by
  have h1 : SectorList 2 1 [1, 2] := sectorList_of_generate (w := 32) (by norm_num) (by norm_num) (by norm_num) (by decide)
  have h2 : SectorList 2 2 [3] := sectorList_of_generate (w := 32) (by norm_num) (by norm_num) (by norm_num) (by decide)
  exact ⟨⟨.spin [1, 2] [1, 2], 4, [-1], [fun i => i]⟩, ⟨.spin [3] [1, 2], 2, [0, 1], [fun i => 1 - i, fun i => i]⟩,
    ⟨rfl, h1, h1, rfl, rfl⟩, ⟨rfl, h2, h1, rfl, rfl⟩, rfl, rfl⟩

end Edpyt
