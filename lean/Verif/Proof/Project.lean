import Verif.Spec.Solved
import Verif.Model.Project
import Verif.Spec.Ket
import Verif.Proof.NonLocalDense
import Verif.Proof.Espace
/-!
Lemmas for the projections.
-/
namespace Edpyt
open Spec

/-- The operator that `op` stands for. -/
def Ladder.mat {M : Type} [Fintype M] [LinearOrder M] (op : Ladder) (i : M) : Matrix (Finset M) (Finset M) ℝ :=
  match op with
  | .c => ann ℝ i
  | .cdg => cre ℝ i

/-- Particle number after `op`. -/
def Ladder.Shift (op : Ladder) (p q : ℕ) : Prop :=
  match op with
  | .c => p = q + 1
  | .cdg => q = p + 1

section
variable {n pI pJ pos : ℕ} {sI sJ : List ℕ} {op : Ladder}

theorem ladder_check (hn : n ≤ 32) (hsh : op.Shift pI pJ) (hJ : SectorList n pJ sJ) (hpos : pos < n) {s : ℕ}
    (hs : InSector n pI s) (hc : op.check s pos ≠ 0) (junk : ℕ) :
    ∃ iJ, ∃ h : iJ < sJ.length, op.apply s pos n = .ok (fsgn s pos n, sJ[iJ]) ∧ binsearch junk sJ sJ[iJ] = iJ ∧
      ∀ ju (h' : ju < sJ.length), op.mat (⟨pos, hpos⟩ : Fin n) (occF n sJ[ju]) (occF n s)
        = if ju = iJ then (fsgn s pos n : ℝ) else 0 := by
  have h32 : s < 2 ^ 32 := lt_of_lt_of_le hs.1 (Nat.pow_le_pow_right (by norm_num) hn)
  have hp32 : pos < 32 := lt_of_lt_of_le hpos hn
  have hmem : flip s pos ∈ sJ := by
    rw [hJ.mem]
    refine ⟨flip_lt hs.1 hpos, ?_⟩
    rw [← card_occF (flip_lt hs.1 hpos)]
    have h2 := card_occF hs.1
    rw [hs.2] at h2
    cases op with
    | c =>
      have hb : s.testBit pos = true := by simpa [Ladder.check, checkFull_eq] using hc
      have := occF_flip_of_full (i := (⟨pos, hpos⟩ : Fin n)) hn hs.1 hb
      simp only at this
      rw [this, Finset.card_erase_of_mem (by simp [hb]), h2]
      simp only [Ladder.Shift] at hsh; omega
    | cdg =>
      have hb : s.testBit pos = false := by simpa [Ladder.check, checkEmpty_eq] using hc
      have := occF_flip_of_empty (i := (⟨pos, hpos⟩ : Fin n)) hn hs.1 hb
      simp only at this
      rw [this, Finset.card_insert_of_notMem (by simp [hb]), h2]
      simp only [Ladder.Shift] at hsh; omega
  obtain ⟨iJ, hiJ, he⟩ := List.getElem_of_mem hmem
  refine ⟨iJ, hiJ, ?_, binsearch_getElem hJ.sorted hiJ, ?_⟩
  · rw [he]
    cases op with
    | c => exact c_of_full h32 hp32 (by simpa [Ladder.check, checkFull_eq] using hc)
    | cdg => exact cdg_of_empty h32 hp32 (by simpa [Ladder.check, checkEmpty_eq] using hc)
  · intro ju hju
    have hiff : ju = iJ ↔ occF n sJ[ju] = occF n (flip s pos) := by
      rw [← he]
      constructor
      · intro h; subst h; rfl
      · intro h
        have := occF_inj ((hJ.mem _).mp (List.getElem_mem hju)).1 ((hJ.mem _).mp (List.getElem_mem hiJ)).1 h
        exact (hJ.nodup.getElem_inj_iff).mp this
    simp only [hiff]
    have hsg : (fsgn s pos n : ℝ) = ((sgn (⟨pos, hpos⟩ : Fin n) (occF n s) : ℤ) : ℝ) := by
      rw [← fsgn_eq_sgn]
    rw [hsg]
    cases op with
    | c =>
      have hb : s.testBit pos = true := by simpa [Ladder.check, checkFull_eq] using hc
      have := occF_flip_of_full (i := (⟨pos, hpos⟩ : Fin n)) hn hs.1 hb
      simp only at this
      simp only [Ladder.mat]
      rw [ann_apply, if_pos (by simp [hb]), this]
    | cdg =>
      have hb : s.testBit pos = false := by simpa [Ladder.check, checkEmpty_eq] using hc
      have := occF_flip_of_empty (i := (⟨pos, hpos⟩ : Fin n)) hn hs.1 hb
      simp only at this
      simp only [Ladder.mat]
      rw [cre_apply, if_pos (by simp [hb]), this]

theorem ladder_nocheck (hpos : pos < n) {s : ℕ} (hc : ¬ op.check s pos ≠ 0) (T : Finset (Fin n)) :
    op.mat (⟨pos, hpos⟩ : Fin n) T (occF n s) = 0 := by
  cases op with
  | c =>
    have hb : s.testBit pos = false := by simpa [Ladder.check, checkFull_eq] using hc
    simp only [Ladder.mat]
    rw [ann_apply, if_neg (by simp [hb])]
  | cdg =>
    have hb : s.testBit pos = true := by simpa [Ladder.check, checkEmpty_eq] using hc
    simp only [Ladder.mat]
    rw [cre_apply, if_neg (by simp [hb])]
end

theorem filter_range_eq (len : ℕ) (P : ℕ → Bool) (L : List ℕ) (hL : L.Pairwise (· < ·))
    (h : ∀ k, k ∈ L ↔ k < len ∧ P k = true) : (List.range len).filter P = L := by
  apply List.Perm.eq_of_pairwise' (r := (· < ·)) _ hL
  · rw [List.perm_ext_iff_of_nodup]
    · intro k; rw [List.mem_filter, List.mem_range, h]
    · exact List.nodup_range.filter _
    · exact hL.imp (fun h => ne_of_lt h)
  · exact List.Pairwise.filter _ List.pairwise_lt_range

theorem rowsUp_eq {dup dwn i : ℕ} (hi : i < dup) :
    rowsUp (dup * dwn) dup i = .ok ((List.range dwn).map fun k => i + dup * k) := by
  unfold rowsUp pySlice
  simp only
  rw [if_neg (by omega)]
  congr 1
  apply filter_range_eq
  · rw [List.pairwise_map]
    apply List.pairwise_lt_range.imp
    intro a b hab
    have := Nat.mul_lt_mul_of_pos_left hab (show 0 < dup by omega)
    omega
  · intro k
    rw [List.mem_map, decide_eq_true_eq]
    have hi0 : ¬ ((i : ℤ) < 0) := by omega
    rw [if_neg hi0]
    rcases Nat.eq_zero_or_pos dwn with rfl | hd
    · constructor
      · rintro ⟨a, ha, -⟩; simp at ha
      · rintro ⟨h, -⟩; simp at h
    have hle : dup ≤ dup * dwn := Nat.le_mul_of_pos_right _ hd
    have hlo : max (0 : ℤ) (min ((dup * dwn : ℕ) : ℤ) (i : ℤ)) = i := by omega
    rw [hlo]
    constructor
    · rintro ⟨a, ha, rfl⟩
      rw [List.mem_range] at ha
      have h1 : dup * (a + 1) ≤ dup * dwn := Nat.mul_le_mul_left _ ha
      rw [Nat.mul_add, Nat.mul_one] at h1
      refine ⟨by omega, by omega, by omega, ?_⟩
      have : (((i + dup * a : ℕ) : ℤ) - (i : ℤ)) = (dup : ℤ) * a := by push_cast; ring
      rw [this]; exact Int.mul_emod_right _ _
    · rintro ⟨hk, h1, -, h3⟩
      obtain ⟨q, hq⟩ := Int.dvd_of_emod_eq_zero h3
      have hq0 : 0 ≤ q := by
        by_contra hneg
        have hd0 : (0 : ℤ) < dup := by omega
        nlinarith
      obtain ⟨q, rfl⟩ := Int.eq_ofNat_of_zero_le hq0
      refine ⟨q, ?_, ?_⟩
      · rw [List.mem_range]
        by_contra hge
        have : dup * dwn ≤ dup * q := Nat.mul_le_mul_left _ (not_lt.mp hge)
        have h4 : ((dup * q : ℕ) : ℤ) = (dup : ℤ) * (q : ℤ) := by push_cast; ring
        omega
      · have h4 : ((dup * q : ℕ) : ℤ) = (dup : ℤ) * (q : ℤ) := by push_cast; ring
        omega

theorem rowsDw_eq {dup dwn i : ℕ} (hi : i < dwn) :
    rowsDw (dup * dwn) dup i = .ok ((List.range dup).map fun k => k + dup * i) := by
  unfold rowsDw pySlice
  simp only
  rw [if_neg (by omega)]
  congr 1
  apply filter_range_eq
  · rw [List.pairwise_map]
    apply List.pairwise_lt_range.imp
    intro a b hab; omega
  · intro k
    rw [List.mem_map, decide_eq_true_eq]
    have e1 : ((i : ℤ) * (dup : ℤ)) = ((dup * i : ℕ) : ℤ) := by push_cast; ring
    have e2 : (((i : ℤ) + 1) * (dup : ℤ)) = ((dup * i + dup : ℕ) : ℤ) := by push_cast; ring
    have h1 : dup * (i + 1) ≤ dup * dwn := Nat.mul_le_mul_left _ hi
    rw [Nat.mul_add, Nat.mul_one] at h1
    rw [e1, e2, if_neg (by omega), if_neg (by omega)]
    have hlo : max (0 : ℤ) (min ((dup * dwn : ℕ) : ℤ) ((dup * i : ℕ) : ℤ)) = ((dup * i : ℕ) : ℤ) := by omega
    have hhi : max (0 : ℤ) (min ((dup * dwn : ℕ) : ℤ) ((dup * i + dup : ℕ) : ℤ)) = ((dup * i + dup : ℕ) : ℤ) := by omega
    rw [hlo, hhi]
    constructor
    · rintro ⟨a, ha, rfl⟩
      rw [List.mem_range] at ha
      refine ⟨by omega, by omega, by omega, ?_⟩
      simp
    · rintro ⟨hk, h2, h3, -⟩
      exact ⟨k - dup * i, by rw [List.mem_range]; omega, by omega⟩

theorem rowsDot_map (vJ vI : List (ℕ → ℝ)) (m : ℕ) (f g : ℕ → ℕ) (j k : ℕ) :
    rowsDot vJ vI ((List.range m).map f) ((List.range m).map g) j k
      = ∑ a ∈ Finset.range m, (vJ[j]?.getD 0) (f a) * (vI[k]?.getD 0) (g a) := by
  unfold rowsDot
  rw [List.zip_map', List.map_map, ← sum_map_range]; rfl

theorem foldl_add_fun {α β γ : Type} (f : α → β → γ → ℝ) (l : List α) (v : β → γ → ℝ) :
    l.foldl (fun v i => fun j k => v j k + f i j k) v = fun j k => v j k + (l.map fun i => f i j k).sum := by
  induction l generalizing v with
  | nil => simp
  | cons x xs ih => rw [List.foldl_cons, ih]; funext j k; simp [add_assoc]

/-- The loop of `project_exact_*` in closed form. `m` is the size of the spectator spin, `f`/`g` the row numbers. -/
theorem projectExact_loop {n pI pJ pos junk : ℕ} {sI sJ : List ℕ} {op : Ladder} (hn : n ≤ 32) (hpos : pos < n)
    (hsh : op.Shift pI pJ) (hI : SectorList n pI sI) (hJ : SectorList n pJ sJ) (rows : ℕ → ℕ → ℤ → Except PyErr (List ℕ))
    (dupI dupJ m : ℕ) (I J : Sct) (hlI : I.eigvecs.length = I.eigvals.length) (hlJ : J.eigvecs.length = J.eigvals.length)
    (fJ fI : ℕ → ℕ → ℕ)
    (hrJ : ∀ i, i < sJ.length → rows J.d dupJ i = .ok ((List.range m).map (fJ i)))
    (hrI : ∀ i, i < sI.length → rows I.d dupI i = .ok ((List.range m).map (fI i))) :
    forM' (projectExactStep rows junk op pos n sI sJ dupI dupJ I J) (List.range sI.length) (fun _ _ => 0)
      = .ok fun j k => ∑ iI : Fin sI.length, ∑ iJ : Fin sJ.length,
          op.mat (⟨pos, hpos⟩ : Fin n) (occF n sJ[iJ]) (occF n sI[iI]) *
            ∑ a ∈ Finset.range m, (J.eigvecs[j]?.getD 0) (fJ iJ a) * (I.eigvecs[k]?.getD 0) (fI iI a) := by
  let G : ℕ → ℕ → ℕ → ℝ := fun iI j k => if h : iI < sI.length then ∑ iJ : Fin sJ.length,
          op.mat (⟨pos, hpos⟩ : Fin n) (occF n sJ[iJ]) (occF n (sI[iI])) *
            ∑ a ∈ Finset.range m, (J.eigvecs[j]?.getD 0) (fJ iJ a) * (I.eigvecs[k]?.getD 0) (fI iI a) else 0
  rw [forM'_ok _ (fun v0 iI => fun j k => v0 j k + G iI j k), foldl_add_fun]
  · congr 1
    funext j k
    rw [zero_add, sum_map_range, Finset.sum_range]
    apply Finset.sum_congr rfl
    intro iI _
    simp only [G, iI.2, dif_pos]; rfl
  · intro v0 iI hi
    rw [List.mem_range] at hi
    unfold projectExactStep
    rw [getItem_natCast _ _ hi]
    simp only [bind, Except.bind, pure, Except.pure]
    have hs := (hI.mem _).mp (List.getElem_mem hi)
    by_cases hc : op.check sI[iI] pos ≠ 0
    · rw [if_pos hc]
      obtain ⟨iJ, hiJ, ha, hb, hm⟩ := ladder_check hn hsh hJ hpos hs hc junk
      rw [ha]
      simp only [hb, hrJ iJ hiJ, hrI iI hi]
      rw [if_neg (by simp), if_neg (by simp [hlI, hlJ])]
      congr 1
      funext j k
      rw [rowsDot_map]
      simp only [G, hi, dif_pos]
      congr 1
      rw [Finset.sum_eq_single (⟨iJ, hiJ⟩ : Fin sJ.length)]
      · simp [hm iJ hiJ]
      · intro b _ hb'
        have := hm b b.2
        rw [if_neg (fun h => hb' (Fin.ext h))] at this
        simp only [Fin.getElem_fin, this, zero_mul]
      · simp
    · rw [if_neg hc]
      congr 1
      funext j k
      simp only [G, hi, dif_pos, ladder_nocheck hpos hc, zero_mul, Finset.sum_const_zero, add_zero]

/-- `⟨x| A |y⟩` for coefficient arrays. -/
theorem ket_dot (n : ℕ) (upJ dwJ upI dwI : List ℕ) (x y : ℕ → ℝ) (A : Matrix (Finset (Fin (n + n))) (Finset (Fin (n + n))) ℝ) :
    ket n upJ dwJ x ⬝ᵥ (A.mulVec (ket n upI dwI y)) =
      ∑ ju : Fin upJ.length, ∑ jd : Fin dwJ.length, ∑ iu : Fin upI.length, ∑ id : Fin dwI.length,
        x (ju + upJ.length * jd) * A (occ2 n upJ[ju] dwJ[jd]) (occ2 n upI[iu] dwI[id]) * y (iu + upI.length * id) := by
  have h1 : ∀ T, A.mulVec (ket n upI dwI y) T = ∑ iu : Fin upI.length, ∑ id : Fin dwI.length,
      A T (occ2 n upI[iu] dwI[id]) * y (iu + upI.length * id) := by
    intro T
    unfold Matrix.mulVec dotProduct ket
    simp only [Finset.mul_sum]
    rw [Finset.sum_comm]
    apply Finset.sum_congr rfl; intro iu _
    rw [Finset.sum_comm]
    apply Finset.sum_congr rfl; intro id _
    simp only [mul_ite, mul_zero]
    rw [Finset.sum_ite_eq' Finset.univ]; simp
  unfold dotProduct
  simp only [h1]
  unfold ket
  simp only [Finset.sum_mul]
  rw [Finset.sum_comm]
  apply Finset.sum_congr rfl; intro ju _
  rw [Finset.sum_comm]
  apply Finset.sum_congr rfl; intro jd _
  simp only [ite_mul, zero_mul]
  rw [Finset.sum_ite_eq' Finset.univ]
  simp only [Finset.mem_univ, if_true, Finset.mul_sum]
  apply Finset.sum_congr rfl; intro iu _
  apply Finset.sum_congr rfl; intro id _
  ring

theorem ladder_up {n : ℕ} (op : Ladder) (i : Fin n) : op.mat (orb false i) = lift2 (op.mat i) (par ℝ n) := by
  cases op
  · exact ann_up i
  · exact cre_up i

theorem ladder_dw {n : ℕ} (op : Ladder) (i : Fin n) : op.mat (orb true i) = lift2 1 (op.mat i) := by
  cases op
  · exact ann_dw i
  · exact cre_dw i

end Edpyt
