import Verif.Spec.CodeHam
import Verif.Proof.NonLocalSz
/-!
Dense form of the non-local matrix of an Sz sector.
-/
namespace Edpyt
open Spec

variable {K : Type} [Field K] [LinearOrder K]

/-- Matrix element of a single hop in terms of the code's `cdgc` and lookup. -/
theorem hop_elem {n p : ℕ} (hn : n ≤ 32) {L : List ℕ} (hL : SectorList n p L) (bj : ℕ) {s : ℕ} (hs : s ∈ L)
    (i j : Fin n) (hne : i ≠ j) (c : ℕ) (hc : c < L.length) :
    (cre K i * ann K j) (occF n L[c]) (occF n s) = if (s.testBit i = false ∧ s.testBit j = true) ∧
      binsearch bj L (cdgc s i j).2 = c then ((cdgc s i j).1 : K) else 0 := by
  have hsS := (hL.mem s).mp hs
  have hs32 : s < 2 ^ 32 := lt_of_lt_of_le hsS.1 (Nat.pow_le_pow_right (by norm_num) hn)
  have hcS := (hL.mem L[c]).mp (List.getElem_mem _)
  rw [mul_ann_apply, cre_apply]
  simp only [mem_occF]
  cases hbj : s.testBit j with
  | false => simp
  | true =>
    cases hbi : s.testBit i with
    | true => simp [hbi, hne]
    | false =>
      have hbi' : (flip s j).testBit i = false := by
        rw [flip_testBit hs32 (by omega), if_neg (fun h => hne (Fin.ext h)), hbi]
      have hf : (cdgc s i j).2 = flip (flip s j) i := cdgc_snd hs32 (by omega) (by omega)
      have hfm := cdgc_mem hn hL hs i.2 j.2 hbj hbi
      have hocc : occF n (cdgc s i j).2 = insert i ((occF n s).erase j) := by
        rw [hf, occF_flip_of_empty hn (flip_lt hsS.1 j.2) hbi', occF_flip_of_full hn hsS.1 hbj]
      have hsgn : (cdgc s i j).1 = sgn j (occF n s) * sgn i ((occF n s).erase j) := by
        show getParity s i j = _
        rw [cdgc_sign hn hsS.1 hbj hbi, fsgn_eq_sgn, fsgn_eq_sgn, occF_flip_of_full hn hsS.1 hbj]
      rw [if_pos rfl, if_pos (by simp [hbi]), binsearch_idxOf hL bj hfm]
      simp only [true_and, Nat.cast_inj]
      by_cases he : L.idxOf (cdgc s i j).2 = c
      · have he' := (idxOf_eq_iff hL.nodup hfm hc).mp he
        rw [if_pos he, if_pos (by rw [← he', hocc]), hsgn]
        push_cast; ring
      · rw [if_neg he, if_neg]
        · simp
        · rw [← hocc]
          intro h
          exact he ((idxOf_eq_iff hL.nodup hfm hc).mpr
            (occF_inj ((hL.mem _).mp hfm).1 hcS.1 h.symm))

theorem binsearch_range {n p : ℕ} {L : List ℕ} (hL : SectorList n p L) (bj : ℕ) {f : ℕ} (hf : f ∈ L) :
    0 ≤ binsearch bj L f ∧ binsearch bj L f < L.length := by
  rw [binsearch_idxOf hL bj hf]
  have := List.idxOf_lt_length_of_mem hf
  omega

theorem index_split {a b : ℤ} {d ju jd : ℕ} (hb : 0 ≤ b ∧ b < d) (hju : ju < d) :
    a * d + b = ((ju + d * jd : ℕ) : ℤ) ↔ a = jd ∧ b = ju := by
  constructor
  · intro h
    push_cast at h
    have hbu : b = (ju : ℤ) := by
      have := congrArg (· % (d : ℤ)) h
      simp only [mul_comm a, Int.add_mul_emod_self_left, Int.mul_add_emod_self_left] at this
      rwa [Int.emod_eq_of_lt hb.1 hb.2, Int.emod_eq_of_lt (by omega) (by exact_mod_cast hju)] at this
    subst hbu
    refine ⟨?_, rfl⟩
    have hd : (d : ℤ) ≠ 0 := by omega
    apply mul_right_cancel₀ hd
    linarith
  · rintro ⟨rfl, rfl⟩; push_cast; ring

theorem nlRows_getElem (bj n : ℕ) (up dw : List ℕ) (Jx Jp : Option (ℕ → ℕ → K)) (iu id : ℕ) (hu : iu < up.length)
    (hd : id < dw.length) (h : iu + up.length * id < (nlRows bj n up dw Jx Jp).length) :
    (nlRows bj n up dw Jx Jp)[iu + up.length * id] = nlEntries bj n up dw Jx Jp up[iu] dw[id] := by
  have hm := map_ndindex2 dw up (fun sdw sup => nlEntries bj n up dw Jx Jp sup sdw)
  have : (nlRows bj n up dw Jx Jp)[iu + up.length * id]? = some (nlEntries bj n up dw Jx Jp up[iu] dw[id]) := by
    unfold nlRows
    rw [← hm, List.getElem?_map, List.getElem?_eq_getElem (by
      rw [nlRows_length] at h; rw [length_ndindex2]; exact h), getElem_ndindex2]
    have e1 : (iu + up.length * id) / up.length = id := by
      rw [Nat.add_mul_div_left _ _ (by omega), Nat.div_eq_of_lt hu, zero_add]
    have e2 : (iu + up.length * id) % up.length = iu := by
      rw [Nat.add_mul_mod_self_left, Nat.mod_eq_of_lt hu]
    simp [e1, e2, hu, hd]
  rw [List.getElem?_eq_getElem h] at this
  exact Option.some.inj this

theorem pairIndex_lt {a b iu id : ℕ} (hu : iu < a) (hd : id < b) : iu + a * id < b * a := by
  have : a * id + a ≤ b * a := by
    calc a * id + a = (id + 1) * a := by ring
      _ ≤ b * a := Nat.mul_le_mul_right _ hd
  omega

section dense
variable {n p q : ℕ} (hn : n ≤ 32) {up dw : List ℕ} (hu : SectorList n p up) (hd : SectorList n q dw) (bj : ℕ)
include hn hu hd

theorem sum_xEntries (A : ℕ → ℕ → K) (iu id ju jd : ℕ) (hiu : iu < up.length) (hid : id < dw.length)
    (hju : ju < up.length) (hjd : jd < dw.length) :
    ((xEntries bj n up dw A up[iu] dw[id]).map fun x => if x.2 = ((ju + up.length * jd : ℕ) : ℤ) then x.1 else 0).sum =
      - (∑ i, ∑ j, offdiag (n := n) A i j • lift2 (cre K i * ann K j) (cre K j * ann K i))
        (occ2 n up[ju] dw[jd]) (occ2 n up[iu] dw[id]) := by
  have hsu := List.getElem_mem (l := up) (n := iu) hiu
  have hsd := List.getElem_mem (l := dw) (n := id) hid
  have hcu := (hu.mem up[ju]).mp (List.getElem_mem _)
  have hru := (hu.mem up[iu]).mp (List.getElem_mem _)
  unfold xEntries
  rw [sum_rowTerm, Matrix.sum_apply, ← Finset.sum_neg_distrib]
  apply Finset.sum_congr rfl; intro i _
  rw [Matrix.sum_apply, ← Finset.sum_neg_distrib]
  apply Finset.sum_congr rfl; intro j _
  rw [Matrix.smul_apply, lift2_occ2 _ _ hcu.1 hru.1, smul_eq_mul, offdiag]
  by_cases hk : i ≠ j ∧ |A i j| > 1 / 10 ^ 7
  · rw [if_pos hk, hop_elem hn hu bj hsu i j hk.1 ju hju, hop_elem hn hd bj hsd j i hk.1.symm jd hjd]
    have hkey : up[iu].testBit i = false → up[iu].testBit j = true → _ := fun b1 b2 =>
      index_split (a := binsearch bj dw (cdgc dw[id] j i).2) (jd := jd)
        (binsearch_range hu bj (cdgc_mem hn hu hsu i.2 j.2 b2 b1)) hju
    generalize ((ju + up.length * jd : ℕ) : ℤ) = C at hkey ⊢
    simp only [eq_true hk, true_and]
    cases b1 : up[iu].testBit i <;> cases b2 : up[iu].testBit j <;> cases b3 : dw[id].testBit i <;>
      cases b4 : dw[id].testBit j <;> simp [-Nat.cast_add, -Nat.cast_mul]
    simp only [hkey b1 b2]
    by_cases c1 : binsearch bj up (cdgc up[iu] i j).2 = ju <;> by_cases c2 : binsearch bj dw (cdgc dw[id] j i).2 = jd <;>
      simp [c1, c2]
    ring
  · rw [if_neg hk, if_neg (fun h => hk h.1)]; simp

theorem sum_pEntries (A : ℕ → ℕ → K) (iu id ju jd : ℕ) (hiu : iu < up.length) (hid : id < dw.length)
    (hju : ju < up.length) (hjd : jd < dw.length) :
    ((pEntries bj n up dw A up[iu] dw[id]).map fun x => if x.2 = ((ju + up.length * jd : ℕ) : ℤ) then x.1 else 0).sum =
      (∑ i, ∑ j, offdiag (n := n) A i j • lift2 (cre K i * ann K j) (cre K i * ann K j))
        (occ2 n up[ju] dw[jd]) (occ2 n up[iu] dw[id]) := by
  have hsu := List.getElem_mem (l := up) (n := iu) hiu
  have hsd := List.getElem_mem (l := dw) (n := id) hid
  have hcu := (hu.mem up[ju]).mp (List.getElem_mem _)
  have hru := (hu.mem up[iu]).mp (List.getElem_mem _)
  unfold pEntries
  rw [sum_rowTerm, Matrix.sum_apply]
  apply Finset.sum_congr rfl; intro i _
  rw [Matrix.sum_apply]
  apply Finset.sum_congr rfl; intro j _
  rw [Matrix.smul_apply, lift2_occ2 _ _ hcu.1 hru.1, smul_eq_mul, offdiag]
  by_cases hk : i ≠ j ∧ |A i j| > 1 / 10 ^ 7
  · rw [if_pos hk, hop_elem hn hu bj hsu i j hk.1 ju hju, hop_elem hn hd bj hsd i j hk.1 jd hjd]
    have hkey : up[iu].testBit i = false → up[iu].testBit j = true → _ := fun b1 b2 =>
      index_split (a := binsearch bj dw (cdgc dw[id] i j).2) (jd := jd)
        (binsearch_range hu bj (cdgc_mem hn hu hsu i.2 j.2 b2 b1)) hju
    generalize ((ju + up.length * jd : ℕ) : ℤ) = C at hkey ⊢
    simp only [eq_true hk, true_and]
    cases b1 : up[iu].testBit i <;> cases b2 : up[iu].testBit j <;> cases b3 : dw[id].testBit i <;>
      cases b4 : dw[id].testBit j <;> simp [-Nat.cast_add, -Nat.cast_mul]
    simp only [hkey b1 b2]
    by_cases c1 : binsearch bj up (cdgc up[iu] i j).2 = ju <;> by_cases c2 : binsearch bj dw (cdgc dw[id] i j).2 = jd <;>
      simp [c1, c2]
    ring
  · rw [if_neg hk, if_neg (fun h => hk h.1)]; simp

end dense

theorem lift2_hop_transpose {R : Type} [CommRing R] {n : ℕ} (i j k l : Fin n) (S T : Finset (Fin (n + n))) :
    lift2 (cre R i * ann R j) (cre R k * ann R l) S T = lift2 (cre R j * ann R i) (cre R l * ann R k) T S := by
  have h : (lift2 (cre R i * ann R j) (cre R k * ann R l)).transpose = lift2 (cre R j * ann R i) (cre R l * ann R k) := by
    rw [lift2_transpose, Matrix.transpose_mul, Matrix.transpose_mul]; rfl
  rw [← h, Matrix.transpose_apply]

theorem offdiag_symm {n : ℕ} {A : ℕ → ℕ → K} (hA : ∀ i j, i < n → j < n → A i j = A j i) (i j : Fin n) :
    offdiag (n := n) A i j = offdiag (n := n) A j i := by
  simp only [offdiag, hA (j : ℕ) (i : ℕ) j.2 i.2, ne_comm]

theorem offdiag_zero {n : ℕ} (i j : Fin n) : offdiag (n := n) (fun _ _ => (0 : K)) i j = 0 := by
  simp [offdiag]

theorem exchangeFlip_symm [CharZero K] {n : ℕ} (J : Fin n → Fin n → K) (hJ : ∀ i j, J i j = J j i) (S T) :
    exchangeFlip J S T = exchangeFlip J T S := by
  rw [exchangeFlip_eq J hJ]
  simp only [Matrix.sum_apply, Matrix.smul_apply]
  rw [Finset.sum_comm]
  apply Finset.sum_congr rfl; intro i _
  apply Finset.sum_congr rfl; intro j _
  rw [lift2_hop_transpose, hJ]

theorem pairHopping_symm [CharZero K] {n : ℕ} (J : Fin n → Fin n → K) (hJ : ∀ i j, J i j = J j i) (S T) :
    pairHopping J S T = pairHopping J T S := by
  rw [pairHopping_eq J]
  simp only [Matrix.sum_apply, Matrix.smul_apply]
  rw [Finset.sum_comm]
  apply Finset.sum_congr rfl; intro i _
  apply Finset.sum_congr rfl; intro j _
  rw [lift2_hop_transpose, hJ]

theorem occ2_inj {n tu td su sd : ℕ} (h1 : tu < 2 ^ n) (h2 : td < 2 ^ n) (h3 : su < 2 ^ n) (h4 : sd < 2 ^ n) :
    occ2 n tu td = occ2 n su sd ↔ tu = su ∧ td = sd := by
  constructor
  · intro h
    refine ⟨occF_inj h1 h3 ?_, occF_inj h2 h4 ?_⟩
    · rw [← upPart_occ2 (sdw := td) h1, h, upPart_occ2 h3]
    · rw [← dwPart_occ2 (sdw := td) h1, h, dwPart_occ2 h3]
  · rintro ⟨rfl, rfl⟩; rfl

theorem nlDiag_eq_same {n : ℕ} (J : Option (ℕ → ℕ → K)) {su sd : ℕ} (hs : su < 2 ^ n) :
    nlDiag n J su sd = exchangeSame (offdiag (n := n) (optMat J)) (occ2 n su sd) (occ2 n su sd) := by
  rw [exchangeSame_occ2 _ (by intro i; simp [offdiag]) hs, if_pos rfl]
  cases J with
  | none =>
    simp only [nlDiag, Option.elim, optMat, Option.getD]
    simp only [offdiag_zero]; simp
  | some A => simp only [nlDiag, Option.elim, optMat, Option.getD]; ring

end Edpyt
