import Verif.Model.Hopping
import Verif.Spec.Hopping
import Verif.Proof.Csr
import Verif.Proof.Counting
import Verif.Props.Lookup
import Mathlib.Tactic.Ring
import Mathlib.Algebra.BigOperators.Fin
/-!
Lemmas about `build_ham_hopping`.
-/
namespace Edpyt
open Spec

variable {K : Type} [Field K] [LinearOrder K]

theorem binsearch_idxOf {n p : ℕ} {L : List ℕ} (hL : SectorList n p L) (bj : ℕ) {f : ℕ} (hf : f ∈ L) :
    binsearch bj L f = (L.idxOf f : ℤ) := by
  have h := binsearch_getElem (junk := bj) hL.sorted (List.idxOf_lt_length_of_mem hf)
  rwa [List.getElem_idxOf] at h

theorem idxOf_eq_iff {L : List ℕ} (hL : L.Nodup) {f c : ℕ} (hf : f ∈ L) (hc : c < L.length) :
    L.idxOf f = c ↔ f = L[c] := by
  constructor
  · rintro rfl; rw [List.getElem_idxOf]
  · rintro rfl; exact List.Nodup.idxOf_getElem hL c hc

theorem countBits_particles {n s : ℕ} (hs : s < 2 ^ n) : countBits s n = particles s := by
  rw [countBits_eq, ← card_occF hs, occF, Finset.card_filter, Finset.card_filter, Finset.sum_range]

theorem flip_inSector {n p s : ℕ} (hn : n ≤ 32) {i j : Fin n} (hs : InSector n p s)
    (hj : s.testBit j = true) (hi : s.testBit i = false) : InSector n p (flip (flip s j) i) := by
  have hne : i ≠ j := fun h => by rw [h, hj] at hi; simp at hi
  have hs32 : s < 2 ^ 32 := lt_of_lt_of_le hs.1 (Nat.pow_le_pow_right (by norm_num) hn)
  have h1 : flip s j < 2 ^ n := flip_lt hs.1 j.2
  have h2 : flip (flip s j) i < 2 ^ n := flip_lt h1 i.2
  have hi' : (flip s j).testBit i = false := by
    rw [flip_testBit hs32 (by omega), if_neg (fun h => hne (Fin.ext h)), hi]
  refine ⟨h2, ?_⟩
  rw [← card_occF h2, occF_flip_of_empty hn h1 hi', Finset.card_insert_of_notMem (by simp [hi']),
    occF_flip_of_full hn hs.1 hj, Finset.card_erase_add_one (by simp [hj]), card_occF hs.1, hs.2]

/-- Elements contributed by the pair `(i, j)` to the row of state `s`. -/
def hopPair (A : ℕ → ℕ → K) (L : List ℕ) (s i j : ℕ) : List (K × ℤ) :=
  if keepElem A i j = true ∧ s.testBit i = false ∧ s.testBit j = true then
    [(A i j * ((cdgc s i j).1 : K), (L.idxOf (cdgc s i j).2 : ℤ))] else []

/-- Elements of the row of state `s`. -/
def hopEntries (n : ℕ) (A : ℕ → ℕ → K) (L : List ℕ) (s : ℕ) : List (K × ℤ) :=
  (List.range n).flatMap fun i => (List.range n).flatMap fun j => hopPair A L s i j

theorem flatMap_filter_map {α β γ : Type} (l : List α) (q : α → Bool) (f : α → β) (g : β → List γ) :
    (((l.filter q).map f).flatMap g) = l.flatMap fun x => if q x then g (f x) else [] := by
  induction l with
  | nil => rfl
  | cons x xs ih =>
    rw [List.filter_cons, List.flatMap_cons]
    split_ifs with h
    · rw [List.map_cons, List.flatMap_cons, ih]
    · rw [ih, List.nil_append]

theorem cdgc_mem {n p s : ℕ} (hn : n ≤ 32) {L : List ℕ} (hL : SectorList n p L) (hs : s ∈ L) {i j : ℕ}
    (hi : i < n) (hj : j < n) (hbj : s.testBit j = true) (hbi : s.testBit i = false) : (cdgc s i j).2 ∈ L := by
  have hs' := (hL.mem s).mp hs
  have hs32 : s < 2 ^ 32 := lt_of_lt_of_le hs'.1 (Nat.pow_le_pow_right (by norm_num) hn)
  rw [cdgc_snd hs32 (by omega) (by omega), hL.mem]
  exact flip_inSector (i := ⟨i, hi⟩) (j := ⟨j, hj⟩) hn hs' hbj hbi

theorem hopRow_emits {n p : ℕ} (hn : n ≤ 32) {L : List ℕ} (hL : SectorList n p L) (bj : ℕ) (A : ℕ → ℕ → K)
    {T : Csr K} (hT : IsCsr T ((List.range n).map (keptRow n A))) {s : ℕ} (hs : s ∈ L) {i : ℕ} (hi : i < n)
    (cap : ℕ) (P : List ℤ) (r c : ℕ) :
    Emits cap P r c (fun st => hopRow bj L T s st i)
      ((List.range n).flatMap fun j => hopPair A L s i j) := by
  cases hb : s.testBit i with
  | true =>
    have e1 : ((List.range n).flatMap fun j => hopPair A L s i j) = [] := by
      simp [hopPair, hb]
    have e2 : checkEmpty s i = 0 := by rw [checkEmpty_eq, hb]; rfl
    rw [e1]
    simp only [hopRow, e2, ne_eq, not_true_eq_false, if_false]
    exact emits_pure _ _ _ _
  | false =>
    have e2 : checkEmpty s i ≠ 0 := by rw [checkEmpty_eq, hb]; simp
    simp only [hopRow, e2, ne_eq, not_false_eq_true, if_true]
    have hrow : ((List.range n).map (keptRow n A))[i]'(by simpa using hi) = keptRow n A i := by simp
    have := emits_rowLoop (cap := cap) (P := P) (r := r) (c := c) hT i (by simpa using hi)
      (hopElem bj L T s i) (fun x => if s.testBit x.2.toNat = true then
        [(x.1 * ((cdgc s i x.2.toNat).1 : K), (L.idxOf (cdgc s i x.2.toNat).2 : ℤ))] else []) (by
        intro q x hx hd hix
        rw [hrow, keptRow, List.mem_map] at hx
        obtain ⟨j, hj, rfl⟩ := hx
        have hjn : j < n := by simpa using (List.mem_filter.mp hj).1
        simp only at hd hix
        simp only [hopElem, getItem_of_getElem? hd, getItem_of_getElem? hix, bind, Except.bind, Int.toNat_natCast]
        rw [checkFull_eq]
        cases hbj : s.testBit j with
        | false => simp; exact emits_pure _ _ _ _
        | true =>
          simp only [Bool.toNat_true, ne_eq, one_ne_zero, not_false_eq_true, if_true]
          rw [binsearch_idxOf hL bj (cdgc_mem hn hL hs hi hjn hbj hb)]
          exact emits_put _ _ _ _ _ _)
    rw [hrow, keptRow, flatMap_filter_map] at this
    convert this using 2
    funext j
    simp only [hopPair, hb, Int.toNat_natCast, true_and]
    by_cases h1 : keepElem A i j = true
    · simp [h1]
    · simp [h1]

theorem length_hopPair (A : ℕ → ℕ → K) (L : List ℕ) (s i j : ℕ) :
    (hopPair A L s i j).length = if keepElem A i j = true then
      (if s.testBit i = false ∧ s.testBit j = true then 1 else 0) else 0 := by
  unfold hopPair
  by_cases h1 : keepElem A i j = true <;> by_cases h2 : s.testBit i = false ∧ s.testBit j = true <;>
    simp [h1, h2]

theorem length_hopEntries (n : ℕ) (A : ℕ → ℕ → K) (L : List ℕ) (s : ℕ) :
    (hopEntries n A L s).length = ∑ i ∈ Finset.range n, ∑ j ∈ Finset.range n,
      if keepElem A i j = true then (if s.testBit i = false ∧ s.testBit j = true then 1 else 0) else 0 := by
  unfold hopEntries
  rw [List.length_flatMap, sum_map_range]
  apply Finset.sum_congr rfl
  intro i _
  rw [List.length_flatMap, sum_map_range]
  exact Finset.sum_congr rfl fun j _ => length_hopPair A L s i j

theorem keepElem_ne {A : ℕ → ℕ → K} {i j : ℕ} (h : keepElem A i j = true) : i ≠ j := by
  unfold keepElem at h; simp at h; exact h.1

theorem countNnz_sum (n : ℕ) (A : ℕ → ℕ → K) : countNnzOffdiag n A =
    ∑ i ∈ Finset.range n, ∑ j ∈ Finset.range n, if keepElem A i j = true then 1 else 0 := by
  rw [countNnzOffdiag_eq, List.length_flatten, List.map_map, sum_map_range]
  apply Finset.sum_congr rfl
  intro i _
  simp only [Function.comp]
  rw [keptRow_flatMap, List.length_flatMap, sum_map_range]
  apply Finset.sum_congr rfl
  intro j _
  split_ifs <;> rfl

theorem total_hop {n p : ℕ} {L : List ℕ} (hL : SectorList n p L) (A : ℕ → ℕ → K) :
    ((L.map (hopEntries n A L)).flatten).length = countNnzOffdiag n A * binom (n - 2) ((p : ℤ) - 1) := by
  rw [List.length_flatten, List.map_map, sum_map_toFinset _ hL.nodup, hL.toFinset]
  simp only [Function.comp, length_hopEntries]
  rw [Finset.sum_comm, countNnz_sum, Finset.sum_mul]
  apply Finset.sum_congr rfl
  intro i hi
  rw [Finset.sum_comm, Finset.sum_mul]
  apply Finset.sum_congr rfl
  intro j hj
  split_ifs with hk
  · rw [one_mul, ← card_empty_full (p := p) (Finset.mem_range.mp hi) (Finset.mem_range.mp hj) (keepElem_ne hk),
      Finset.card_filter]
  · simp

theorem buildSpinHopping_core {n p : ℕ} (h2 : 2 ≤ n) (hn : n ≤ 32) (hp : p ≤ n) {L : List ℕ}
    (hL : SectorList n p L) (jk : Junk K) (bj : ℕ) (A : ℕ → ℕ → K) :
    ∃ st, buildSpinHopping jk bj n A L = .ok st ∧ IsCsr st.2 (L.map (hopEntries n A L)) ∧
      st.1 = countNnzOffdiag n A * binom (n - 2) ((p : ℤ) - 1) ∧ st.2.cols = L.length ∧
      st.2.data.length = st.1 ∧ st.2.indices.length = st.1 := by
  have hlen : 0 < L.length := by rw [hL.len]; exact Nat.choose_pos hp
  have h0 : getItem L 0 = .ok L[0] := getItem_natCast L 0 hlen
  have hs0 := (hL.mem L[0]).mp (List.getElem_mem _)
  have hcb : countBits L[0] n = p := by rw [countBits_particles hs0.1, hs0.2]
  obtain ⟨T, hT1, hT2, hT3, -⟩ := nnzOffdiagCsrmat_core jk n A
  have hb : intBinom ((n : ℤ) - 2) ((p : ℤ) - 1) = .ok (binom (n - 2) ((p : ℤ) - 1)) := by
    unfold intBinom
    rw [if_neg (by omega)]
    have : ((n : ℤ) - 2).toNat = n - 2 := by omega
    rw [this]
  set cap := countNnzOffdiag n A * binom (n - 2) ((p : ℤ) - 1) with hcap
  obtain ⟨st, h3, h4⟩ := rowsDone_loop (addHoppings bj L T) (fun k => hopEntries n A L (L[k]?.getD 0))
    (List.range L.length) [] _ (rowsDone_empty jk cap L.length L.length) (by
      intro k hk rows' st' hl hst hroom
      have hkL : k < L.length := by simpa using hk
      simp only [List.getElem_range, List.length_nil, Nat.zero_add] at hl hroom ⊢
      have hTr : T.rows = n := by rw [hT2.2.2.2]; simp
      have := rowsDone_step (f := forM' (hopRow bj L T L[k]) (List.range T.rows))
        (E := hopEntries n A L L[k]) hst (by
          intro P
          rw [hTr]
          exact emits_forM' _ _ _ fun i hi =>
            hopRow_emits hn hL bj A hT2 (List.getElem_mem _) (List.mem_range.mp hi) _ _ _ _)
        (by omega) (by simpa [hkL] using hroom)
      obtain ⟨st'', e1, e2⟩ := this
      refine ⟨st'', ?_, by simpa [hkL] using e2⟩
      unfold addHoppings
      rw [getItem_natCast L k hkL, ← e1, hl]
      rfl) (by
      rw [List.flatMap_def, map_range_getElem L _ (hopEntries n A L) (by intro k hk; simp [hk]), total_hop hL A]
      simp [hcap])
  rw [List.nil_append, map_range_getElem L _ (hopEntries n A L) (by intro k hk; simp [hk])] at h4
  obtain ⟨g1, g2, g3, g4, g5⟩ := isCsr_of_rowsDone h4 (by simp) (total_hop hL A)
  refine ⟨st, ?_, g1, g2, g3, by rw [g2, g4], by rw [g2, g5]⟩
  unfold buildSpinHopping
  simp only [h0, hcb, hT1, hb, bind, Except.bind]
  exact h3

/-- The dense form of one spin component. -/
theorem dense_hop {n p : ℕ} (hn : n ≤ 32) {L : List ℕ} (hL : SectorList n p L) (A : ℕ → ℕ → K)
    {m : Csr K} (hm : IsCsr m (L.map (hopEntries n A L))) (r c : ℕ) (hr : r < L.length) (hc : c < L.length) :
    m.dense r c = oneBody (offdiag (n := n) A) (occF n L[c]) (occF n L[r]) := by
  rw [dense_eq hm r c (by simpa using hr)]
  simp only [List.getElem_map]
  set s := L[r] with hs
  have hsm : s ∈ L := List.getElem_mem _
  have hsS := (hL.mem s).mp hsm
  have hs32 : s < 2 ^ 32 := lt_of_lt_of_le hsS.1 (Nat.pow_le_pow_right (by norm_num) hn)
  have hcS := (hL.mem L[c]).mp (List.getElem_mem _)
  unfold hopEntries
  rw [sum_map_flatMap, sum_map_range, Finset.sum_range, oneBody, Matrix.sum_apply]
  apply Finset.sum_congr rfl
  intro i _
  rw [sum_map_flatMap, sum_map_range, Finset.sum_range, Matrix.sum_apply]
  apply Finset.sum_congr rfl
  intro j _
  rw [Matrix.smul_apply, smul_eq_mul, mul_ann_apply, cre_apply, offdiag]
  unfold hopPair
  have hkeep : keepElem A i j = true ↔ (i ≠ j ∧ |A i j| > 1 / 10 ^ 7) := by
    unfold keepElem
    rw [Bool.and_eq_true, decide_eq_true_iff, decide_eq_true_iff]
    simp [Fin.ext_iff]
  by_cases hk : i ≠ j ∧ |A i j| > 1 / 10 ^ 7
  · rw [if_pos hk]
    have hne := hk.1
    cases hbj : s.testBit j with
    | false => simp [hbj]
    | true =>
      cases hbi : s.testBit i with
      | true => simp [hbi, hne]
      | false =>
        have hbi' : (flip s j).testBit i = false := by
          rw [flip_testBit hs32 (by omega), if_neg (fun h => hne (Fin.ext h)), hbi]
        have hf : (cdgc s i j).2 = flip (flip s j) i := cdgc_snd hs32 (by omega) (by omega)
        have hfm := cdgc_mem hn hL hsm i.2 j.2 hbj hbi
        have hocc : occF n (cdgc s i j).2 = insert i ((occF n s).erase j) := by
          rw [hf, occF_flip_of_empty hn (flip_lt hsS.1 j.2) hbi', occF_flip_of_full hn hsS.1 hbj]
        have hsgn : (cdgc s i j).1 = sgn j (occF n s) * sgn i ((occF n s).erase j) := by
          show getParity s i j = _
          rw [cdgc_sign hn hsS.1 hbj hbi, fsgn_eq_sgn, fsgn_eq_sgn, occF_flip_of_full hn hsS.1 hbj]
        rw [if_pos ⟨hkeep.mpr hk, rfl, rfl⟩, if_pos (by simp [hbj]), if_pos (by simp [hbi])]
        simp only [List.map_cons, List.map_nil, List.sum_cons, List.sum_nil, add_zero, Nat.cast_inj]
        by_cases he : L.idxOf (cdgc s i j).2 = c
        · have he' := (idxOf_eq_iff hL.nodup hfm hc).mp he
          rw [if_pos he, if_pos (by rw [← he', hocc]), hsgn]
          push_cast; ring
        · rw [if_neg he, if_neg]
          · simp
          · rw [← hocc]
            intro h
            exact he ((idxOf_eq_iff hL.nodup hfm hc).mpr
              (occF_inj ((hL.mem _).mp hfm).1 hcS.1 h.symm))
  · rw [if_neg hk, if_neg (fun h => hk (hkeep.mp h.1))]
    simp

end Edpyt
