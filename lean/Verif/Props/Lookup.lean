import Verif.Proof.GenStates
import Verif.Proof.Lookup
/-!
Properties C03, C04, C05, C06, C13: `edpyt/lookup.py`.
-/
namespace Edpyt
open Spec

/-- **C03**, memory safety: no element outside the array is ever inspected (the result does not
depend on what lies there), for any array at all. -/
theorem C03_binsearch_in_bounds (junk junk' : ℕ) (a : List ℕ) (s : ℕ) :
    binsearch junk a s = binsearch junk' a s := by
  have h := binsearchLoop_junk junk junk' a s (-1) a.length (by omega) (by omega) (by omega)
  obtain ⟨r, e1, e2, e3, -, -⟩ := binsearchLoop_inv junk a s (-1) a.length (by omega) (by omega)
    (by omega) (by intro hh; omega) (by intro hh; simp at hh)
  unfold binsearch
  simp only
  rw [← h, e1]
  by_cases hr : r = -1
  · simp [hr]
  · have : r.toNat < a.length := by omega
    simp [List.getElem?_eq_getElem this]

/-- **C03**, soundness on any array: the result is `-1` or the index of an element equal to `s`. -/
theorem C03_binsearch_sound (junk : ℕ) (a : List ℕ) (s : ℕ) :
    binsearch junk a s = -1 ∨
    ∃ i : ℕ, binsearch junk a s = (i : ℤ) ∧ ∃ h : i < a.length, a[i] = s := by
  obtain ⟨r, e1, e2, e3, -, -⟩ := binsearchLoop_inv junk a s (-1) a.length (by omega) (by omega)
    (by omega) (by intro hh; omega) (by intro hh; simp at hh)
  unfold binsearch
  simp only
  rw [e1]
  by_cases hr : r = -1
  · simp [hr]
  · have hb : r.toNat < a.length := by omega
    by_cases hs : a[r.toNat] = s
    · right
      refine ⟨r.toNat, ?_, hb, hs⟩
      rw [List.getElem?_eq_getElem hb]
      simp only [Option.getD_some, hs, ne_eq, not_true_eq_false, or_false]
      rw [if_neg hr]; omega
    · left
      rw [List.getElem?_eq_getElem hb]; simp [hs]

/-- **C03**, completeness on ascending arrays (repetitions allowed): `-1` is returned exactly when
`s` does not occur. -/
theorem C03_binsearch_complete (junk : ℕ) (a : List ℕ) (s : ℕ) (ha : a.Pairwise (· ≤ ·)) :
    binsearch junk a s = -1 ↔ s ∉ a := by
  constructor
  · intro h hs
    obtain ⟨r, e1, e2, e3, e4, e5⟩ := binsearchLoop_inv junk a s (-1) a.length (by omega) (by omega)
      (by omega) (by intro hh; omega) (by intro hh; simp at hh)
    obtain ⟨k, hk, hks⟩ := List.getElem_of_mem hs
    rw [List.pairwise_iff_getElem] at ha
    -- k ≤ r
    have hkr : (k : ℤ) ≤ r := by
      by_contra hc
      have hb : (r + 1).toNat < a.length := by omega
      have h1 := e5 hb
      rcases lt_or_eq_of_le (show (r + 1).toNat ≤ k by omega) with h2 | h2
      · have := ha _ _ hb hk h2; omega
      · have : a[(r + 1).toNat] = a[k] := by congr 1
        omega
    have hb : r.toNat < a.length := by omega
    have h1 := e4 ⟨by omega, hb⟩
    have h2 : a[k] ≤ a[r.toNat] := by
      rcases lt_or_eq_of_le (show k ≤ r.toNat by omega) with h2 | h2
      · exact ha _ _ hk hb h2
      · have : a[r.toNat] = a[k] := by congr 1; omega
        omega
    have h3 : a[r.toNat] = s := by omega
    unfold binsearch at h
    simp only [e1] at h
    rw [if_neg (by rw [List.getElem?_eq_getElem hb]; simp [h3]; omega)] at h
    omega
  · intro h
    rcases C03_binsearch_sound junk a s with h1 | ⟨i, -, hi, h2⟩
    · exact h1
    · exact absurd (h2 ▸ List.getElem_mem hi) h

example : [3, 5, 6, 9, 10, 12].Pairwise (· ≤ ·) := by decide
example : binsearch 0 [3, 5, 6, 9, 10, 12] 9 = 3 ∧ binsearch 0 [3, 5, 6, 9, 10, 12] 7 = -1 ∧
    binsearch 0 [] 7 = -1 := by
  refine ⟨?_, ?_, ?_⟩ <;> simp [binsearch, binsearchLoop, Int.shiftRight_eq_div_pow]

/-- Helper: on a strictly increasing list the index found is the position of the element. -/
theorem binsearch_getElem {junk : ℕ} {a : List ℕ} (ha : a.Pairwise (· < ·)) {i : ℕ}
    (hi : i < a.length) : binsearch junk a a[i] = (i : ℤ) := by
  have hle : a.Pairwise (· ≤ ·) := ha.imp (fun h => le_of_lt h)
  rcases C03_binsearch_sound junk a a[i] with h1 | ⟨j, hj, hjl, he⟩
  · exact absurd (List.getElem_mem hi) ((C03_binsearch_complete junk a _ hle).mp h1)
  · rw [hj]
    rw [List.pairwise_iff_getElem] at ha
    rcases lt_trichotomy i j with h | h | h
    · have := ha i j hi hjl h; omega
    · rw [h]
    · have := ha j i hjl hi h; omega

/-- **C04.** The lookup inverts the enumeration: for the list `L` returned by
`generate_states(n, p)`, `binsearch(L, L[i]) = i` for every index, and `binsearch(L, s)` is `-1`
exactly when `s` is not an `n`-bit word with `p` ones. -/
theorem C04_lookup_inverts_enumeration {w n p junk : ℕ} (hn : n ≤ 32) (hnw : n ≤ w) (hpn : p ≤ n)
    {L : List ℕ} (hL : generateStates w n (p : ℤ) = .ok L) :
    (∀ (i : ℕ) (h : i < L.length), binsearch junk L L[i] = (i : ℤ)) ∧
    (∀ s, binsearch junk L s = -1 ↔ ¬ InSector n p s) := by
  obtain ⟨L', h1, h2, h3, h4⟩ := generateStates_core (w := w) hn hnw hpn
  obtain rfl : L' = L := by rw [h1] at hL; exact Except.ok.inj hL
  refine ⟨fun i h => binsearch_getElem h2 h, fun s => ?_⟩
  rw [C03_binsearch_complete junk L' s (h2.imp (fun h => le_of_lt h)), h3]

/-- **C05**, one direction: index, then split, then recombine. -/
theorem C05_state_index_of_spin_indices (i dup dwn : ℕ) (h : i < dup * dwn) :
    (getSpinIndices i dup).1 < dup ∧ (getSpinIndices i dup).2 < dwn ∧
    getStateIndex (getSpinIndices i dup).1 (getSpinIndices i dup).2 dup = i := by
  have hd : 0 < dup := by
    rcases Nat.eq_zero_or_pos dup with h0 | h0
    · subst h0; simp at h
    · exact h0
  refine ⟨Nat.mod_lt _ hd, Nat.div_lt_of_lt_mul h, ?_⟩
  simp only [getSpinIndices, getStateIndex]
  rw [Nat.mul_comm]; exact Nat.mod_add_div i dup

/-- **C05**, other direction. -/
theorem C05_spin_indices_of_state_index (iup idw dup dwn : ℕ) (hu : iup < dup) (hd : idw < dwn) :
    getStateIndex iup idw dup < dup * dwn ∧ getSpinIndices (getStateIndex iup idw dup) dup = (iup, idw) := by
  have hdp : 0 < dup := by omega
  refine ⟨?_, ?_⟩
  · unfold getStateIndex
    calc iup + idw * dup < dup + idw * dup := by omega
      _ = dup * (idw + 1) := by ring
      _ ≤ dup * dwn := Nat.mul_le_mul_left _ hd
  · unfold getSpinIndices getStateIndex
    rw [Nat.add_mul_mod_self_right, Nat.mod_eq_of_lt hu, Nat.add_mul_div_right _ _ hdp,
      Nat.div_eq_of_lt hu, Nat.zero_add]

example : (7 : ℕ) < 3 * 4 := by norm_num
example : (2 : ℕ) < 3 ∧ getStateIndex 2 1 3 = 5 ∧ getSpinIndices 5 3 = (2, 1) := by decide

/-- **C06**: valid sectors are numbered in lexicographic order, within `0..(n+1)^2-1`, and the
number determines the sector; invalid sectors raise `ValueError`. -/
theorem C06_get_sector_index (n : ℕ) (nup ndw : ℤ) :
    (0 ≤ nup ∧ nup ≤ n ∧ 0 ≤ ndw ∧ ndw ≤ n →
      ∃ i : ℤ, getSectorIndex n nup ndw = .ok i ∧ 0 ≤ i ∧ i < (n + 1) * (n + 1) ∧
        getNumSpins i n = .ok (nup, ndw)) ∧
    (¬ (0 ≤ nup ∧ nup ≤ n ∧ 0 ≤ ndw ∧ ndw ≤ n) → getSectorIndex n nup ndw = .error .valueError) := by
  constructor
  · rintro ⟨h0, h1, h2, h3⟩
    have e1 : nup * (n + 1) + ndw < (n + 1) * (n + 1) := by nlinarith
    have e0 : 0 ≤ nup * (n + 1) + ndw := by positivity
    refine ⟨nup * (n + 1) + ndw, ?_, e0, e1, ?_⟩
    · unfold getSectorIndex; rw [if_neg (by omega)]
    · unfold getNumSpins
      rw [if_neg (by omega)]
      have hpos : (0:ℤ) < n + 1 := by omega
      have a1 : (nup * (n + 1) + ndw) / ((n:ℤ) + 1) = nup := by
        rw [add_comm, Int.add_mul_ediv_right _ _ (by omega), Int.ediv_eq_zero_of_lt h2 (by omega)]
        ring
      have a2 : (nup * (n + 1) + ndw) % ((n:ℤ) + 1) = ndw := by
        rw [add_comm, Int.add_mul_emod_self_right, Int.emod_eq_of_lt h2 (by omega)]
      rw [a1, a2]
  · intro h
    unfold getSectorIndex
    rw [if_pos (by omega)]

/-- **C06**: lexicographic order. -/
theorem C06_order (n : ℕ) (a b a' b' i i' : ℤ) (h : getSectorIndex n a b = .ok i)
    (h' : getSectorIndex n a' b' = .ok i') : i < i' ↔ a < a' ∨ (a = a' ∧ b < b') := by
  unfold getSectorIndex at h h'
  split at h
  · cases h
  split at h'
  · cases h'
  rename_i h1 h2
  have e1 := Except.ok.inj h
  have e2 := Except.ok.inj h'
  subst e1 e2
  push Not at h1 h2
  obtain ⟨p1, p2, p3, p4⟩ := h1
  obtain ⟨q1, q2, q3, q4⟩ := h2
  rcases lt_trichotomy a a' with hl | hl | hl
  · constructor
    · intro _; exact Or.inl hl
    · intro _; nlinarith
  · subst hl; constructor
    · intro hh; right; exact ⟨rfl, by linarith⟩
    · rintro (hh | ⟨-, hh⟩)
      · omega
      · linarith
  · constructor
    · intro hh; exfalso; nlinarith
    · rintro (hh | ⟨hh, -⟩) <;> omega

/-- **C06**: the converse direction and the rejection of bad indices. -/
theorem C06_get_num_spins (n : ℕ) (i : ℤ) :
    (0 ≤ i ∧ i < (n + 1) * (n + 1) →
      ∃ nup ndw : ℤ, getNumSpins i n = .ok (nup, ndw) ∧ 0 ≤ nup ∧ nup ≤ n ∧ 0 ≤ ndw ∧ ndw ≤ n ∧
        getSectorIndex n nup ndw = .ok i) ∧
    (¬ (0 ≤ i ∧ i < (n + 1) * (n + 1)) → getNumSpins i n = .error .valueError) := by
  constructor
  · rintro ⟨h0, h1⟩
    have hpos : (0:ℤ) < n + 1 := by omega
    have b1 : 0 ≤ i / ((n:ℤ) + 1) := Int.ediv_nonneg h0 (by omega)
    have b2 : i / ((n:ℤ) + 1) < n + 1 := Int.ediv_lt_of_lt_mul hpos h1
    have b3 := Int.emod_nonneg i (by omega : (n:ℤ) + 1 ≠ 0)
    have b4 := Int.emod_lt_of_pos i hpos
    refine ⟨i / (n + 1), i % (n + 1), ?_, b1, by omega, b3, by omega, ?_⟩
    · unfold getNumSpins; rw [if_neg (by omega)]
    · unfold getSectorIndex
      rw [if_neg (by omega), mul_comm, Int.mul_ediv_add_emod]
  · intro h
    unfold getNumSpins
    rw [if_pos (by omega)]

example : getSectorIndex 3 1 2 = .ok 6 ∧ getNumSpins 6 3 = .ok (1, 2) ∧
    getSectorIndex 3 4 0 = .error .valueError := by decide

/-- **C13 fails.** `intrep` is not the inverse of `binrep`: for `i = 1`, `n = 2` the result is 2, in
the array and in the string format. -/
theorem C13_intrep_binrep_refuted :
    ¬ (∀ n i : ℕ, 0 < n → n ≤ 32 → i < 2 ^ n → intrepArr (binrep i n) = i) ∧
    ¬ (∀ n i : ℕ, 0 < n → n ≤ 32 → i < 2 ^ n → intrepStr (binrep i n) = i) := by
  constructor
  · intro h; have := h 2 1 (by norm_num) (by norm_num) (by norm_num); revert this; decide
  · intro h; have := h 2 1 (by norm_num) (by norm_num) (by norm_num); revert this; decide

/-- What `intrep(binrep(i, n))` really is: the bit reversal of `i` within `n` bits (both formats). -/
theorem C13_intrep_binrep_reverses {n i : ℕ} (hn : 0 < n) (hn32 : n ≤ 32) (hi : i < 2 ^ n) (k : ℕ) :
    (intrepArr (binrep i n)).testBit k = (decide (k < n) && i.testBit (n - 1 - k)) ∧
    intrepStr (binrep i n) = intrepArr (binrep i n) := by
  have hl := binrep_length hi hn
  refine ⟨?_, intrepStr_eq _ (by omega)⟩
  rw [intrepArr_testBit _ (by omega)]
  by_cases hk : k < n
  · have hk' : k < (binrep i n).reverse.length := by simp [hl, hk]
    rw [List.getElem?_eq_getElem hk', List.getElem_reverse, binrep_getElem hi hn, hl]
    simp [hk]
  · rw [List.getElem?_eq_none (by simp [hl]; omega)]
    simp [hk]

/-- **C13, partial.** The promised round trip holds exactly for the bit-palindromic states, and
`intrep(binrep(i, n)[::-1]) = i` holds for all. -/
theorem C13_intrep_binrep_partial {n i : ℕ} (hn : 0 < n) (hn32 : n ≤ 32) (hi : i < 2 ^ n) :
    (intrepArr (binrep i n) = i ↔ ∀ k < n, i.testBit k = i.testBit (n - 1 - k)) ∧
    intrepArr (binrep i n).reverse = i := by
  have hl := binrep_length hi hn
  constructor
  · constructor
    · intro h k hk
      have := (C13_intrep_binrep_reverses hn hn32 hi k).1
      rw [h] at this; simpa [hk] using this
    · intro h
      apply Nat.eq_of_testBit_eq
      intro k
      rw [(C13_intrep_binrep_reverses hn hn32 hi k).1]
      by_cases hk : k < n
      · simp [hk, h k hk]
      · have : i.testBit k = false := Nat.testBit_lt_two_pow
          (lt_of_lt_of_le hi (Nat.pow_le_pow_right (by norm_num) (by omega)))
        simp [hk, this]
  · apply Nat.eq_of_testBit_eq
    intro k
    rw [intrepArr_testBit _ (by simp [hl]; omega), List.reverse_reverse]
    by_cases hk : k < n
    · have hk' : k < (binrep i n).length := by omega
      rw [List.getElem?_eq_getElem hk', binrep_getElem hi hn]; simp
    · rw [List.getElem?_eq_none (by omega)]
      have : i.testBit k = false := Nat.testBit_lt_two_pow
        (lt_of_lt_of_le hi (Nat.pow_le_pow_right (by norm_num) (by omega)))
      simp [this]

/-- `binrep` itself: digit `k` is the occupation of site `k`. -/
theorem C13_binrep_digits {n i : ℕ} (hn : 0 < n) (hi : i < 2 ^ n) :
    binrep i n = (List.range n).map (fun k => i.testBit k) := by
  apply List.ext_getElem
  · simp [binrep_length hi hn]
  · intro k h1 h2
    rw [binrep_getElem hi hn]; simp

/-- `count_bits(s, n)` is the number of occupied sites among the first `n`. -/
theorem C13_count_bits (s n : ℕ) : countBits s n = ((Finset.range n).filter (fun i => s.testBit i)).card :=
  countBits_eq s n

example : binrep 6 4 = [false, true, true, false] ∧ intrepArr (binrep 6 4) = 6 ∧
    intrepArr (binrep 4 4) = 2 := by decide

end Edpyt
