import Verif.Model.Lookup
import Mathlib.Data.Nat.Bits
import Mathlib.Data.Nat.Size
import Mathlib.Data.Finset.Card
import Mathlib.Data.Finset.Range
import Mathlib.Tactic.Linarith
/-!
Helper lemmas for `edpyt/lookup.py`.
-/
namespace Edpyt

/-- `a[i]`, with the out of bounds default never used for `i < a.length`. -/
theorem binsearchLoop_inv (junk : ℕ) (a : List ℕ) (s : ℕ) (lo hi : ℤ) :
    -1 ≤ lo → lo < hi → hi ≤ a.length →
    (∀ h : (0:ℤ) ≤ lo ∧ lo.toNat < a.length, a[lo.toNat]'h.2 ≤ s) →
    (∀ h : hi.toNat < a.length, s < a[hi.toNat]'h) →
    ∃ r : ℤ, binsearchLoop junk a s lo hi = r ∧ lo ≤ r ∧ r < hi ∧
      (∀ h : (0:ℤ) ≤ r ∧ r.toNat < a.length, a[r.toNat]'h.2 ≤ s) ∧
      (∀ h : (r + 1).toNat < a.length, s < a[(r + 1).toNat]'h) := by
  induction lo, hi using binsearchLoop.induct (junk := junk) (a := a) (s := s) with
  | case1 lo hi h m hle ih =>
    intro h1 h2 h3 h4 h5
    have hm : m = (lo + hi) / 2 := by simp [m, Int.shiftRight_eq_div_pow]
    have hm1 : lo < m := by omega
    have hm2 : m < hi := by omega
    have hmb : m.toNat < a.length := by omega
    obtain ⟨r, e1, e2, e3, e4, e5⟩ := ih (by omega) hm2 h3
      (by intro hh; simpa [List.getElem?_eq_getElem hmb] using hle) h5
    refine ⟨r, ?_, by omega, e3, e4, e5⟩
    rw [← e1]; conv_lhs => rw [binsearchLoop]
    rw [dif_pos h]; simp only; rw [if_pos hle]
  | case2 lo hi h m hle ih =>
    intro h1 h2 h3 h4 h5
    have hm : m = (lo + hi) / 2 := by simp [m, Int.shiftRight_eq_div_pow]
    have hm1 : lo < m := by omega
    have hm2 : m < hi := by omega
    have hmb : m.toNat < a.length := by omega
    obtain ⟨r, e1, e2, e3, e4, e5⟩ := ih h1 hm1 (by omega) h4
      (by intro hh; simpa [List.getElem?_eq_getElem hmb] using hle)
    refine ⟨r, ?_, by omega, by omega, e4, e5⟩
    rw [← e1]; conv_lhs => rw [binsearchLoop]
    rw [dif_pos h]; simp only; rw [if_neg hle]
  | case3 lo hi h =>
    intro h1 h2 h3 h4 h5
    have : hi = lo + 1 := by omega
    subst this
    refine ⟨lo, ?_, le_refl _, by omega, h4, h5⟩
    rw [binsearchLoop, dif_neg h]

/-- The loop result does not depend on the out of bounds default. -/
theorem binsearchLoop_junk (junk junk' : ℕ) (a : List ℕ) (s : ℕ) (lo hi : ℤ) :
    -1 ≤ lo → lo < hi → hi ≤ a.length →
    binsearchLoop junk a s lo hi = binsearchLoop junk' a s lo hi := by
  induction lo, hi using binsearchLoop.induct (junk := junk) (a := a) (s := s) with
  | case1 lo hi h m hle ih =>
    intro h1 h2 h3
    have hm : m = (lo + hi) / 2 := by simp [m, Int.shiftRight_eq_div_pow]
    have hmb : m.toNat < a.length := by omega
    rw [binsearchLoop, binsearchLoop, dif_pos h, dif_pos h]
    simp only
    rw [if_pos hle, if_pos (by simpa [List.getElem?_eq_getElem hmb, m] using hle)]
    exact ih (by omega) (by omega) h3
  | case2 lo hi h m hle ih =>
    intro h1 h2 h3
    have hm : m = (lo + hi) / 2 := by simp [m, Int.shiftRight_eq_div_pow]
    have hmb : m.toNat < a.length := by omega
    rw [binsearchLoop, binsearchLoop, dif_pos h, dif_pos h]
    simp only
    rw [if_neg hle, if_neg (by simpa [List.getElem?_eq_getElem hmb, m] using hle)]
    exact ih h1 (by omega) (by omega)
  | case3 lo hi h =>
    intro _ _ _
    rw [binsearchLoop, binsearchLoop, dif_neg h, dif_neg h]

theorem bits_getElem? (i k : ℕ) : (Nat.bits i)[k]?.getD false = i.testBit k := by
  rw [Nat.testBit_eq_inth]
  simp [List.getI_eq_getElem?_getD]

theorem length_bits_le {i n : ℕ} (h : i < 2 ^ n) : (Nat.bits i).length ≤ n := by
  rw [Nat.size_eq_bits_len]; exact Nat.size_le.mpr h

theorem binrep_length {i n : ℕ} (h : i < 2 ^ n) (hn : 0 < n) : (binrep i n).length = n := by
  have := length_bits_le h
  unfold binrep binaryRepr
  simp only [List.length_reverse, List.length_append, List.length_replicate, List.isEmpty_iff,
    List.reverse_eq_nil_iff]
  split <;> simp <;> omega

theorem binrep_getElem {i n : ℕ} (h : i < 2 ^ n) (hn : 0 < n) (k : ℕ) (hk : k < (binrep i n).length) :
    (binrep i n)[k] = i.testBit k := by
  have hl := length_bits_le h
  have e := bits_getElem? i k
  have : (binrep i n)[k]? = some (i.testBit k) := by
    have hk' := hk
    rw [binrep_length h hn] at hk'
    unfold binrep binaryRepr
    simp only [List.isEmpty_iff, List.reverse_eq_nil_iff, List.reverse_append, List.reverse_replicate]
    by_cases hc : Nat.bits i = []
    · rw [hc] at e
      simp only [hc, if_true, List.reverse_cons, List.reverse_nil, List.nil_append]
      rw [← e]
      rw [List.getElem?_append]
      simp only [List.length_singleton]
      split
      · have : k = 0 := by omega
        subst this; simp
      · rw [List.getElem?_replicate]; rw [if_pos (by omega)]; simp
    · simp only [if_neg hc, List.reverse_reverse, List.length_reverse]
      rw [List.getElem?_append]
      split
      · rename_i hlt
        rw [← e, List.getElem?_eq_getElem hlt]; simp
      · rename_i hge
        rw [List.getElem?_replicate, if_pos (by omega), ← e, List.getElem?_eq_none (by omega)]
        simp
  rw [List.getElem?_eq_getElem hk] at this
  exact Option.some.inj this

/-- `zipIdx` fold of `intrep` on a list given least significant digit first. -/
theorem intrep_fold (l : List Bool) : ∀ (k acc : ℕ), acc < 2 ^ k → k + l.length ≤ 32 →
    ((l.zipIdx k).foldl (fun i (jb : Bool × ℕ) => if jb.1 then (i + 1 <<< jb.2) % 2 ^ 32 else i) acc)
      < 2 ^ (k + l.length) ∧
    ∀ j, ((l.zipIdx k).foldl
        (fun i (jb : Bool × ℕ) => if jb.1 then (i + 1 <<< jb.2) % 2 ^ 32 else i) acc).testBit j
      = if j < k then acc.testBit j else (l[j - k]?.getD false) := by
  induction l with
  | nil =>
    intro k acc h hk
    refine ⟨by simpa using h, ?_⟩
    intro j
    simp only [List.zipIdx_nil, List.foldl_nil]
    split
    · rfl
    · have : acc.testBit j = false := Nat.testBit_lt_two_pow
        (lt_of_lt_of_le h (Nat.pow_le_pow_right (by norm_num) (by omega)))
      simp [this]
  | cons b l ih =>
    intro k acc h hk
    rw [List.length_cons] at hk
    rw [List.zipIdx_cons, List.foldl_cons]
    have hlt : acc + 2 ^ k < 2 ^ (k + 1) := by rw [pow_succ]; omega
    have hk32 : 2 ^ (k + 1) ≤ 2 ^ 32 := Nat.pow_le_pow_right (by norm_num) (by omega)
    have hstep : (if b then (acc + 1 <<< k) % 2 ^ 32 else acc) = acc + (if b then 2 ^ k else 0) := by
      cases b
      · simp
      · simp only [if_true, Nat.one_shiftLeft]
        exact Nat.mod_eq_of_lt (by omega)
    simp only [hstep]
    have hacc : acc + (if b then 2 ^ k else 0) < 2 ^ (k + 1) := by
      split
      · exact hlt
      · rw [pow_succ]; omega
    obtain ⟨h1, h2⟩ := ih (k + 1) _ hacc (by omega)
    refine ⟨by rw [List.length_cons]; convert h1 using 2; omega, ?_⟩
    intro j
    rw [h2 j]
    rcases lt_trichotomy j k with hj | hj | hj
    · rw [if_pos (show j < k + 1 by omega), if_pos hj]
      cases b
      · simp
      · simp only [if_true]
        rw [Nat.add_comm, Nat.testBit_two_pow_add_gt hj]
    · subst hj
      rw [if_pos (show j < j + 1 by omega), if_neg (show ¬ j < j by omega)]
      have hf : acc.testBit j = false := Nat.testBit_lt_two_pow h
      cases b
      · simp [hf]
      · simp only [if_true]
        rw [Nat.add_comm, Nat.testBit_two_pow_add_eq, hf]; simp
    · rw [if_neg (show ¬ j < k + 1 by omega), if_neg (show ¬ j < k by omega)]
      obtain ⟨d, hd⟩ : ∃ d, j - k = d + 1 := ⟨j - k - 1, by omega⟩
      have hd' : j - (k + 1) = d := by omega
      rw [hd, hd']; simp

theorem intrepArr_testBit (l : List Bool) (hl : l.length ≤ 32) (j : ℕ) :
    (intrepArr l).testBit j = (l.reverse[j]?.getD false) := by
  have := (intrep_fold l.reverse 0 0 (by simp) (by simpa using hl)).2 j
  simpa [intrepArr] using this

theorem intrepStr_eq (l : List Bool) (hl : l.length ≤ 32) : intrepStr l = intrepArr l := by
  have key : ∀ (l : List Bool) (acc : ℕ), (l.foldl (fun acc b => 2 * acc + b.toNat) acc) < 2 ^ l.length * (acc + 1) ∧
      ∀ j, (l.foldl (fun acc b => 2 * acc + b.toNat) acc).testBit j =
        if j < l.length then l.reverse[j]?.getD false else acc.testBit (j - l.length) := by
    intro l
    induction l with
    | nil => intro acc; simp
    | cons b l ih =>
      intro acc
      obtain ⟨h1, h2⟩ := ih (2 * acc + b.toNat)
      refine ⟨?_, ?_⟩
      · rw [List.foldl_cons, List.length_cons]
        refine lt_of_lt_of_le h1 ?_
        rw [pow_succ, mul_assoc]
        apply Nat.mul_le_mul_left
        cases b <;> simp only [Bool.toNat_true, Bool.toNat_false] <;> omega
      · intro j
        rw [List.foldl_cons, h2 j, List.length_cons, List.reverse_cons]
        by_cases hj : j < l.length
        · rw [if_pos hj, if_pos (by omega), List.getElem?_append_left (by simpa using hj)]
        · rw [if_neg hj]
          by_cases hj2 : j = l.length
          · subst hj2
            rw [if_pos (by omega), List.getElem?_append_right (by simp)]
            cases b <;> simp [Nat.add_mod]
          · rw [if_neg (by omega)]
            obtain ⟨d, hd⟩ : ∃ d, j - l.length = d + 1 := ⟨j - l.length - 1, by omega⟩
            have hd' : j - (l.length + 1) = d := by omega
            rw [hd, hd', Nat.testBit_add_one]
            congr 1
            cases b <;> simp <;> omega
  apply Nat.eq_of_testBit_eq
  intro j
  rw [intrepArr_testBit l hl]
  obtain ⟨h1, h2⟩ := key l 0
  have hlt : (l.foldl (fun acc b => 2 * acc + b.toNat) 0) < 2 ^ 32 := by
    refine lt_of_lt_of_le h1 ?_
    simpa using Nat.pow_le_pow_right (by norm_num) hl
  unfold intrepStr
  rw [Nat.mod_eq_of_lt hlt, h2 j]
  split
  · rfl
  · rw [List.getElem?_eq_none (by simpa using (by omega : l.length ≤ j))]; simp

theorem countBits_eq (s : ℕ) : ∀ n, countBits s n = ((Finset.range n).filter (fun i => s.testBit i)).card := by
  intro n
  induction n with
  | zero => simp [countBits]
  | succ n ih =>
    unfold countBits at ih ⊢
    rw [List.range_succ, List.foldl_append, ih, Finset.range_add_one, Finset.filter_insert]
    simp only [List.foldl_cons, List.foldl_nil, Nat.and_one_is_mod]
    have : (s >>> n) % 2 = (s.testBit n).toNat := by
      rw [Nat.toNat_testBit, Nat.shiftRight_eq_div_pow]
    rw [this]
    cases h : s.testBit n
    · simp
    · rw [if_pos rfl, Finset.card_insert_of_notMem (by simp)]; simp

end Edpyt
