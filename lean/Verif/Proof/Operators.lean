import Verif.Model.Operators
import Verif.Proof.Fock
import Verif.Proof.Popcount
import Verif.Proof.Lookup
import Mathlib.Order.Interval.Finset.Nat
/-!
Bit lemmas for `edpyt/operators.py`.
-/
namespace Edpyt
open Spec

theorem flip_testBit {s pos : ℕ} (hs : s < 2 ^ 32) (hp : pos < 32) (k : ℕ) :
    (flip s pos).testBit k = if k = pos then !s.testBit k else s.testBit k := by
  unfold flip
  rw [Nat.testBit_mod_two_pow, Nat.testBit_xor, Nat.one_shiftLeft, Nat.testBit_two_pow]
  by_cases hk : k < 32
  · by_cases h : k = pos
    · subst h; simp [hk]
    · have : ¬ pos = k := fun h' => h h'.symm
      simp [hk, h, this]
  · have h1 : s.testBit k = false := Nat.testBit_lt_two_pow
      (lt_of_lt_of_le hs (Nat.pow_le_pow_right (by norm_num) (by omega)))
    have h2 : ¬ k = pos := by omega
    simp [hk, h1, h2]

theorem flip_lt {s pos n : ℕ} (hs : s < 2 ^ n) (hp : pos < n) : flip s pos < 2 ^ n := by
  unfold flip
  refine lt_of_le_of_lt (Nat.mod_le _ _) (Nat.xor_lt_two_pow ?_ hs)
  rw [Nat.one_shiftLeft]; exact Nat.pow_lt_pow_right (by norm_num) hp

theorem lt_of_bits {s t pos : ℕ} (hs : s.testBit pos = false)
    (ht : ∀ k, t.testBit k = if k = pos then !s.testBit k else s.testBit k) : s < t := by
  apply Nat.lt_of_testBit pos hs
  · rw [ht]; simp [hs]
  · intro j hj; rw [ht, if_neg (by omega)]

theorem flip_gt_iff {s pos : ℕ} (hs : s < 2 ^ 32) (hp : pos < 32) :
    s < flip s pos ↔ s.testBit pos = false := by
  constructor
  · intro h
    by_contra hc
    have hc' : s.testBit pos = true := by simpa using hc
    have : flip s pos < s := by
      apply lt_of_bits (pos := pos)
      · rw [flip_testBit hs hp]; simp [hc']
      · intro k; rw [flip_testBit hs hp]; split_ifs <;> simp
    omega
  · intro h; exact lt_of_bits h (flip_testBit hs hp)

theorem flip_lt_iff {s pos : ℕ} (hs : s < 2 ^ 32) (hp : pos < 32) :
    flip s pos < s ↔ s.testBit pos = true := by
  constructor
  · intro h
    by_contra hc
    have := (flip_gt_iff hs hp).mpr (by simpa using hc)
    omega
  · intro h
    apply lt_of_bits (pos := pos)
    · rw [flip_testBit hs hp]; simp [h]
    · intro k; rw [flip_testBit hs hp]; split_ifs <;> simp

theorem flip_flip {s pos : ℕ} (hs : s < 2 ^ 32) (hp : pos < 32) : flip (flip s pos) pos = s := by
  apply Nat.eq_of_testBit_eq
  intro k
  rw [flip_testBit (flip_lt hs hp) hp, flip_testBit hs hp]
  split_ifs <;> simp

theorem countRange_eq (s lo hi : ℕ) :
    countRange s lo hi = ((Finset.Ico lo hi).filter (fun k => s.testBit k)).card := by
  obtain ⟨d, hd⟩ : ∃ d, hi - lo = d := ⟨_, rfl⟩
  have hI : Finset.Ico lo hi = Finset.Ico lo (lo + d) := by
    ext k; simp; omega
  unfold countRange
  rw [hI, hd]
  clear hd hI
  induction d with
  | zero => simp
  | succ d ih =>
    rw [List.range'_concat, List.foldl_append, ih, ← add_assoc, ← Finset.insert_Ico_right_eq_Ico_add_one (by omega),
      Finset.filter_insert]
    simp only [List.foldl_cons, List.foldl_nil, Nat.and_one_is_mod, one_mul]
    have : (s >>> (lo + d)) % 2 = (s.testBit (lo + d)).toNat := by
      rw [Nat.toNat_testBit, Nat.shiftRight_eq_div_pow]
    rw [this]
    cases h : s.testBit (lo + d)
    · simp
    · rw [if_pos rfl, Finset.card_insert_of_notMem (by simp)]; simp

theorem parity_sign (b : ℕ) : 1 - 2 * ((b : ℤ) % 2) = (-1) ^ b := by
  rcases Nat.even_or_odd' b with ⟨k, h | h⟩
  · subst h; rw [pow_mul]; simp
  · subst h; rw [pow_succ, pow_mul]; push_cast; simp

theorem fsgn_eq (s pos n : ℕ) :
    fsgn s pos n = (-1) ^ ((Finset.Ico (pos + 1) n).filter (fun k => s.testBit k)).card := by
  unfold fsgn; rw [countRange_eq, parity_sign]

theorem getParity_eq (s i j : ℕ) :
    getParity s i j = (-1) ^ ((Finset.Ico (min i j + 1) (max i j)).filter (fun k => s.testBit k)).card := by
  unfold getParity; rw [countRange_eq, parity_sign]

theorem fsgn_eq_sgn {n : ℕ} (s : ℕ) (i : Fin n) : fsgn s i n = sgn i (occF n s) := by
  rw [fsgn_eq, sgn]
  congr 1
  refine Finset.card_bij' (fun k hk => (⟨k, by simp at hk; omega⟩ : Fin n)) (fun k _ => (k : ℕ))
    ?_ ?_ ?_ ?_
  · intro k hk
    simp only [Finset.mem_filter, Finset.mem_Ico] at hk
    simp only [Finset.mem_filter, mem_occF]
    refine ⟨hk.2, ?_⟩
    rw [Fin.lt_def]; simp; omega
  · intro k hk
    simp only [Finset.mem_filter, mem_occF, Fin.lt_def] at hk
    simp only [Finset.mem_filter, Finset.mem_Ico]
    exact ⟨⟨by omega, k.2⟩, hk.1⟩
  · intro k hk; rfl
  · intro k hk; rfl

theorem occF_flip_of_empty {n s : ℕ} {i : Fin n} (hn : n ≤ 32) (hs : s < 2 ^ n)
    (h : s.testBit i = false) : occF n (flip s i) = insert i (occF n s) := by
  have hs32 : s < 2 ^ 32 := lt_of_lt_of_le hs (Nat.pow_le_pow_right (by norm_num) hn)
  ext k
  rw [mem_occF, flip_testBit hs32 (by omega), Finset.mem_insert, mem_occF]
  by_cases hk : k = i
  · subst hk; simp [h]
  · have : ¬ (k : ℕ) = i := fun h => hk (Fin.ext h)
    simp [hk, this]

theorem occF_flip_of_full {n s : ℕ} {i : Fin n} (hn : n ≤ 32) (hs : s < 2 ^ n)
    (h : s.testBit i = true) : occF n (flip s i) = (occF n s).erase i := by
  have hs32 : s < 2 ^ 32 := lt_of_lt_of_le hs (Nat.pow_le_pow_right (by norm_num) hn)
  ext k
  rw [mem_occF, flip_testBit hs32 (by omega), Finset.mem_erase, mem_occF]
  by_cases hk : k = i
  · subst hk; simp [h]
  · have : ¬ (k : ℕ) = i := fun h => hk (Fin.ext h)
    simp [hk, this]

theorem occF_inj {n s t : ℕ} (hs : s < 2 ^ n) (ht : t < 2 ^ n) (h : occF n s = occF n t) : s = t := by
  apply Nat.eq_of_testBit_eq
  intro i
  by_cases hi : i < n
  · have : (⟨i, hi⟩ : Fin n) ∈ occF n s ↔ (⟨i, hi⟩ : Fin n) ∈ occF n t := by rw [h]
    rw [mem_occF, mem_occF] at this
    exact Bool.eq_iff_iff.mpr this
  · have hp : 2 ^ n ≤ 2 ^ i := Nat.pow_le_pow_right (by norm_num) (not_lt.mp hi)
    rw [Nat.testBit_lt_two_pow (by omega), Nat.testBit_lt_two_pow (by omega)]

theorem occF_surj {n : ℕ} (S : Finset (Fin n)) : ∃ s, s < 2 ^ n ∧ occF n s = S := by
  let S' : Finset ℕ := S.map Fin.valEmbedding
  refine ⟨∑ i ∈ S', 2 ^ i, ?_, ?_⟩
  · apply Nat.lt_pow_two_of_testBit
    intro i hi
    by_contra hc
    have : i ∈ occ (∑ i ∈ S', 2 ^ i) := by rw [mem_occ]; simpa using hc
    rw [show occ (∑ i ∈ S', 2 ^ i) = S' from Finset.toFinset_bitIndices_sum_two_pow S'] at this
    obtain ⟨k, -, hk⟩ := Finset.mem_map.mp this
    have := k.2
    simp at hk; omega
  · ext k
    rw [mem_occF, ← mem_occ, show occ (∑ i ∈ S', 2 ^ i) = S' from Finset.toFinset_bitIndices_sum_two_pow S']
    constructor
    · intro h
      obtain ⟨k', hk', he⟩ := Finset.mem_map.mp h
      have : k' = k := Fin.ext he
      rwa [← this]
    · intro h; exact Finset.mem_map.mpr ⟨k, h, rfl⟩

theorem card_occF {n s : ℕ} (hs : s < 2 ^ n) : (occF n s).card = particles s := by
  unfold particles
  have : occ s = (occF n s).map Fin.valEmbedding := by
    ext i
    rw [mem_occ, Finset.mem_map]
    constructor
    · intro h
      have hi : i < n := by
        by_contra hc
        have := Nat.testBit_lt_two_pow (lt_of_lt_of_le hs (Nat.pow_le_pow_right (by norm_num : 0 < 2) (not_lt.mp hc)))
        simp [this] at h
      exact ⟨⟨i, hi⟩, by rw [mem_occF]; exact h, rfl⟩
    · rintro ⟨k, hk, rfl⟩
      rw [mem_occF] at hk; exact hk
  rw [this, Finset.card_map]

theorem cdg_of_empty {s pos n : ℕ} (hs : s < 2 ^ 32) (hp : pos < 32) (h : s.testBit pos = false) :
    cdg s pos n = .ok (fsgn s pos n, flip s pos) := by
  unfold cdg; simp only; rw [if_pos ((flip_gt_iff hs hp).mpr h)]

theorem cdg_of_full {s pos n : ℕ} (hs : s < 2 ^ 32) (hp : pos < 32) (h : s.testBit pos = true) :
    cdg s pos n = .error .assertionError := by
  unfold cdg; simp only
  rw [if_neg]
  have := (flip_lt_iff hs hp).mpr h; omega

theorem c_of_full {s pos n : ℕ} (hs : s < 2 ^ 32) (hp : pos < 32) (h : s.testBit pos = true) :
    c s pos n = .ok (fsgn s pos n, flip s pos) := by
  unfold c; simp only; rw [if_pos ((flip_lt_iff hs hp).mpr h)]

theorem c_of_empty {s pos n : ℕ} (hs : s < 2 ^ 32) (hp : pos < 32) (h : s.testBit pos = false) :
    c s pos n = .error .assertionError := by
  unfold c; simp only
  rw [if_neg]
  have := (flip_gt_iff hs hp).mpr h; omega

theorem checkFull_eq (s pos : ℕ) : checkFull s pos = (s.testBit pos).toNat := by
  unfold checkFull
  rw [Nat.and_one_is_mod, Nat.toNat_testBit, Nat.shiftRight_eq_div_pow]

theorem checkEmpty_eq (s pos : ℕ) : checkEmpty s pos = (!s.testBit pos).toNat := by
  unfold checkEmpty
  rw [checkFull_eq]
  cases s.testBit pos <;> simp

theorem cdgc_snd {s i j : ℕ} (hs : s < 2 ^ 32) (hi : i < 32) (hj : j < 32) :
    (cdgc s i j).2 = flip (flip s j) i := by
  unfold cdgc flip
  simp only [Nat.one_shiftLeft]
  have h1 : 2 ^ j ^^^ s < 2 ^ 32 := Nat.xor_lt_two_pow (Nat.pow_lt_pow_right (by norm_num) hj) hs
  rw [Nat.mod_eq_of_lt h1, Nat.xor_comm (2 ^ j) s, Nat.xor_comm (2 ^ i)]

theorem cdgc_sign {n : ℕ} (hn : n ≤ 32) {s : ℕ} (hs : s < 2 ^ n) {i j : Fin n}
    (hj : s.testBit j = true) (hi : s.testBit i = false) :
    getParity s i j = fsgn s j n * fsgn (flip s j) i n := by
  have hs32 : s < 2 ^ 32 := lt_of_lt_of_le hs (Nat.pow_le_pow_right (by norm_num) hn)
  rw [getParity_eq, fsgn_eq, fsgn_eq, ← pow_add]
  have hne : (i : ℕ) ≠ j := fun h => by rw [h, hj] at hi; simp at hi
  have hlti := i.2
  have hltj := j.2
  set A := (Finset.Ico (min (i:ℕ) j + 1) (max (i:ℕ) j)).filter (fun k => s.testBit k) with hA
  rcases lt_or_gt_of_ne hne with h | h
  · -- i < j : bits above i in flip s j = A ∪ bits above j
    have e : (Finset.Ico ((i:ℕ) + 1) n).filter (fun k => (flip s j).testBit k) =
        A ∪ (Finset.Ico ((j:ℕ) + 1) n).filter (fun k => s.testBit k) := by
      ext k
      simp only [hA, Finset.mem_filter, Finset.mem_Ico, Finset.mem_union]
      rw [flip_testBit hs32 (by omega), min_eq_left h.le, max_eq_right h.le]
      by_cases hk : k = j
      · subst hk; simp [hj]
      · rw [if_neg hk]
        constructor
        · rintro ⟨h1, h2⟩
          by_cases hkj : k < j
          · left; exact ⟨by omega, h2⟩
          · right; exact ⟨by omega, h2⟩
        · rintro (⟨h1, h2⟩ | ⟨h1, h2⟩) <;> exact ⟨by omega, h2⟩
    have hd : Disjoint A ((Finset.Ico ((j:ℕ) + 1) n).filter (fun k => s.testBit k)) := by
      rw [Finset.disjoint_left]
      intro k hk hk'
      simp only [hA, Finset.mem_filter, Finset.mem_Ico, max_eq_right h.le] at hk hk'
      omega
    rw [e, Finset.card_union_of_disjoint hd, ← add_assoc, add_comm _ A.card, add_assoc, pow_add,
      ← two_mul, pow_mul]
    simp
  · have e : (Finset.Ico ((j:ℕ) + 1) n).filter (fun k => s.testBit k) =
        A ∪ (Finset.Ico ((i:ℕ) + 1) n).filter (fun k => (flip s j).testBit k) := by
      ext k
      simp only [hA, Finset.mem_filter, Finset.mem_Ico, Finset.mem_union]
      rw [flip_testBit hs32 (by omega), min_eq_right h.le, max_eq_left h.le]
      by_cases hk : k = i
      · subst hk; simp [hi]
      · constructor
        · rintro ⟨h1, h2⟩
          by_cases hkj : k < i
          · left; exact ⟨by omega, h2⟩
          · right; refine ⟨by omega, ?_⟩; rw [if_neg (by omega)]; exact h2
        · rintro (⟨h1, h2⟩ | ⟨h1, h2⟩)
          · exact ⟨by omega, h2⟩
          · rw [if_neg (by omega)] at h2; exact ⟨by omega, h2⟩
    have hd : Disjoint A ((Finset.Ico ((i:ℕ) + 1) n).filter (fun k => (flip s j).testBit k)) := by
      rw [Finset.disjoint_left]
      intro k hk hk'
      simp only [hA, Finset.mem_filter, Finset.mem_Ico, max_eq_left h.le] at hk hk'
      omega
    rw [e, Finset.card_union_of_disjoint hd, add_assoc, pow_add, ← two_mul, pow_mul]
    simp

end Edpyt
