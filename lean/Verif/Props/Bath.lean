import Verif.Proof.Bath
/-!
C53, C54: the initial bath parameters.
-/
namespace Edpyt

theorem initialEk_start {nbath : ℕ} (h : 0 < nbath) (bw : ℝ) {junk : List ℝ} (hl : junk.length = nbath) :
    setItem junk 0 (-bw) = .ok (junk.set 0 (-bw)) ∧ setItem (junk.set 0 (-bw)) (-1) bw = .ok ((junk.set 0 (-bw)).set (nbath - 1) bw) := by
  constructor
  · exact setItem_natCast junk 0 _ (by omega)
  · rw [setItem_neg_one (by rw [List.length_set]; omega), List.length_set, hl]

/-- C54: for every `nbath` other than 3 the C and the Python initialisation write the same energies (the couplings are
computed by the same expression), whatever the memory contained before. The full statement is refuted by
`C54_refuted`. -/
theorem C54_agree_partial {nbath : ℕ} (h : 0 < nbath) (h3 : nbath ≠ 3) (bw : ℝ) {junk : List ℝ} (hl : junk.length = nbath) :
    initialEk nbath bw junk = .ok (initBathC nbath bw junk) := by
  obtain ⟨e1, e2⟩ := initialEk_start h bw hl
  unfold initialEk initBathC
  simp only [e1, e2, bind, Except.bind, pure, Except.pure]
  by_cases he : nbath % 2 = 0 ∧ nbath ≥ 4
  · rw [if_pos he, if_pos he]
    unfold evenEk
    simp only [bind, Except.bind]
    rw [show ((nbath / 2 : ℕ) : ℤ) - 1 = ((nbath / 2 - 1 : ℕ) : ℤ) by omega, setItem_natCast _ _ _ (by simp; omega)]
    simp only
    rw [setItem_natCast _ _ _ (by simp; omega)]
    simp only
    rw [fill_loop_eq _ _ _ (by simp; omega) (by omega)]
    simp only
    rw [if_neg (by omega)]
  · rw [if_neg he, if_neg he]
    (try simp only)
    by_cases ho : nbath % 2 = 1 ∧ nbath ≥ 3
    · rw [if_pos ho, if_pos (by omega)]
      unfold oddEk
      simp only [bind, Except.bind]
      rw [setItem_natCast _ _ _ (by simp; omega)]
      simp only
      rw [fill_loop_eq _ _ _ (by simp; omega) (by omega)]
    · rw [if_neg ho, if_neg (by omega)]

/-- C54 is false for `nbath = 3`: the Python code sets the middle energy to 0, the C code leaves whatever was in the
memory. -/
theorem C54_refuted (bw x y z : ℝ) : initialEk 3 bw [x, y, z] = .ok [-bw, 0, bw] ∧ initBathC 3 bw [x, y, z] = [-bw, y, bw] := by
  constructor
  · obtain ⟨e1, e2⟩ := initialEk_start (nbath := 3) (by norm_num) bw (junk := [x, y, z]) rfl
    unfold initialEk
    simp only [e1, e2, bind, Except.bind, pure, Except.pure]
    rw [if_neg (by norm_num)]
    (try simp only)
    rw [if_pos (by norm_num)]
    unfold oddEk
    simp only [bind, Except.bind]
    rw [setItem_natCast _ _ _ (by simp)]
    simp [forM']
  · unfold initBathC
    simp

/-! ### Shape of the energies -/

/-- The energies for an even number of bath sites. -/
theorem even_elem {nbath : ℕ} (he : nbath % 2 = 0) (h4 : 4 ≤ nbath) (bw : ℝ) {junk : List ℝ} (hl : junk.length = nbath) :
    (initBathC nbath bw junk).length = nbath ∧ ∀ j < nbath, (initBathC nbath bw junk)[j]? = some (
      if j < nbath / 2 - 1 then -bw + j * (bw / (nbath / 2 - 1 : ℕ)) else if j = nbath / 2 - 1 then -0.1 else if j = nbath / 2 then 0.1
      else bw - (nbath - 1 - j : ℕ) * (bw / (nbath / 2 - 1 : ℕ))) := by
  unfold initBathC
  rw [if_pos ⟨he, h4⟩]
  simp only
  rw [show max (nbath / 2 - 1) 1 = nbath / 2 - 1 by omega]
  have hl' : ((((junk.set 0 (-bw)).set (nbath - 1) bw).set (nbath / 2 - 1) (-0.1)).set (nbath / 2) 0.1).length = nbath := by simp [hl]
  have key := fun j hj => fill_elem (de := bw / (nbath / 2 - 1 : ℕ)) (bw := bw) (nbath / 2 - 1 - 1) _ hl' (by omega) j hj
  refine ⟨(key 0 (by omega)).2, fun j hj => ?_⟩
  rw [(key j hj).1]
  congr 1
  by_cases h0 : j = 0
  · subst h0
    rw [if_neg (by omega), if_neg (by omega), if_pos (by omega), List.getElem?_set_ne (by omega), List.getElem?_set_ne (by omega),
      List.getElem?_set_ne (by omega), List.getElem?_set_self (by omega)]
    simp
  by_cases h1 : j < nbath / 2 - 1
  · rw [if_pos (by omega), if_pos h1]
  rw [if_neg (by omega), if_neg h1]
  by_cases h2 : j = nbath / 2 - 1
  · rw [if_neg (by omega), if_pos h2, h2, List.getElem?_set_ne (by omega), List.getElem?_set_self (by simp; omega)]; rfl
  rw [if_neg h2]
  by_cases h3 : j = nbath / 2
  · rw [if_neg (by omega), if_pos h3, h3, List.getElem?_set_self (by simp; omega)]; rfl
  rw [if_neg h3]
  by_cases h5 : j = nbath - 1
  · rw [if_neg (by omega), List.getElem?_set_ne (by omega), List.getElem?_set_ne (by omega), h5, List.getElem?_set_self (by simp; omega)]
    simp
  · rw [if_pos (by omega)]

/-- The energies for an odd number of bath sites. -/
theorem odd_elem {nbath : ℕ} (ho : nbath % 2 = 1) (h3 : 3 < nbath) (bw : ℝ) {junk : List ℝ} (hl : junk.length = nbath) :
    (initBathC nbath bw junk).length = nbath ∧ ∀ j < nbath, (initBathC nbath bw junk)[j]? = some (
      if j < nbath / 2 then -bw + j * (bw / (nbath / 2 : ℕ)) else if j = nbath / 2 then 0
      else bw - (nbath - 1 - j : ℕ) * (bw / (nbath / 2 : ℕ))) := by
  unfold initBathC
  rw [if_neg (by omega), if_pos ⟨ho, h3⟩]
  simp only
  have hl' : (((junk.set 0 (-bw)).set (nbath - 1) bw).set (nbath / 2) 0).length = nbath := by simp [hl]
  have key := fun j hj => fill_elem (de := bw / (nbath / 2 : ℕ)) (bw := bw) (nbath / 2 - 1) _ hl' (by omega) j hj
  refine ⟨(key 0 (by omega)).2, fun j hj => ?_⟩
  rw [(key j hj).1]
  congr 1
  by_cases h0 : j = 0
  · subst h0
    rw [if_neg (by omega), if_neg (by omega), if_pos (by omega), List.getElem?_set_ne (by omega),
      List.getElem?_set_ne (by omega), List.getElem?_set_self (by omega)]
    simp
  by_cases h1 : j < nbath / 2
  · rw [if_pos (by omega), if_pos h1]
  rw [if_neg (by omega), if_neg h1]
  by_cases h2 : j = nbath / 2
  · rw [if_neg (by omega), if_pos h2, h2, List.getElem?_set_self (by simp; omega)]; rfl
  rw [if_neg h2]
  by_cases h5 : j = nbath - 1
  · rw [if_neg (by omega), List.getElem?_set_ne (by omega), h5, List.getElem?_set_self (by simp; omega)]
    simp
  · rw [if_pos (by omega)]

/-- Symmetric around zero. -/
def SymmetricAround0 (l : List ℝ) : Prop := ∀ i < l.length, l[l.length - 1 - i]?.getD 0 = -(l[i]?.getD 0)

theorem pairwise_of_elem {l : List ℝ} {n : ℕ} (hl : l.length = n) {f : ℕ → ℝ} (hf : ∀ j < n, l[j]? = some (f j))
    (h : ∀ i j, i < j → j < n → f i < f j) : l.Pairwise (· < ·) := by
  rw [List.pairwise_iff_getElem]
  intro i j hi hj hij
  have e1 := hf i (by omega)
  have e2 := hf j (by omega)
  rw [List.getElem?_eq_getElem hi] at e1
  rw [List.getElem?_eq_getElem hj] at e2
  rw [Option.some.inj e1, Option.some.inj e2]
  exact h i j hij (by omega)

theorem symm_of_elem {l : List ℝ} {n : ℕ} (hl : l.length = n) {f : ℕ → ℝ} (hf : ∀ j < n, l[j]? = some (f j))
    (h : ∀ i < n, f (n - 1 - i) = -f i) : SymmetricAround0 l := by
  intro i hi
  rw [hl] at hi ⊢
  rw [hf i hi, hf _ (by omega)]
  exact h i hi

/-- C53: for `2 ≤ nbath < 42` and for every odd `nbath ≥ 3` the energies are strictly increasing and symmetric. The remaining
cases, even `nbath ≥ 42`, are refuted by `C53_refuted`. -/
theorem C53_sorted_partial {nbath : ℕ} (h2 : 2 ≤ nbath) (h : nbath % 2 = 1 ∨ nbath < 42) {junk : List ℝ} (hl : junk.length = nbath) :
    ∃ ek, initialEk nbath 2 junk = .ok ek ∧ ek.length = nbath ∧ ek.Pairwise (· < ·) ∧ SymmetricAround0 ek := by
  by_cases e3 : nbath = 3
  · subst e3
    match junk, hl with
    | [x, y, z], _ =>
      refine ⟨_, (C54_refuted 2 x y z).1, rfl, by norm_num, ?_⟩
      intro i hi
      simp only [List.length_cons, List.length_nil] at hi
      interval_cases i <;> norm_num
  refine ⟨_, C54_agree_partial (by omega) e3 2 hl, ?_⟩
  by_cases e2 : nbath = 2
  · subst e2
    match junk, hl with
    | [x, y], _ =>
      have : initBathC 2 2 [x, y] = [-2, 2] := by unfold initBathC; simp
      rw [this]
      refine ⟨rfl, by norm_num, ?_⟩
      intro i hi
      simp only [List.length_cons, List.length_nil] at hi
      interval_cases i <;> norm_num
  by_cases ho : nbath % 2 = 1
  · obtain ⟨k1, k2⟩ := odd_elem ho (by omega) 2 hl
    set H := nbath / 2 with hH
    have hN : nbath = 2 * H + 1 := by omega
    have hq : ((H : ℕ) : ℝ) * (2 / (H : ℕ)) = 2 := by
      have : ((H : ℕ) : ℝ) ≠ 0 := by exact_mod_cast (by omega : H ≠ 0)
      field_simp
    have hq0 : (0 : ℝ) < 2 / (H : ℕ) := by
      have : (0 : ℝ) < (H : ℕ) := by exact_mod_cast (by omega : 0 < H)
      positivity
    set q : ℝ := 2 / (H : ℕ) with hqd
    have k3 : ∀ j < nbath, (initBathC nbath 2 junk)[j]? = some (-2 + j * q) := by
      intro j hj
      rw [k2 j hj]
      congr 1
      by_cases c1 : j < H
      · rw [if_pos c1]
      rw [if_neg c1]
      by_cases c2 : j = H
      · rw [if_pos c2, c2, hq]; ring
      rw [if_neg c2, Nat.cast_sub (by omega), Nat.cast_sub (by omega), hN]
      push_cast
      linarith
    refine ⟨k1, pairwise_of_elem k1 k3 fun i j hij _ => ?_, symm_of_elem k1 k3 fun i hi => ?_⟩
    · have : (i : ℝ) < j := by exact_mod_cast hij
      nlinarith
    · rw [Nat.cast_sub (by omega), Nat.cast_sub (by omega), hN]
      push_cast
      linarith
  · have h42 : nbath < 42 := by omega
    obtain ⟨k1, k2⟩ := even_elem (by omega) (by omega) 2 hl
    obtain ⟨D, hD⟩ : ∃ D, nbath / 2 - 1 = D := ⟨_, rfl⟩
    have hN : nbath = 2 * (D + 1) := by omega
    have hH : nbath / 2 = D + 1 := by omega
    rw [hD, hH] at k2
    have hD0 : 0 < D := by omega
    have hq : (D : ℝ) * (2 / D) = 2 := by
      have : (D : ℝ) ≠ 0 := by exact_mod_cast hD0.ne'
      field_simp
    have hq1 : (0.1 : ℝ) < 2 / D := by
      have hDp : (0 : ℝ) < D := by exact_mod_cast hD0
      have hDl : (D : ℝ) ≤ 19 := by exact_mod_cast (by omega : D ≤ 19)
      rw [lt_div_iff₀ hDp]
      linarith
    set q : ℝ := 2 / D with hqd
    clear_value q
    have hup : ∀ j : ℕ, j < D → (j : ℝ) * q ≤ 2 - q := by
      intro j hj
      have : (j : ℝ) + 1 ≤ D := by exact_mod_cast hj
      nlinarith
    have hval : ∀ j, D + 1 < j → j < nbath → (nbath - 1 - j : ℕ) < D := by intro j h1 h2; omega
    refine ⟨k1, pairwise_of_elem k1 k2 fun i j hij hj => ?_, symm_of_elem k1 k2 fun i hi => ?_⟩
    · by_cases c1 : j < D
      · rw [if_pos c1, if_pos (by omega)]
        have : (i : ℝ) < j := by exact_mod_cast hij
        nlinarith
      by_cases c2 : j = D
      · rw [if_neg c1, if_pos c2, if_pos (by omega)]
        have := hup i (by omega)
        linarith
      by_cases c3 : j = D + 1
      · rw [if_neg c1, if_neg c2, if_pos c3]
        by_cases d1 : i < D
        · rw [if_pos d1]
          have := hup i d1
          linarith
        · rw [if_neg d1, if_pos (by omega)]; norm_num
      · rw [if_neg c1, if_neg c2, if_neg c3]
        have hj' := hup (nbath - 1 - j) (by omega)
        by_cases d1 : i < D
        · rw [if_pos d1]
          have := hup i d1
          linarith
        by_cases d2 : i = D
        · rw [if_neg d1, if_pos d2]; linarith
        by_cases d3 : i = D + 1
        · rw [if_neg d1, if_neg d2, if_pos d3]; linarith
        · rw [if_neg d1, if_neg d2, if_neg d3]
          have : ((nbath - 1 - j : ℕ) : ℝ) < (nbath - 1 - i : ℕ) := by exact_mod_cast (by omega : nbath - 1 - j < nbath - 1 - i)
          nlinarith
    · by_cases d1 : i < D
      · rw [if_pos d1, if_neg (by omega), if_neg (by omega), if_neg (by omega), show nbath - 1 - (nbath - 1 - i) = i by omega]; ring
      by_cases d2 : i = D
      · rw [if_neg d1, if_pos d2, if_neg (by omega), if_neg (by omega), if_pos (by omega)]; norm_num
      by_cases d3 : i = D + 1
      · rw [if_neg d1, if_neg d2, if_pos d3, if_neg (by omega), if_pos (by omega)]
      · rw [if_neg d1, if_neg d2, if_neg d3, if_pos (by omega)]; ring

/-- C53 is false for every even `nbath ≥ 42`: the two energies below zero are not in increasing order. -/
theorem C53_refuted {nbath : ℕ} (he : nbath % 2 = 0) (h : 42 ≤ nbath) {junk : List ℝ} (hl : junk.length = nbath) :
    ∃ ek, initialEk nbath 2 junk = .ok ek ∧ ¬ ek.Pairwise (· < ·) := by
  refine ⟨_, C54_agree_partial (by omega) (by omega) 2 hl, fun hp => ?_⟩
  obtain ⟨k1, k2⟩ := even_elem he (by omega) 2 hl
  have e1 := k2 (nbath / 2 - 2) (by omega)
  have e2 := k2 (nbath / 2 - 1) (by omega)
  rw [if_pos (by omega), List.getElem?_eq_getElem (by omega)] at e1
  rw [if_neg (by omega), if_pos rfl, List.getElem?_eq_getElem (by omega)] at e2
  have hlt := List.pairwise_iff_getElem.mp hp (nbath / 2 - 2) (nbath / 2 - 1) (by omega) (by omega) (by omega)
  rw [Option.some.inj e1, Option.some.inj e2] at hlt
  obtain ⟨D, hD⟩ : ∃ D, nbath / 2 = D + 2 := ⟨nbath / 2 - 2, by omega⟩
  rw [hD] at hlt
  have hD19 : (19 : ℝ) ≤ D := by exact_mod_cast (by omega : 19 ≤ D)
  simp only [Nat.add_sub_cancel, show D + 2 - 1 = D + 1 by omega] at hlt
  have hpos : (0 : ℝ) < ((D + 1 : ℕ) : ℝ) := by positivity
  have : (D : ℝ) * (2 / ((D + 1 : ℕ) : ℝ)) = 2 - 2 / ((D + 1 : ℕ) : ℝ) := by
    push_cast
    field_simp
    ring
  rw [this] at hlt
  have h20 : 2 / ((D + 1 : ℕ) : ℝ) ≤ 0.1 := by
    rw [div_le_iff₀ hpos]
    push_cast
    linarith
  linarith

/-- C53: the couplings are all equal, and equal to `1/sqrt(nbath)` exactly up to `nbath = 100`; beyond that they are 0.1. -/
theorem C53_couplings (nbath : ℕ) (h : 0 < nbath) :
    (initialVk nbath).length = nbath ∧
    (nbath ≤ 100 → ∀ v ∈ initialVk nbath, v = 1 / Real.sqrt nbath) ∧
    (100 < nbath → ∀ v ∈ initialVk nbath, v = 0.1 ∧ v ≠ 1 / Real.sqrt nbath) := by
  have hp : (0 : ℝ) < Real.sqrt nbath := Real.sqrt_pos.mpr (by exact_mod_cast h)
  have h10 : Real.sqrt 100 = 10 := by
    rw [show (100 : ℝ) = 10 ^ 2 by norm_num, Real.sqrt_sq (by norm_num)]
  refine ⟨by simp [initialVk], fun hle v hv => ?_, fun hgt v hv => ?_⟩
  · rw [List.eq_of_mem_replicate hv]
    apply max_eq_right
    rw [le_div_iff₀ hp]
    have : Real.sqrt nbath ≤ 10 := by rw [← h10]; exact Real.sqrt_le_sqrt (by exact_mod_cast hle)
    linarith
  · have h10' : 10 < Real.sqrt nbath := by rw [← h10]; exact Real.sqrt_lt_sqrt (by norm_num) (by exact_mod_cast hgt)
    have hlt : 1 / Real.sqrt nbath < 0.1 := by
      rw [div_lt_iff₀ hp]
      linarith
    rw [List.eq_of_mem_replicate hv, max_eq_left hlt.le]
    exact ⟨rfl, hlt.ne'⟩

/-- The hypotheses are met, for instance by six uninitialised numbers. -/
example : ∃ ek, initialEk 6 2 [7, 7, 7, 7, 7, 7] = .ok ek ∧ ek.length = 6 ∧ ek.Pairwise (· < ·) ∧ SymmetricAround0 ek :=
  C53_sorted_partial (by norm_num) (by norm_num) rfl

end Edpyt
