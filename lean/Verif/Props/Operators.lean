import Verif.Proof.Operators
import Mathlib.Tactic.IntervalCases
/-!
Properties C08, C09, C10, C11: `edpyt/operators.py`.
-/
namespace Edpyt
open Spec

/-- **C08**, creation. On a 32-bit state and a position below 32: `cdg` succeeds exactly if the site
is empty; the new state has that bit set and all other bits unchanged, hence one particle more. -/
theorem C08_cdg {s pos : ℕ} (n : ℕ) (hs : s < 2 ^ 32) (hp : pos < 32) :
    (s.testBit pos = false → ∃ sg t, cdg s pos n = .ok (sg, t) ∧ t < 2 ^ 32 ∧
      (∀ k, t.testBit k = (decide (k = pos) || s.testBit k)) ∧ particles t = particles s + 1) ∧
    (s.testBit pos = true → cdg s pos n = .error .assertionError) := by
  constructor
  · intro h
    have hb : ∀ k, (flip s pos).testBit k = (decide (k = pos) || s.testBit k) := by
      intro k; rw [flip_testBit hs hp]; split_ifs with hk
      · subst hk; simp [h]
      · simp [hk]
    refine ⟨_, _, cdg_of_empty hs hp h, flip_lt hs hp, hb, ?_⟩
    · have := occF_flip_of_empty (i := (⟨pos, hp⟩ : Fin 32)) le_rfl hs h
      rw [← card_occF (flip_lt hs hp), ← card_occF hs]
      simp only at this
      rw [this, Finset.card_insert_of_notMem (by simp [h])]
  · exact cdg_of_full hs hp

/-- **C08**, annihilation. -/
theorem C08_c {s pos : ℕ} (n : ℕ) (hs : s < 2 ^ 32) (hp : pos < 32) :
    (s.testBit pos = true → ∃ sg t, c s pos n = .ok (sg, t) ∧ t < 2 ^ 32 ∧
      (∀ k, t.testBit k = (!decide (k = pos) && s.testBit k)) ∧ particles t + 1 = particles s) ∧
    (s.testBit pos = false → c s pos n = .error .assertionError) := by
  constructor
  · intro h
    refine ⟨_, _, c_of_full hs hp h, flip_lt hs hp, ?_, ?_⟩
    · intro k; rw [flip_testBit hs hp]; split_ifs with hk
      · subst hk; simp [h]
      · simp [hk]
    · have := occF_flip_of_full (i := (⟨pos, hp⟩ : Fin 32)) le_rfl hs h
      rw [← card_occF (flip_lt hs hp), ← card_occF hs]
      simp only at this
      rw [this]
      exact Finset.card_erase_add_one (by simp [h])
  · exact c_of_empty hs hp

/-- **C08**, inverse: `c` undoes `cdg` and vice versa, with the same sign. -/
theorem C08_inverse {s t pos : ℕ} {sg : ℤ} (n : ℕ) (hs : s < 2 ^ 32) (ht : t < 2 ^ 32) (hp : pos < 32) :
    cdg s pos n = .ok (sg, t) ↔ c t pos n = .ok (sg, s) := by
  have hsg : ∀ a, a < 2 ^ 32 → fsgn (flip a pos) pos n = fsgn a pos n := by
    intro a ha
    rw [fsgn_eq, fsgn_eq]
    congr 2
    apply Finset.filter_congr
    intro k hk
    rw [flip_testBit ha hp, if_neg]
    simp at hk; omega
  constructor
  · intro h
    cases hb : s.testBit pos with
    | false =>
      rw [cdg_of_empty hs hp hb] at h
      obtain ⟨rfl, rfl⟩ := Prod.mk.inj (Except.ok.inj h)
      rw [c_of_full ht hp (by rw [flip_testBit hs hp]; simp [hb]), flip_flip hs hp, hsg s hs]
    | true => rw [cdg_of_full hs hp hb] at h; cases h
  · intro h
    cases hb : t.testBit pos with
    | true =>
      rw [c_of_full ht hp hb] at h
      obtain ⟨rfl, rfl⟩ := Prod.mk.inj (Except.ok.inj h)
      rw [cdg_of_empty hs hp (by rw [flip_testBit ht hp]; simp [hb]), flip_flip ht hp, hsg t ht]
    | false => rw [c_of_empty ht hp hb] at h; cases h

/-- **C08**, occupation tests used by the matrix builders. -/
theorem C08_check (s pos : ℕ) :
    (checkFull s pos ≠ 0 ↔ s.testBit pos = true) ∧ (checkEmpty s pos ≠ 0 ↔ s.testBit pos = false) := by
  rw [checkFull_eq, checkEmpty_eq]
  cases s.testBit pos <;> simp

example : cdg 5 1 4 = .ok (-1, 7) ∧ cdg 5 2 4 = .error .assertionError ∧ c 5 0 4 = .ok (-1, 4) := by
  decide

/-- **C09**, sign of `cdg` and `c`: minus one to the number of occupied sites in `pos+1..n-1`. -/
theorem C09_sign {s pos n t : ℕ} {sg : ℤ} (h : cdg s pos n = .ok (sg, t) ∨ c s pos n = .ok (sg, t)) :
    sg = (-1) ^ ((Finset.Ico (pos + 1) n).filter (fun k => s.testBit k = true)).card := by
  rw [← fsgn_eq]
  rcases h with h | h
  · unfold cdg at h; simp only at h; split at h
    · exact (Prod.mk.inj (Except.ok.inj h)).1.symm
    · cases h
  · unfold c at h; simp only at h; split at h
    · exact (Prod.mk.inj (Except.ok.inj h)).1.symm
    · cases h

/-- **C09**, sign of the fused hop: minus one to the number of occupied sites strictly between the
two sites, whatever their order. -/
theorem C09_cdgc_sign (s i j : ℕ) :
    (cdgc s i j).1 =
      (-1) ^ ((Finset.Ico (min i j + 1) (max i j)).filter (fun k => s.testBit k = true)).card :=
  getParity_eq s i j

example : cdg 0b1101 1 4 = .ok (1, 0b1111) ∧ (cdgc 0b1101 1 3).1 = -1 := by decide

/-- The code's operators as matrices over the basis states `0 .. 2^n-1`; a raised exception is the
zero vector. Column = initial state, row = final state. -/
def opMatrix (op : ℕ → ℕ → ℕ → Except PyErr (ℤ × ℕ)) (n pos : ℕ) :
    Matrix (Fin (2 ^ n)) (Fin (2 ^ n)) ℤ :=
  Matrix.of fun t s => match op s pos n with
    | .ok (sg, f) => if f = t then sg else 0
    | .error _ => 0

/-- Basis states are the sets of occupied sites. -/
noncomputable def stateEquiv (n : ℕ) : Fin (2 ^ n) ≃ Finset (Fin n) :=
  Equiv.ofBijective (fun s => occF n s)
    ⟨fun s t h => Fin.ext (occF_inj s.2 t.2 h), fun S => by
      obtain ⟨s, hs, h⟩ := occF_surj S; exact ⟨⟨s, hs⟩, h⟩⟩

/-- **C10**, identification: the code's `c` and `cdg` are the annihilation and creation operators of
the specification (second quantisation on finite sets of modes). -/
theorem C10_code_is_spec {n : ℕ} (hn : n ≤ 32) (i : Fin n) :
    opMatrix c n i = (ann ℤ i).submatrix (stateEquiv n) (stateEquiv n) ∧
    opMatrix cdg n i = (cre ℤ i).submatrix (stateEquiv n) (stateEquiv n) := by
  constructor
  · ext t s
    rw [Matrix.submatrix_apply, ann_apply, opMatrix, Matrix.of_apply]
    have hs32 : (s : ℕ) < 2 ^ 32 := lt_of_lt_of_le s.2 (Nat.pow_le_pow_right (by norm_num) hn)
    show _ = if i ∈ occF n s then (if occF n t = (occF n s).erase i then _ else _) else _
    simp only [mem_occF]
    cases hb : (s : ℕ).testBit i with
    | true =>
      rw [c_of_full hs32 (by omega) hb, if_pos rfl, ← occF_flip_of_full hn s.2 hb]
      simp only
      rw [fsgn_eq_sgn]
      by_cases he : flip s i = t
      · rw [if_pos he, if_pos (by rw [he])]; rfl
      · rw [if_neg he, if_neg]
        intro h; exact he (occF_inj t.2 (flip_lt s.2 i.2) h).symm
    | false =>
      rw [c_of_empty hs32 (by omega) hb, if_neg (by simp)]
  · ext t s
    rw [Matrix.submatrix_apply, cre_apply, opMatrix, Matrix.of_apply]
    have hs32 : (s : ℕ) < 2 ^ 32 := lt_of_lt_of_le s.2 (Nat.pow_le_pow_right (by norm_num) hn)
    show _ = if i ∉ occF n s then (if occF n t = insert i (occF n s) then _ else _) else _
    simp only [mem_occF]
    cases hb : (s : ℕ).testBit i with
    | false =>
      rw [cdg_of_empty hs32 (by omega) hb, if_pos (by simp), ← occF_flip_of_empty hn s.2 hb]
      simp only
      rw [fsgn_eq_sgn]
      by_cases he : flip s i = t
      · rw [if_pos he, if_pos (by rw [he])]; rfl
      · rw [if_neg he, if_neg]
        intro h; exact he (occF_inj t.2 (flip_lt s.2 i.2) h).symm
    | true =>
      rw [cdg_of_full hs32 (by omega) hb, if_neg (by simp)]

/-- **C10.** Canonical anticommutation relations of the code's operators, and adjointness. -/
theorem C10_anticommutation {n : ℕ} (hn : n ≤ 32) (i j : Fin n) :
    opMatrix c n i * opMatrix c n j + opMatrix c n j * opMatrix c n i = 0 ∧
    opMatrix cdg n i * opMatrix cdg n j + opMatrix cdg n j * opMatrix cdg n i = 0 ∧
    opMatrix c n i * opMatrix cdg n j + opMatrix cdg n j * opMatrix c n i = (if i = j then 1 else 0) ∧
    opMatrix cdg n i = (opMatrix c n i).transpose := by
  rw [(C10_code_is_spec hn i).1, (C10_code_is_spec hn j).1, (C10_code_is_spec hn i).2,
    (C10_code_is_spec hn j).2]
  simp only [Matrix.submatrix_mul_equiv]
  refine ⟨?_, ?_, ?_, rfl⟩
  · show (ann ℤ i * ann ℤ j + ann ℤ j * ann ℤ i).submatrix _ _ = 0
    rw [ann_anticomm]; rfl
  · show (cre ℤ i * cre ℤ j + cre ℤ j * cre ℤ i).submatrix _ _ = 0
    rw [cre_anticomm]; rfl
  · show (ann ℤ i * cre ℤ j + cre ℤ j * ann ℤ i).submatrix _ _ = _
    rw [ann_cre_anticomm]
    split_ifs
    · exact Matrix.submatrix_one_equiv _
    · rfl

example : opMatrix c 2 0 0 1 = 1 ∧ opMatrix c 2 0 2 3 = -1 ∧ opMatrix c 2 1 1 3 = 1 := by decide

/-- **C11.** The fused hop is annihilation at `j` followed by creation at `i`: same state, and the
sign is the product of the two signs. -/
theorem C11_cdgc {n s : ℕ} (hn : n ≤ 32) (hs : s < 2 ^ n) (i j : Fin n) (hij : i ≠ j)
    (hj : s.testBit j = true) (hi : s.testBit i = false) :
    ∃ sg₁ t sg₂ f, c s j n = .ok (sg₁, t) ∧ cdg t i n = .ok (sg₂, f) ∧
      cdgc s i j = (sg₁ * sg₂, f) := by
  have hs32 : s < 2 ^ 32 := lt_of_lt_of_le hs (Nat.pow_le_pow_right (by norm_num) hn)
  have ht32 : flip s j < 2 ^ 32 := flip_lt hs32 (by omega)
  refine ⟨_, _, _, _, c_of_full hs32 (by omega) hj, cdg_of_empty ht32 (by omega) ?_, ?_⟩
  · rw [flip_testBit hs32 (by omega), if_neg (fun h => hij (Fin.ext h)), hi]
  · refine Prod.ext ?_ (cdgc_snd hs32 (by omega) (by omega))
    exact cdgc_sign hn hs hj hi

example : ∃ i j : Fin 4, i ≠ j ∧ (0b0110 : ℕ).testBit j = true ∧ (0b0110 : ℕ).testBit i = false :=
  ⟨3, 1, by decide, by decide, by decide⟩
example : cdgc 0b0110 3 1 = (-1, 0b1100) := by decide

end Edpyt
