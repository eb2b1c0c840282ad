import Verif.Model.Bath
import Verif.Proof.Py
import Mathlib.Tactic
/-!
Lemmas about the bath initialisation.
-/
namespace Edpyt

theorem fillEk_eq {nbath : ℕ} {bw de : ℝ} {ek : List ℝ} {i : ℕ} (hl : ek.length = nbath) (hi : i < nbath) :
    fillEk nbath bw de ek i = .ok (fillEkC nbath bw de ek i) := by
  unfold fillEk fillEkC
  rw [setItem_natCast _ _ _ (by omega)]
  simp only [bind, Except.bind]
  rw [show ((nbath : ℤ) - i - 1) = ((nbath - i - 1 : ℕ) : ℤ) by omega, setItem_natCast _ _ _ (by rw [List.length_set]; omega)]

theorem fillEkC_length (nbath : ℕ) (bw de : ℝ) (ek : List ℝ) (i : ℕ) : (fillEkC nbath bw de ek i).length = ek.length := by
  simp [fillEkC]

theorem fill_loop_eq {nbath : ℕ} {bw de : ℝ} (m s : ℕ) (ek : List ℝ) (hl : ek.length = nbath) (hm : s + m ≤ nbath) :
    forM' (fillEk nbath bw de) (List.range' s m) ek = .ok ((List.range' s m).foldl (fillEkC nbath bw de) ek) := by
  induction m generalizing s ek with
  | zero => rfl
  | succ m ih =>
    rw [List.range'_succ, forM', fillEk_eq hl (by omega), List.foldl_cons]
    exact ih (s + 1) _ (by rw [fillEkC_length, hl]) (by omega)

/-- Content after the loop `for i in range(1, m)`. -/
theorem fill_elem {nbath : ℕ} {bw de : ℝ} (m : ℕ) (ek : List ℝ) (hl : ek.length = nbath) (hm : 2 * (m + 1) ≤ nbath) (j : ℕ)
    (hj : j < nbath) :
    ((List.range' 1 m).foldl (fillEkC nbath bw de) ek)[j]? = some (
      if 1 ≤ j ∧ j ≤ m then -bw + j * de else if nbath ≤ j + m + 1 ∧ j + 1 < nbath then bw - (nbath - 1 - j : ℕ) * de else ek[j]?.getD 0) ∧
    ((List.range' 1 m).foldl (fillEkC nbath bw de) ek).length = nbath := by
  induction m generalizing j with
  | zero =>
    simp only [List.range'_zero, List.foldl_nil]
    rw [if_neg (by omega), if_neg (by omega), List.getElem?_eq_getElem (by omega)]
    exact ⟨rfl, hl⟩
  | succ m ih =>
    obtain ⟨hel, hlen⟩ := ih (by omega) j hj
    rw [List.range'_1_concat, List.foldl_append, List.foldl_cons, List.foldl_nil]
    refine ⟨?_, by rw [fillEkC_length, hlen]⟩
    generalize (List.range' 1 m).foldl (fillEkC nbath bw de) ek = L at hel hlen ⊢
    unfold fillEkC
    rw [List.getElem?_set, List.getElem?_set]
    by_cases h1 : nbath - (1 + m) - 1 = j
    · rw [if_pos h1, List.length_set, hlen, if_pos (by omega), if_neg (by omega), if_pos (by omega)]
      rw [show nbath - 1 - j = 1 + m by omega]
    · rw [if_neg h1]
      by_cases h2 : 1 + m = j
      · rw [if_pos h2, hlen, if_pos (by omega), if_pos (by omega), h2]
      · rw [if_neg h2, hel]
        congr 1
        by_cases h3 : 1 ≤ j ∧ j ≤ m
        · rw [if_pos h3, if_pos (by omega)]
        · rw [if_neg h3, if_neg (show ¬(1 ≤ j ∧ j ≤ m + 1) by omega)]
          by_cases h4 : nbath ≤ j + m + 1 ∧ j + 1 < nbath
          · rw [if_pos h4, if_pos (by omega)]
          · rw [if_neg h4, if_neg (by omega)]

theorem setItem_neg_one {l : List ℝ} {x : ℝ} (h : 0 < l.length) : setItem l (-1) x = .ok (l.set (l.length - 1) x) := by
  unfold setItem pyIndex
  rw [if_neg (by omega), if_pos (by omega)]
  simp only
  congr 2
  omega

end Edpyt
