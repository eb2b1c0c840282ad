import Verif.Model.EspaceDim
import Verif.Proof.Py
import Verif.Proof.GenStates
import Mathlib.Combinatorics.Enumerative.DoubleCounting
import Mathlib.Data.Nat.Choose.Sum
/-!
Property C07: sector dimensions.
-/
namespace Edpyt
open Spec

theorem getEspaceDim_sz (n : ℕ) (neigMax : Option ℕ) :
    getEspaceDim n neigMax .sz =
      .ok (clipDim neigMax ((ndindex2 (n + 1) (n + 1)).map fun p => n.choose p.1 * n.choose p.2)) := by
  unfold getEspaceDim
  simp only
  have h := forM'_fill (dimStep n) (fun p => n.choose p.1 * n.choose p.2) 0 (ndindex2 (n + 1) (n + 1)) []
    (by
      intro k hk l hl
      have hk' := hk
      rw [length_ndindex2] at hk'
      rw [getElem_ndindex2]
      have h1 : k / (n + 1) < n + 1 := Nat.div_lt_of_lt_mul hk'
      have h2 : k % (n + 1) < n + 1 := Nat.mod_lt _ (by omega)
      have h3 := Nat.div_add_mod k (n + 1)
      have : getSectorIndex n ((k / (n + 1) : ℕ) : ℤ) ((k % (n + 1) : ℕ) : ℤ) = .ok (k : ℤ) := by
        generalize k / (n + 1) = q at *
        generalize k % (n + 1) = r at *
        unfold getSectorIndex
        rw [if_neg (by omega), ← h3]
        congr 1
        push_cast; ring
      simp only [dimStep, this, getSectorDim, binom_natCast]
      simp)
  rw [length_ndindex2] at h
  simp only [List.nil_append] at h
  rw [h]; rfl

theorem getEspaceDim_N (n : ℕ) (neigMax : Option ℕ) :
    getEspaceDim n neigMax .N =
      .ok (clipDim neigMax ((List.range (2 * n + 1)).map fun k => (2 * n).choose k)) := by
  unfold getEspaceDim
  simp only
  have h := forM'_fill (fun (a : List ℕ) (k : ℕ) => setItem a k (binom (2 * n) k))
    (fun k => (2 * n).choose k) 0 (List.range (2 * n + 1)) []
    (by intro k hk l hl; simp [binom_natCast])
  simp only [List.nil_append, List.length_range] at h
  rw [h]; rfl

/-- **C07**, sum rule. Without a cap (`None` or `0`) the dimensions add up to `4^n`, in both
symmetries. -/
theorem C07_sum (n : ℕ) (sym : Symm) (hs : sym = .sz ∨ sym = .N) (m : Option ℕ) (hm : m = none ∨ m = some 0) :
    ∃ dims, getEspaceDim n m sym = .ok dims ∧ dims.sum = 4 ^ n := by
  have hc : ∀ a, clipDim m a = a := by
    intro a; rcases hm with rfl | rfl <;> rfl
  have h2 := Nat.sum_range_choose
  rcases hs with rfl | rfl
  · refine ⟨_, getEspaceDim_sz n m, ?_⟩
    rw [hc]
    rw [sum_ndindex2]
    simp only [← Finset.mul_sum, h2, ← Finset.sum_mul]
    rw [← mul_pow]; norm_num
  · refine ⟨_, getEspaceDim_N n m, ?_⟩
    rw [hc]
    have : ((List.range (2 * n + 1)).map fun k => (2 * n).choose k).sum = ∑ k ∈ Finset.range (2 * n + 1), (2 * n).choose k := rfl
    rw [this, h2, pow_mul]; norm_num

/-- **C07**, entries. The entry at the index of sector `(nup, ndw)` is the number of pairs of basis
states `generate_states` lists for it; in the particle-number symmetry the entry at `N` is the number
of states `generate_states` lists for `N` particles in `2n` spin orbitals. -/
theorem C07_entries {w n : ℕ} (hw : 2 * n ≤ w) (hn : 2 * n ≤ 32) :
    (∃ dims, getEspaceDim n none .sz = .ok dims ∧ dims.length = (n + 1) * (n + 1) ∧
      ∀ nup ndw : ℕ, nup ≤ n → ndw ≤ n → ∃ (i : ℕ) (up dw : List ℕ),
        getSectorIndex n nup ndw = .ok (i : ℤ) ∧ generateStates w n nup = .ok up ∧
        generateStates w n ndw = .ok dw ∧ dims[i]? = some (up.length * dw.length)) ∧
    (∃ dims, getEspaceDim n none .N = .ok dims ∧ dims.length = 2 * n + 1 ∧
      ∀ N : ℕ, N ≤ 2 * n → ∃ st, generateStates w (2 * n) N = .ok st ∧ dims[N]? = some st.length) := by
  constructor
  · refine ⟨_, getEspaceDim_sz n none, by simp [clipDim, length_ndindex2], ?_⟩
    intro nup ndw hu hd
    obtain ⟨up, h1, -, -, h2⟩ := generateStates_core (w := w) (n := n) (by omega) (by omega) hu
    obtain ⟨dw, h3, -, -, h4⟩ := generateStates_core (w := w) (n := n) (by omega) (by omega) hd
    have hlt : nup * (n + 1) + ndw < (n + 1) * (n + 1) := by nlinarith
    refine ⟨nup * (n + 1) + ndw, up, dw, ?_, h1, h3, ?_⟩
    · unfold getSectorIndex; rw [if_neg (by omega)]; push_cast; rfl
    · rw [h2, h4]
      simp only [clipDim, List.getElem?_map]
      rw [List.getElem?_eq_getElem (by rw [length_ndindex2]; exact hlt), getElem_ndindex2]
      have e1 : (nup * (n + 1) + ndw) / (n + 1) = nup := by
        rw [mul_comm, Nat.mul_add_div (by omega), Nat.div_eq_of_lt (by omega)]; simp
      have e2 : (nup * (n + 1) + ndw) % (n + 1) = ndw := by
        rw [mul_comm, Nat.mul_add_mod, Nat.mod_eq_of_lt (by omega)]
      rw [e1, e2]; rfl
  · refine ⟨_, getEspaceDim_N n none, by simp [clipDim], ?_⟩
    intro N hN
    obtain ⟨st, h1, -, -, h2⟩ := generateStates_core (w := w) (n := 2 * n) hn hw hN
    refine ⟨st, h1, ?_⟩
    rw [h2]; simp [clipDim, List.getElem?_range (show N < 2 * n + 1 by omega)]

/-- **C07**, cap. With a non-zero cap every entry is the minimum of the dimension and the cap. -/
theorem C07_cap (n m : ℕ) (hm : m ≠ 0) (sym : Symm) (hs : sym = .sz ∨ sym = .N) :
    ∃ dims, getEspaceDim n none sym = .ok dims ∧
      getEspaceDim n (some m) sym = .ok (dims.map fun d => min d m) := by
  have hc : ∀ a, clipDim (some m) a = a.map fun d => min d m := by
    intro a
    cases m with
    | zero => exact absurd rfl hm
    | succ m => rfl
  rcases hs with rfl | rfl
  · exact ⟨_, getEspaceDim_sz n none, by rw [getEspaceDim_sz, hc]; rfl⟩
  · exact ⟨_, getEspaceDim_N n none, by rw [getEspaceDim_N, hc]; rfl⟩

/-- **C07**, any other symmetry name is rejected. -/
theorem C07_other (n : ℕ) (m : Option ℕ) : getEspaceDim n m .other = .error .notImplemented := rfl

example : getEspaceDim 2 none .sz = .ok [1, 2, 1, 2, 4, 2, 1, 2, 1] := by decide
example : getEspaceDim 2 (some 3) .N = .ok [1, 3, 3, 3, 1] := by decide

end Edpyt
