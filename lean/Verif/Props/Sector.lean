import Verif.Proof.GenStates
import Verif.Proof.Lookup
import Mathlib.Data.Nat.Choose.Sum
/-!
Properties C01, C02, C04 (with `binsearch`), C07, C12: `edpyt/sector.py`.

Specification vocabulary: `Spec.particles` (number of one bits), `Spec.InSector n p s`
(`s` is an `n`-bit word with `p` ones).
-/
namespace Edpyt
open Spec

/-- **C01.** For every number of sites `n ≤ 32`, particle number `p ≤ n` and machine word width
`w ≥ n`, `generate_states(n, p)` succeeds and returns a strictly increasing list (so without
repetition) whose members are exactly the `n`-bit words with `p` ones; its length is `n` choose `p`. -/
theorem C01_generate_states {w n p : ℕ} (hn : n ≤ 32) (hnw : n ≤ w) (hpn : p ≤ n) :
    ∃ L, generateStates w n (p : ℤ) = .ok L ∧ L.Pairwise (· < ·) ∧
      (∀ s, s ∈ L ↔ InSector n p s) ∧ L.length = n.choose p :=
  generateStates_core hn hnw hpn

example : generateStates 64 4 2 = .ok [3, 5, 6, 9, 10, 12] := by decide
example : generateStates 32 5 5 = .ok [31] := by decide
example : generateStates 32 3 0 = .ok [0] := by decide

/-- **C01**, machine arithmetic: while the successor of a word of the sector is computed, the
dividend `v^x` is a multiple of the divisor `u`, both are non-zero and below `2^33`, so the float64
division `(v^x)/u` of the code is exact. Stated for the words written out as in the code. -/
theorem C01_float_division_exact {w n x y : ℕ} (hn : n ≤ 32) (hnw : n ≤ w) (hx : 0 < x)
    (hxy : x < y) (hy : y < 2 ^ n) (hp : particles y = particles x) :
    let u := x &&& negW w x
    let v := (u + x) % 2 ^ w
    0 < u ∧ u ∣ (v ^^^ x) ∧ (v ^^^ x) < 2 ^ 33 ∧ v = u + x := by
  obtain ⟨a, b, h, hb, e⟩ := decomp x hx
  have hle := succ_minimal hb e hxy hp
  have hpw : 2 ^ n ≤ 2 ^ w := Nat.pow_le_pow_right (by norm_num) hnw
  have hp32 : 2 ^ n ≤ 2 ^ 32 := Nat.pow_le_pow_right (by norm_num) hn
  obtain ⟨h1, h2, h3⟩ := gosper_parts hb e (by omega : x < 2 ^ w)
  have hv : ((x &&& negW w x) + x) % 2 ^ w = (x &&& negW w x) + x :=
    Nat.mod_eq_of_lt (by omega)
  simp only
  rw [hv]
  refine ⟨by rw [h1]; positivity, ?_, ?_, rfl⟩
  · rw [h2, h3, h1]; exact Dvd.intro _ rfl
  · rw [h2]
    exact lt_of_lt_of_le (Nat.xor_lt_two_pow (n := 32) (by omega) (by omega)) (by norm_num)

example : ∃ x y : ℕ, 0 < x ∧ x < y ∧ y < 2 ^ 4 ∧ particles y = particles x :=
  ⟨6, 9, by norm_num, by norm_num, by norm_num, by decide⟩

/-- **C02.** `generate_states(n, p)` raises for every `p` outside `0..n`. -/
theorem C02_generate_states_rejects (w n : ℕ) (p : ℤ) (hp : p < 0 ∨ p > n) :
    Raises (generateStates w n p) := by
  unfold generateStates Raises
  rcases hp with hp | hp
  · exact ⟨.valueError, by simp [hp]⟩
  · refine ⟨.indexError, ?_⟩
    have h1 : ¬ p < 0 := by omega
    have h2 : binom n p = 0 := by
      simp only [binom, if_neg h1]
      exact Nat.choose_eq_zero_of_lt (by omega)
    simp [h1, h2]

example : generateStates 64 3 4 = .error .indexError := by decide
example : generateStates 64 3 (-1) = .error .valueError := by decide

/-- **C07**, dimension of one sector: `get_sector_dim(n, nup, ndw)` is the number of pairs of
states listed by `generate_states` for the two spins. -/
theorem C07_sector_dim {w n nup ndw : ℕ} (hn : n ≤ 32) (hnw : n ≤ w) (hu : nup ≤ n) (hd : ndw ≤ n) :
    ∃ up dw, generateStates w n (nup : ℤ) = .ok up ∧ generateStates w n (ndw : ℤ) = .ok dw ∧
      getSectorDim n nup ndw = up.length * dw.length := by
  obtain ⟨up, h1, -, -, h2⟩ := generateStates_core (w := w) hn hnw hu
  obtain ⟨dw, h3, -, -, h4⟩ := generateStates_core (w := w) hn hnw hd
  refine ⟨up, dw, h1, h3, ?_⟩
  rw [getSectorDim, binom_natCast, binom_natCast, h2, h4]

/-- **C12**, adding an electron: for sectors inside the Hilbert space, `get_cdg_sector` returns the
sector with one more electron of spin `ispin` (0: up, 1: down) or raises `OutOfHilbertError`, the
latter exactly when that spin is already full. -/
theorem C12_get_cdg_sector (n nup ndw : ℤ) :
    (getCdgSector n nup ndw 0 = .ok (nup + 1, ndw) ↔ nup < n) ∧
    (getCdgSector n nup ndw 0 = .error .outOfHilbert ↔ n ≤ nup) ∧
    (getCdgSector n nup ndw 1 = .ok (nup, ndw + 1) ↔ ndw < n) ∧
    (getCdgSector n nup ndw 1 = .error .outOfHilbert ↔ n ≤ ndw) ∧
    (∀ ispin, ispin ≠ 0 → ispin ≠ 1 → getCdgSector n nup ndw ispin = .error .runtimeError) := by
  unfold getCdgSector
  refine ⟨?_, ?_, ?_, ?_, ?_⟩
  · simp; omega
  · simp; omega
  · simp; omega
  · simp; omega
  · intro i h0 h1; simp [h0, h1]

/-- **C12**, removing an electron. -/
theorem C12_get_c_sector (nup ndw : ℤ) :
    (getCSector nup ndw 0 = .ok (nup - 1, ndw) ↔ 0 < nup) ∧
    (getCSector nup ndw 0 = .error .outOfHilbert ↔ nup ≤ 0) ∧
    (getCSector nup ndw 1 = .ok (nup, ndw - 1) ↔ 0 < ndw) ∧
    (getCSector nup ndw 1 = .error .outOfHilbert ↔ ndw ≤ 0) ∧
    (∀ ispin, ispin ≠ 0 → ispin ≠ 1 → getCSector nup ndw ispin = .error .runtimeError) := by
  unfold getCSector
  refine ⟨?_, ?_, ?_, ?_, ?_⟩
  · simp; omega
  · simp; omega
  · simp; omega
  · simp; omega
  · intro i h0 h1; simp [h0, h1]

/-- **C12**, the two maps invert each other on the sectors of the Hilbert space
`0 ≤ nup, ndw ≤ n`. -/
theorem C12_inverse (n nup ndw ispin nup' ndw' : ℤ) (h0 : 0 ≤ nup) (h1 : nup ≤ n) (h2 : 0 ≤ ndw)
    (h3 : ndw ≤ n) (h0' : 0 ≤ nup') (h1' : nup' ≤ n) (h2' : 0 ≤ ndw') (h3' : ndw' ≤ n) :
    getCdgSector n nup ndw ispin = .ok (nup', ndw') ↔ getCSector nup' ndw' ispin = .ok (nup, ndw) := by
  unfold getCdgSector getCSector
  by_cases ha : ispin = 0
  · subst ha
    by_cases hb : nup + 1 > n <;> by_cases hc : nup' - 1 < 0 <;> simp [hb, hc] <;> omega
  · by_cases hb : ispin = 1
    · subst hb
      by_cases hb : ndw + 1 > n <;> by_cases hc : ndw' - 1 < 0 <;> simp [hb, hc] <;> omega
    · simp [ha, hb]

example : getCdgSector 3 1 2 0 = .ok (2, 2) ∧ getCSector 2 2 0 = .ok (1, 2) := by decide
example : getCdgSector 3 1 3 1 = .error .outOfHilbert := by decide

end Edpyt
