import Verif.Spec.Bits
import Verif.Model.Sector
import Mathlib.Combinatorics.Colex
import Mathlib.Tactic.Ring
import Mathlib.Tactic.Linarith
/-!
Helper lemmas on the number of one bits.
-/
namespace Edpyt
open Spec

theorem particles_zero : particles 0 = 0 := by simp [particles, occ]

theorem particles_eq_length (s : ℕ) : particles s = s.bitIndices.length := by
  unfold particles occ
  rw [List.toFinset_card_of_nodup Nat.bitIndices_nodup]

theorem particles_two_mul (q : ℕ) : particles (2 * q) = particles q := by
  simp [particles_eq_length]

theorem particles_two_mul_add_one (q : ℕ) : particles (2 * q + 1) = particles q + 1 := by
  simp [particles_eq_length]

theorem particles_two_pow_mul (k q : ℕ) : particles (2 ^ k * q) = particles q := by
  simp [particles_eq_length]

/-- splitting a word at position k -/
theorem particles_split (k h : ℕ) : ∀ r, r < 2 ^ k → particles (2 ^ k * h + r) = particles h + particles r := by
  induction k with
  | zero => intro r hr; have : r = 0 := by simpa using hr
            subst this; simp [particles_zero]
  | succ k ih =>
    intro r hr
    have hq : r / 2 < 2 ^ k := by omega
    have e := ih (r / 2) hq
    rcases Nat.mod_two_eq_zero_or_one r with h0 | h0
    · have h1 : r = 2 * (r / 2) := by omega
      have h2 : 2 ^ (k+1) * h + r = 2 * (2 ^ k * h + r / 2) := by rw [pow_succ]; linarith
      rw [h2, particles_two_mul, e]; conv_rhs => rw [h1, particles_two_mul]
    · have h1 : r = 2 * (r / 2) + 1 := by omega
      have h2 : 2 ^ (k+1) * h + r = 2 * (2 ^ k * h + r / 2) + 1 := by rw [pow_succ]; linarith
      rw [h2, particles_two_mul_add_one, e]; conv_rhs => rw [h1, particles_two_mul_add_one]
      omega

theorem particles_two_pow_sub_one (b : ℕ) : particles (2 ^ b - 1) = b := by
  induction b with
  | zero => simp [particles_zero]
  | succ b ih =>
    have : 2 ^ (b+1) - 1 = 2 * (2 ^ b - 1) + 1 := by
      have := Nat.one_le_two_pow (n := b); rw [pow_succ]; omega
    rw [this, particles_two_mul_add_one, ih]

/-- the smallest word with p ones -/
theorem two_pow_sub_one_le (r : ℕ) : 2 ^ particles r - 1 ≤ r := by
  induction r using Nat.strong_induction_on with
  | _ r ih =>
    rcases Nat.eq_zero_or_pos r with h | h
    · subst h; simp [particles_zero]
    · have e := ih (r / 2) (by omega)
      rcases Nat.mod_two_eq_zero_or_one r with h0 | h0
      · have h1 : r = 2 * (r / 2) := by omega
        rw [h1, particles_two_mul]; omega
      · have h1 : r = 2 * (r / 2) + 1 := by omega
        rw [h1, particles_two_mul_add_one, pow_succ]; omega

/-- the largest n-bit word with p ones -/
theorem le_two_pow_sub (n : ℕ) : ∀ r, r < 2 ^ n → particles r ≤ n ∧ r + 2 ^ (n - particles r) ≤ 2 ^ n := by
  induction n with
  | zero => intro r hr; have : r = 0 := by simpa using hr
            subst this; simp [particles_zero]
  | succ n ih =>
    intro r hr
    obtain ⟨e1, e2⟩ := ih (r / 2) (by omega)
    rcases Nat.mod_two_eq_zero_or_one r with h0 | h0
    · have h1 : r = 2 * (r / 2) := by omega
      rw [h1, particles_two_mul]
      refine ⟨by omega, ?_⟩
      have : n + 1 - particles (r/2) = (n - particles (r/2)) + 1 := by omega
      rw [this, pow_succ, pow_succ]; omega
    · have h1 : r = 2 * (r / 2) + 1 := by omega
      rw [h1, particles_two_mul_add_one]
      refine ⟨by omega, ?_⟩
      have : n + 1 - (particles (r/2) + 1) = (n - particles (r/2)) := by omega
      rw [this, pow_succ]
      have := Nat.one_le_two_pow (n := n - particles (r/2)); omega

theorem particles_le {n r : ℕ} (h : r < 2 ^ n) : particles r ≤ n := (le_two_pow_sub n r h).1

/-- The number of words in a sector. -/
theorem card_sector (n p : ℕ) :
    ((Finset.range (2 ^ n)).filter (fun s => particles s = p)).card = n.choose p := by
  have : (Finset.powersetCard p (Finset.range n)).card = n.choose p := by simp
  rw [← this]
  apply Finset.card_bij (fun s _ => occ s)
  · intro s hs
    simp only [Finset.mem_filter, Finset.mem_range] at hs
    rw [Finset.mem_powersetCard]
    refine ⟨?_, hs.2⟩
    intro i hi
    rw [mem_occ] at hi
    rw [Finset.mem_range]
    by_contra hc
    have := Nat.testBit_lt_two_pow (lt_of_lt_of_le hs.1 (Nat.pow_le_pow_right (by norm_num) (not_lt.mp hc)))
    simp [this] at hi
  · intro s _ t _ h
    apply Nat.eq_of_testBit_eq
    intro i
    have : i ∈ occ s ↔ i ∈ occ t := by rw [h]
    rw [mem_occ, mem_occ] at this
    exact Bool.eq_iff_iff.mpr this
  · intro S hS
    rw [Finset.mem_powersetCard] at hS
    refine ⟨∑ i ∈ S, 2 ^ i, ?_, ?_⟩
    · have h1 : occ (∑ i ∈ S, 2 ^ i) = S := Finset.toFinset_bitIndices_sum_two_pow S
      simp only [Finset.mem_filter, Finset.mem_range]
      refine ⟨?_, by rw [particles, h1]; exact hS.2⟩
      apply Nat.lt_pow_two_of_testBit
      intro i hi
      by_contra hc
      have : i ∈ occ (∑ i ∈ S, 2 ^ i) := by rw [mem_occ]; simpa using hc
      rw [h1] at this
      have := Finset.mem_range.mp (hS.1 this)
      omega
    · exact Finset.toFinset_bitIndices_sum_two_pow S

/-- every positive word: h, then a zero, then a run of b ≥ 1 ones, then a zeros -/
theorem decomp (x : ℕ) (hx : 0 < x) : ∃ a b h, 0 < b ∧ x = 2 ^ (a + b + 1) * h + 2 ^ a * (2 ^ b - 1) := by
  induction x using Nat.strong_induction_on with
  | _ x ih =>
    rcases Nat.mod_two_eq_zero_or_one x with h0 | h0
    · obtain ⟨a, b, h, hb, e⟩ := ih (x / 2) (by omega) (by omega)
      refine ⟨a + 1, b, h, hb, ?_⟩
      have : x = 2 * (x / 2) := by omega
      rw [this, e]
      have : a + 1 + b + 1 = (a + b + 1) + 1 := by ring
      rw [this, pow_succ, pow_succ 2 a]; ring
    · -- odd
      by_cases h1 : (x / 2) % 2 = 0
      · refine ⟨0, 1, x / 4, by norm_num, ?_⟩
        norm_num; omega
      · obtain ⟨a, b, h, hb, e⟩ := ih (x / 2) (by omega) (by omega)
        have ha : a = 0 := by
          by_contra hc
          obtain ⟨a', rfl⟩ := Nat.exists_eq_succ_of_ne_zero hc
          apply h1
          rw [e, show a'.succ + b + 1 = (a' + b + 1) + 1 by omega, Nat.succ_eq_add_one, pow_succ, pow_succ 2 a',
            show 2 ^ (a' + b + 1) * 2 * h + 2 ^ a' * 2 * (2 ^ b - 1)
              = 2 * (2 ^ (a' + b + 1) * h + 2 ^ a' * (2 ^ b - 1)) by ring]
          omega
        subst ha
        refine ⟨0, b + 1, h, by omega, ?_⟩
        have h2 : x = 2 * (x / 2) + 1 := by omega
        have := Nat.one_le_two_pow (n := b)
        rw [h2, e]
        have e1 : 2 ^ (0 + (b + 1) + 1) = 2 * 2 ^ (0 + b + 1) := by rw [← pow_succ']; ring_nf
        have e2 : 2 ^ (b + 1) = 2 * 2 ^ b := by rw [← pow_succ']
        rw [e1, e2, mul_assoc]
        omega

end Edpyt
