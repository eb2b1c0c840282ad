import Verif.Proof.Popcount
/-!
The bit trick of `permutations` yields the next larger word with the same number of ones.
-/
namespace Edpyt
open Spec

theorem and_negW {w a x m : ℕ} (hx : x = 2 ^ a * (2 * m + 1)) (hlt : x < 2 ^ w) :
    x &&& negW w x = 2 ^ a := by
  have hpos : 0 < x := by rw [hx]; positivity
  have haw : a < w := by
    by_contra hc
    have : 2 ^ w ≤ 2 ^ a := Nat.pow_le_pow_right (by norm_num) (not_lt.mp hc)
    have : 2 ^ a ≤ x := by rw [hx]; exact Nat.le_mul_of_pos_right _ (by omega)
    omega
  have hneg : negW w x = 2 ^ a * (2 ^ (w - a) - (2 * m + 1)) := by
    unfold negW
    rw [Nat.mod_eq_of_lt (by omega), Nat.mul_sub, ← hx, ← pow_add]
    congr 2; omega
  have hodd : ∃ k, 2 ^ (w - a) - (2 * m + 1) = 2 * k + 1 ∧ k + m + 1 = 2 ^ (w - a - 1) := by
    have h1 : 2 ^ (w - a) = 2 * 2 ^ (w - a - 1) := by
      rw [← pow_succ']; congr 1; omega
    have h2 : 2 ^ a * (2 * m + 1) < 2 ^ a * 2 ^ (w - a) := by
      rw [← pow_add, ← hx]; convert hlt using 2; omega
    have h3 : 2 * m + 1 < 2 ^ (w - a) := Nat.lt_of_mul_lt_mul_left h2
    exact ⟨2 ^ (w - a - 1) - m - 1, by omega, by omega⟩
  obtain ⟨k, hk, hkm⟩ := hodd
  rw [hneg, hk, hx]
  apply Nat.eq_of_testBit_eq
  intro i
  rw [Nat.testBit_and, Nat.testBit_two_pow_mul, Nat.testBit_two_pow_mul, Nat.testBit_two_pow]
  by_cases hi : i < a
  · have h1 : ¬ a ≤ i := by omega
    have h2 : ¬ a = i := by omega
    simp [h1, h2]
  · by_cases hia : a = i
    · subst hia; simp
    · have h1 : a ≤ i := by omega
      obtain ⟨j, rfl⟩ : ∃ j, i = a + (j + 1) := ⟨i - a - 1, by omega⟩
      have e1 : a + (j + 1) - a = j + 1 := by omega
      rw [e1, Nat.testBit_add_one, Nat.testBit_add_one]
      have e2 : (2 * m + 1) / 2 = m := by omega
      have e3 : (2 * k + 1) / 2 = k := by omega
      rw [e2, e3]
      have hm : m < 2 ^ (w - a - 1) := by omega
      have hk' : k = 2 ^ (w - a - 1) - (m + 1) := by omega
      rw [hk', Nat.testBit_two_pow_sub_succ hm]
      cases h : m.testBit j <;> simp

theorem xor_split (k h r t : ℕ) (hr : r < 2 ^ k) (ht : t < 2 ^ k) :
    (2 ^ k * h + r) ^^^ (2 ^ k * h + t) = r ^^^ t := by
  apply Nat.eq_of_testBit_eq
  intro i
  rw [Nat.testBit_xor, Nat.testBit_xor, Nat.testBit_two_pow_mul_add _ hr,
    Nat.testBit_two_pow_mul_add _ ht]
  by_cases hi : i < k
  · simp [hi]
  · have h1 : r.testBit i = false := Nat.testBit_lt_two_pow
      (lt_of_lt_of_le hr (Nat.pow_le_pow_right (by norm_num) (by omega)))
    have h2 : t.testBit i = false := Nat.testBit_lt_two_pow
      (lt_of_lt_of_le ht (Nat.pow_le_pow_right (by norm_num) (by omega)))
    simp [hi, h1, h2]

theorem xor_run (a b : ℕ) : 2 ^ (a + b) ^^^ 2 ^ a * (2 ^ b - 1) = 2 ^ a * (2 ^ (b + 1) - 1) := by
  apply Nat.eq_of_testBit_eq
  intro i
  rw [Nat.testBit_xor, Nat.testBit_two_pow_mul, Nat.testBit_two_pow_mul, Nat.testBit_two_pow,
    Nat.testBit_two_pow_sub_one, Nat.testBit_two_pow_sub_one]
  by_cases h1 : a ≤ i <;> by_cases h2 : i - a < b <;> by_cases h3 : a + b = i <;>
    by_cases h4 : i - a < b + 1 <;> simp [h1, h2, h3, h4] <;> omega

variable {w a b h x : ℕ}

/-- values of the intermediate words -/
theorem gosper_parts (hb : 0 < b) (hx : x = 2 ^ (a + b + 1) * h + 2 ^ a * (2 ^ b - 1))
    (hlt : x < 2 ^ w) :
    x &&& negW w x = 2 ^ a ∧
    (x &&& negW w x) + x = 2 ^ (a + b + 1) * h + 2 ^ (a + b) ∧
    (2 ^ (a + b + 1) * h + 2 ^ (a + b)) ^^^ x = 2 ^ a * (2 ^ (b + 1) - 1) := by
  have hpb := Nat.one_le_two_pow (n := b)
  have hu : x &&& negW w x = 2 ^ a := by
    obtain ⟨b', rfl⟩ : ∃ b', b = b' + 1 := ⟨b - 1, by omega⟩
    apply and_negW (m := 2 ^ (b' + 1) * h + (2 ^ b' - 1)) _ hlt
    rw [hx]
    have e : a + (b' + 1) + 1 = a + ((b' + 1) + 1) := by ring
    rw [e, pow_add 2 a, mul_assoc, ← mul_add]
    congr 1
    have := Nat.one_le_two_pow (n := b')
    rw [pow_succ 2 (b'+1), pow_succ 2 b']
    have : 2 ^ b' * 2 * 2 * h = 2 * (2 ^ b' * 2 * h) := by ring
    omega
  refine ⟨hu, ?_, ?_⟩
  · rw [hu, hx, pow_add 2 a b]
    have : 2 ^ a * 2 ^ b = 2 ^ a * (2 ^ b - 1) + 2 ^ a := by
      rw [Nat.mul_sub, mul_one, Nat.sub_add_cancel]
      exact Nat.le_mul_of_pos_right _ (by omega)
    omega
  · rw [hx, xor_split, xor_run]
    · exact Nat.pow_lt_pow_right (by norm_num) (by omega)
    · calc 2 ^ a * (2 ^ b - 1) < 2 ^ a * 2 ^ b := by
            apply Nat.mul_lt_mul_of_pos_left; omega
            positivity
        _ = 2 ^ (a + b) := by rw [pow_add]
        _ ≤ 2 ^ (a + b + 1) := Nat.pow_le_pow_right (by norm_num) (by omega)

theorem nextPerm_eq (hb : 0 < b) (hx : x = 2 ^ (a + b + 1) * h + 2 ^ a * (2 ^ b - 1))
    (hlt : x < 2 ^ w) (hw : 2 ^ (a + b + 1) * h + 2 ^ (a + b) + (2 ^ (b - 1) - 1) < 2 ^ w)
    (hb32 : b < 32) :
    nextPerm w x = 2 ^ (a + b + 1) * h + 2 ^ (a + b) + (2 ^ (b - 1) - 1) := by
  obtain ⟨h1, h2, h3⟩ := gosper_parts hb hx hlt
  unfold nextPerm
  simp only
  rw [h2]
  have hv : (2 ^ (a + b + 1) * h + 2 ^ (a + b)) % 2 ^ w = 2 ^ (a + b + 1) * h + 2 ^ (a + b) :=
    Nat.mod_eq_of_lt (by omega)
  rw [hv, h3, h1, Nat.mul_div_cancel_left _ (by positivity)]
  have hlt32 : 2 ^ (b + 1) - 1 < 2 ^ 32 := by
    have : 2 ^ (b + 1) ≤ 2 ^ 32 := Nat.pow_le_pow_right (by norm_num) (by omega)
    have := Nat.one_le_two_pow (n := b + 1)
    omega
  rw [Nat.mod_eq_of_lt hlt32]
  have hs : (2 ^ (b + 1) - 1) >>> 2 = 2 ^ (b - 1) - 1 := by
    rw [Nat.shiftRight_eq_div_pow]
    have : 2 ^ (b + 1) = 4 * 2 ^ (b - 1) := by
      rw [show b + 1 = (b - 1) + 2 by omega, pow_add]; ring_nf
    have := Nat.one_le_two_pow (n := b - 1)
    omega
  rw [hs, Nat.mod_eq_of_lt hw]

theorem succ_particles (hb : 0 < b) (hx : x = 2 ^ (a + b + 1) * h + 2 ^ a * (2 ^ b - 1)) :
    particles x = particles h + b ∧
    particles (2 ^ (a + b + 1) * h + 2 ^ (a + b) + (2 ^ (b - 1) - 1)) = particles h + b := by
  have hlt1 : 2 ^ a * (2 ^ b - 1) < 2 ^ (a + b) := by
    rw [pow_add]
    have := Nat.one_le_two_pow (n := b)
    apply Nat.mul_lt_mul_of_pos_left; omega
    positivity
  have hlt2 : 2 ^ (b - 1) - 1 < 2 ^ (a + b) := by
    have := Nat.one_le_two_pow (n := b - 1)
    have : 2 ^ (b - 1) ≤ 2 ^ (a + b) := Nat.pow_le_pow_right (by norm_num) (by omega)
    omega
  have e : 2 ^ (a + b + 1) = 2 * 2 ^ (a + b) := by rw [pow_succ']
  constructor
  · rw [hx, particles_split _ _ _ (by omega), particles_two_pow_mul, particles_two_pow_sub_one]
  · rw [add_assoc, particles_split _ _ _ (by omega)]
    have : 2 ^ (a + b) + (2 ^ (b - 1) - 1) = 2 ^ (a + b) * 1 + (2 ^ (b - 1) - 1) := by ring
    rw [this, particles_split _ _ _ hlt2, particles_two_pow_sub_one]
    have : particles 1 = 1 := by simp [particles_eq_length]
    omega

/-- minimality: every larger word with the same number of ones is at least the successor -/
theorem succ_minimal (hb : 0 < b) (hx : x = 2 ^ (a + b + 1) * h + 2 ^ a * (2 ^ b - 1)) {y : ℕ}
    (hxy : x < y) (hp : particles y = particles x) :
    2 ^ (a + b + 1) * h + 2 ^ (a + b) + (2 ^ (b - 1) - 1) ≤ y := by
  set H := 2 ^ (a + b + 1) with hH
  have e : H = 2 * 2 ^ (a + b) := by rw [hH, pow_succ']
  have hlt2 : 2 ^ (b - 1) - 1 < 2 ^ (a + b) := by
    have := Nat.one_le_two_pow (n := b - 1)
    have : 2 ^ (b - 1) ≤ 2 ^ (a + b) := Nat.pow_le_pow_right (by norm_num) (by omega)
    omega
  have hHpos : 0 < H := by rw [hH]; positivity
  have hy := Nat.div_add_mod y H
  have hr : y % H < H := Nat.mod_lt _ hHpos
  set q := y / H with hq
  set r := y % H with hr'
  rcases lt_trichotomy q h with hqh | hqh | hqh
  · exfalso
    have : H * (q + 1) ≤ H * h := Nat.mul_le_mul_left _ hqh
    rw [mul_add, mul_one] at this
    omega
  · rw [hqh] at hy
    have hpr : particles r = b := by
      have h1 := particles_split (a + b + 1) h r (by rw [← hH]; exact hr)
      rw [← hH, hy, hp, (succ_particles hb hx).1] at h1
      omega
    have hrgt : 2 ^ a * (2 ^ b - 1) < r := by omega
    have hge : 2 ^ (a + b) ≤ r := by
      by_contra hc
      have h1 := (le_two_pow_sub (a + b) r (not_le.mp hc)).2
      rw [hpr] at h1
      have h2 : a + b - b = a := by omega
      rw [h2] at h1
      have : 2 ^ a * (2 ^ b - 1) + 2 ^ a = 2 ^ (a + b) := by
        rw [pow_add, Nat.mul_sub, mul_one, Nat.sub_add_cancel]
        exact Nat.le_mul_of_pos_right _ (by positivity)
      omega
    have hr2 : r = 2 ^ (a + b) * 1 + (r - 2 ^ (a + b)) := by omega
    have hpr2 : particles (r - 2 ^ (a + b)) = b - 1 := by
      have h1 := particles_split (a + b) 1 (r - 2 ^ (a + b)) (by omega)
      rw [← hr2, hpr] at h1
      have : particles 1 = 1 := by simp [particles_eq_length]
      omega
    have := two_pow_sub_one_le (r - 2 ^ (a + b))
    rw [hpr2] at this
    omega
  · have : H * (h + 1) ≤ H * q := Nat.mul_le_mul_left _ hqh
    rw [mul_add, mul_one] at this
    omega

/-- The successor property, in one statement: if some larger `n`-bit word with the same number of
ones exists then `nextPerm` yields the least one, and no intermediate word overflows. -/
theorem nextPerm_spec {n : ℕ} (hn : n ≤ 32) (hnw : n ≤ w) (hxpos : 0 < x) {y : ℕ} (hy : y < 2 ^ n)
    (hxy : x < y) (hp : particles y = particles x) :
    x < nextPerm w x ∧ particles (nextPerm w x) = particles x ∧
      ∀ z, x < z → particles z = particles x → nextPerm w x ≤ z := by
  obtain ⟨a, b, h, hb, hx⟩ := decomp x hxpos
  have hle := succ_minimal hb hx hxy hp
  have hpw : 2 ^ n ≤ 2 ^ w := Nat.pow_le_pow_right (by norm_num) hnw
  have hlt2 : 2 ^ a * (2 ^ b - 1) < 2 ^ (a + b) := by
    rw [pow_add]
    have := Nat.one_le_two_pow (n := b)
    apply Nat.mul_lt_mul_of_pos_left; omega
    positivity
  have hb32 : b < 32 := by
    by_contra hc
    have h1 : 2 ^ 32 ≤ 2 ^ (a + b) := Nat.pow_le_pow_right (by norm_num) (by omega)
    have h2 : 2 ^ n ≤ 2 ^ 32 := Nat.pow_le_pow_right (by norm_num) hn
    omega
  have hnext := nextPerm_eq hb hx (by omega : x < 2 ^ w) (by omega) hb32
  rw [hnext]
  refine ⟨by rw [hx]; omega, ?_, ?_⟩
  · rw [(succ_particles hb hx).2, (succ_particles hb hx).1]
  · intro z hz hpz
    exact succ_minimal hb hx hz hpz

end Edpyt
