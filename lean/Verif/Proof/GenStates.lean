import Verif.Proof.NextPerm
import Mathlib.Data.Finset.Sort
/-!
The loop of `permutations` enumerates a sector.
-/
namespace Edpyt
open Spec

/-- `permLoop` started at `x` reproduces `rest` whenever `x :: rest` is the increasing enumeration
of the part of the sector above `x`. -/
theorem permLoop_eq {w n p : ℕ} (hn : n ≤ 32) (hnw : n ≤ w) (hp : 0 < p) :
    ∀ (rest : List ℕ) (x : ℕ), (x :: rest).Pairwise (· < ·) →
      (∀ z ∈ x :: rest, InSector n p z) →
      (∀ z, InSector n p z → x ≤ z → z ∈ x :: rest) →
      permLoop w rest.length x = rest := by
  intro rest
  induction rest with
  | nil => intro x _ _ _; rfl
  | cons y rest ih =>
    intro x hs hin hcl
    have hxs := hin x (by simp)
    have hys := hin y (by simp)
    have hxy : x < y := by
      have := List.rel_of_pairwise_cons hs (List.mem_cons_self (a := y) (l := rest))
      exact this
    have hxpos : 0 < x := by
      by_contra hc
      have : x = 0 := by omega
      rw [this] at hxs
      have := hxs.2
      rw [particles_zero] at this
      omega
    obtain ⟨h1, h2, h3⟩ := nextPerm_spec (w := w) hn hnw hxpos hys.1 hxy (hys.2.trans hxs.2.symm)
    have hle : nextPerm w x ≤ y := h3 y hxy (hys.2.trans hxs.2.symm)
    have hsec : InSector n p (nextPerm w x) :=
      ⟨lt_of_le_of_lt hle hys.1, h2.trans hxs.2⟩
    have hmem := hcl _ hsec (le_of_lt h1)
    have hyx : nextPerm w x = y := by
      rcases List.mem_cons.mp hmem with h | h
      · omega
      · rcases List.mem_cons.mp h with h | h
        · exact h
        · have hs' := (List.pairwise_cons.mp hs).2
          have := (List.pairwise_cons.mp hs').1 _ h
          omega
    have hy32 : y % 2 ^ 32 = y := Nat.mod_eq_of_lt
      (lt_of_lt_of_le hys.1 (Nat.pow_le_pow_right (by norm_num) hn))
    show (nextPerm w x % 2 ^ 32) :: permLoop w rest.length (nextPerm w x) = y :: rest
    rw [hyx, hy32, ih y]
    · exact (List.pairwise_cons.mp hs).2
    · intro z hz; exact hin z (List.mem_cons_of_mem _ hz)
    · intro z hz hyz
      rcases List.mem_cons.mp (hcl z hz (by omega)) with h | h
      · omega
      · exact h

theorem binom_natCast (n p : ℕ) : binom n (p : ℤ) = n.choose p := by
  unfold binom
  rw [if_neg (by omega), Int.toNat_natCast]

theorem generateStates_core {w n p : ℕ} (hn : n ≤ 32) (hnw : n ≤ w) (hpn : p ≤ n) :
    ∃ L, generateStates w n (p : ℤ) = .ok L ∧ L.Pairwise (· < ·) ∧
      (∀ s, s ∈ L ↔ InSector n p s) ∧ L.length = n.choose p := by
  set S := (Finset.range (2 ^ n)).filter (fun s => particles s = p) with hS
  have hmemS : ∀ s, s ∈ S ↔ InSector n p s := by
    intro s; rw [hS, Finset.mem_filter, Finset.mem_range]; rfl
  set L := S.sort (· ≤ ·) with hL
  have hlen : L.length = n.choose p := by
    rw [hL, Finset.length_sort, hS, card_sector]
  have hpos : 0 < n.choose p := Nat.choose_pos hpn
  have hpw : L.Pairwise (· < ·) := (Finset.sortedLT_sort S).pairwise
  have hmem : ∀ s, s ∈ L ↔ InSector n p s := by
    intro s; rw [hL, Finset.mem_sort, hmemS]
  refine ⟨L, ?_, hpw, hmem, hlen⟩
  -- the first element is the smallest word
  have hinit : InSector n p (2 ^ p - 1) := by
    refine ⟨?_, particles_two_pow_sub_one p⟩
    have : 2 ^ p ≤ 2 ^ n := Nat.pow_le_pow_right (by norm_num) hpn
    have := Nat.one_le_two_pow (n := p); omega
  obtain ⟨x, rest, hxr⟩ : ∃ x rest, L = x :: rest := by
    cases hLL : L with
    | nil => rw [hLL] at hlen; simp at hlen; omega
    | cons x rest => exact ⟨x, rest, rfl⟩
  have hx0 : x = 2 ^ p - 1 := by
    have h1 : 2 ^ p - 1 ∈ x :: rest := by rw [← hxr]; exact (hmem _).mpr hinit
    have h2 : InSector n p x := (hmem x).mp (by rw [hxr]; simp)
    have h3 := two_pow_sub_one_le x
    rw [h2.2] at h3
    rcases List.mem_cons.mp h1 with h | h
    · exact h.symm
    · have := (List.pairwise_cons.mp (hxr ▸ hpw)).1 _ h
      omega
  have h32 : (1 <<< p - 1) % 2 ^ 32 = 2 ^ p - 1 := by
    rw [Nat.one_shiftLeft]
    apply Nat.mod_eq_of_lt
    have : 2 ^ p ≤ 2 ^ 32 := Nat.pow_le_pow_right (by norm_num) (by omega)
    have := Nat.one_le_two_pow (n := p); omega
  unfold generateStates
  simp only [binom_natCast, Int.toNat_natCast]
  rw [if_neg (by omega), if_neg (by omega), h32, hxr, hx0]
  congr 2
  have hlr : n.choose p - 1 = rest.length := by
    rw [← hlen, hxr]; simp
  rw [hlr]
  rcases Nat.eq_zero_or_pos p with h0 | h0
  · subst h0
    have : rest.length = 0 := by
      rw [← hlr]; simp
    rw [List.length_eq_zero_iff.mp this]; rfl
  · rw [← hx0]
    apply permLoop_eq hn hnw h0
    · rw [← hxr]; exact hpw
    · intro z hz; exact (hmem z).mp (hxr ▸ hz)
    · intro z hz _; rw [← hxr]; exact (hmem z).mpr hz

end Edpyt
