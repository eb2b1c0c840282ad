import Verif.Model.Local
import Verif.Spec.Local
import Verif.Proof.Par
import Verif.Proof.Py
import Mathlib.Tactic.Ring
import Mathlib.Tactic.Positivity
/-!
Lemmas for `edpyt/ham_local.py`.
-/
namespace Edpyt
open Spec

variable {K : Type} [Field K]

theorem occNum_eq (s i : ℕ) : occNum K s i = bitNum K s i := by
  unfold occNum bitNum
  rw [Nat.and_one_is_mod, Nat.shiftRight_eq_div_pow, ← Nat.toNat_testBit]
  cases s.testBit i <;> simp

theorem loopAdd_eq (n : ℕ) (f : ℕ → K) (acc : K) : loopAdd n f acc = acc + ∑ i ∈ Finset.range n, f i := by
  unfold loopAdd
  induction n with
  | zero => simp
  | succ n ih =>
    rw [List.range_succ, List.foldl_append, ih, Finset.sum_range_succ]
    simp [add_assoc]

theorem foldl_add_range (n : ℕ) (g : ℕ → K) (acc : K) :
    (List.range n).foldl (fun a i => a + g i) acc = acc + ∑ i ∈ Finset.range n, g i := loopAdd_eq n g acc

theorem coulombLoop_eq (n : ℕ) (V : ℕ → ℕ → K) (z : ℕ → K) (hf : Bool) (a b : ℕ → K) (res : K) :
    coulombLoop n V z hf a b res = res +
      ((∑ i : Fin n, if hf then V i i * (a i - 1 / 2) * (b i - 1 / 2) else V i i * a i * b i) +
      1 / 2 * ∑ i : Fin n, ∑ j : Fin n, if i ≠ j then (a i + b i - z i) * V i j * (a j + b j - z j) else 0) := by
  unfold coulombLoop
  have : ∀ (f : K → ℕ → K) (g : ℕ → K), (∀ r i, f r i = r + g i) →
      (List.range n).foldl f res = res + ∑ i ∈ Finset.range n, g i := by
    intro f g h
    have : f = fun r i => r + g i := by funext r i; exact h r i
    rw [this, foldl_add_range]
  rw [this _ (fun i => (if hf then V i i * (a i - 1 / 2) * (b i - 1 / 2) else V i i * a i * b i) +
    1 / 2 * ∑ j ∈ Finset.range n, if i ≠ j then (a i + b i - z i) * V i j * (a j + b j - z j) else 0)]
  · rw [Finset.sum_add_distrib, Finset.sum_range, ← Finset.mul_sum]
    congr 3
    rw [Finset.sum_range]
    apply Finset.sum_congr rfl; intro i _
    rw [Finset.sum_range]
    apply Finset.sum_congr rfl; intro j _
    simp [Fin.ext_iff]
  · intro r i
    simp only [loopAdd_eq, zero_add]
    have e : (1 : K) / 2 * (a i + b i - z i) * ∑ x ∈ Finset.range n,
        (if i = x then V i x - V i i else V i x) * (a x + b x - z x) =
        1 / 2 * ∑ j ∈ Finset.range n, if i ≠ j then (a i + b i - z i) * V i j * (a j + b j - z j) else 0 := by
      rw [mul_assoc, Finset.mul_sum]
      congr 1
      apply Finset.sum_congr rfl; intro j _
      by_cases h : i = j
      · subst h; simp
      · simp [h]; ring
    rw [e]
    cases hf <;> simp <;> ring

theorem localEntry_eq (n : ℕ) (H : ℕ → ℕ → ℕ → K) (V : ℕ → ℕ → K) (z : ℕ → K) (hf : Bool) (mu : K)
    (sup sdw : ℕ) :
    localEntry n H V z hf mu sup sdw =
      localEnergy n (fun i => H 0 i i) (fun i => H 1 i i) V z hf mu sup sdw := by
  unfold localEntry localEnergy
  simp only [coulombLoop_eq, loopAdd_eq, occNum_eq, Finset.sum_range, Finset.sum_add_distrib, zero_add]
  have : ∀ i : Fin n, bitNum K sup i * (H 0 i i + mu) = (H 0 i i + mu) * bitNum K sup i := fun i => mul_comm _ _
  simp only [this]
  ring

theorem nLocalEntry_eq (n : ℕ) (hn : n ≤ 32) (H : ℕ → ℕ → ℕ → K) (V : ℕ → ℕ → K) (z : ℕ → K) (hf : Bool) (mu : K)
    (sup sdw : ℕ) (hu : sup < 2 ^ n) (hd : sdw < 2 ^ n) :
    nLocalEntry n H V z hf mu (sup + 2 ^ n * sdw) =
      localEnergy n (fun i => H 1 i i) (fun i => H 1 i i) V z hf mu sup sdw := by
  have hmask : ((1 <<< n) - 1) % 2 ^ 32 = 2 ^ n - 1 := by
    rw [Nat.one_shiftLeft, Nat.mod_eq_of_lt]
    have : 2 ^ n ≤ 2 ^ 32 := Nat.pow_le_pow_right (by norm_num) hn
    omega
  have hup : (sup + 2 ^ n * sdw) &&& (2 ^ n - 1) = sup := by
    rw [Nat.and_two_pow_sub_one_eq_mod, Nat.add_mul_mod_self_left, Nat.mod_eq_of_lt hu]
  have hdw : ((sup + 2 ^ n * sdw) &&& ((2 ^ n - 1) <<< n)) >>> n = sdw := by
    rw [Nat.shiftRight_and_distrib, Nat.shiftLeft_shiftRight, Nat.shiftRight_eq_div_pow,
      Nat.add_mul_div_left _ _ (by positivity), Nat.div_eq_of_lt hu, zero_add,
      Nat.and_two_pow_sub_one_eq_mod, Nat.mod_eq_of_lt hd]
  unfold nLocalEntry localEnergy
  simp only [hmask, hup, hdw]
  simp only [coulombLoop_eq, loopAdd_eq, occNum_eq, Finset.sum_range, Finset.sum_add_distrib, zero_add, mul_add]
  ring

/-- Reading the result of a loop nest that stores each cell once. -/
theorem runOps_store {V : Type} {ops : List (MemOp V)} {mem : List V} {l : ℕ} {v : V} (hl : l < mem.length)
    (hex : ∃ o ∈ ops, o.loc = l) (hval : ∀ o ∈ ops, o.loc = l → o.f = fun _ => v) :
    (runOps ops mem)[l]? = some v := by
  rw [runOps_getElem?, List.getElem?_eq_getElem hl, Option.map_some]
  congr 1
  have hne : ops.filter (fun o => decide (o.loc = l)) ≠ [] := by
    obtain ⟨o, ho, h⟩ := hex
    intro hc
    have : o ∈ ops.filter (fun o => decide (o.loc = l)) := by simp [ho, h]
    rw [hc] at this; simp at this
  have hall : ∀ o ∈ ops.filter (fun o => decide (o.loc = l)), o.f = fun _ => v := by
    intro o ho
    rw [List.mem_filter] at ho
    exact hval o ho.1 (by simpa using ho.2)
  obtain ⟨init, last, hsplit⟩ : ∃ init last, ops.filter (fun o => decide (o.loc = l)) = init ++ [last] :=
    ⟨_, _, (List.dropLast_append_getLast hne).symm⟩
  rw [hsplit, List.foldl_append]
  simp [hall last (by rw [hsplit]; simp)]

end Edpyt
