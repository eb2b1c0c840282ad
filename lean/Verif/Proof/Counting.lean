import Verif.Spec.Sector
import Verif.Proof.Operators
import Verif.Proof.GenStates
import Mathlib.Algebra.BigOperators.Group.List.Lemmas
import Mathlib.Algebra.BigOperators.Group.Finset.Basic
import Mathlib.Algebra.Order.BigOperators.Group.Finset
/-!
Counting basis states with one site empty and another one occupied.
-/
namespace Edpyt
open Spec

/-- States with `p` particles on `n` sites. -/
def sectorFinset (n p : ℕ) : Finset ℕ := (Finset.range (2 ^ n)).filter (fun s => particles s = p)

theorem mem_sectorFinset {n p s : ℕ} : s ∈ sectorFinset n p ↔ InSector n p s := by
  rw [sectorFinset, Finset.mem_filter, Finset.mem_range]; rfl

theorem card_finset_empty_full {n p : ℕ} (i j : Fin n) (hij : i ≠ j) :
    (Finset.univ.filter (fun S : Finset (Fin n) => S.card = p ∧ i ∉ S ∧ j ∈ S)).card
      = binom (n - 2) ((p : ℤ) - 1) := by
  cases p with
  | zero =>
    have : Finset.univ.filter (fun S : Finset (Fin n) => S.card = 0 ∧ i ∉ S ∧ j ∈ S) = ∅ := by
      ext S; simp; intro h; simp [h]
    rw [this]; simp [binom]
  | succ p =>
    have hcard : ((Finset.univ.erase i).erase j : Finset (Fin n)).card = n - 2 := by
      rw [Finset.card_erase_of_mem (by simp [hij.symm]), Finset.card_erase_of_mem (by simp), Finset.card_univ,
        Fintype.card_fin]; omega
    have e : binom (n - 2) (((p + 1 : ℕ) : ℤ) - 1) = (n - 2).choose p := by
      have : (((p + 1 : ℕ) : ℤ) - 1) = (p : ℤ) := by push_cast; ring
      rw [this, binom_natCast]
    rw [e, ← hcard, ← Finset.card_powersetCard]
    refine Finset.card_bij' (fun S _ => S.erase j) (fun S _ => insert j S) ?_ ?_ ?_ ?_
    · intro S hS
      simp only [Finset.mem_filter, Finset.mem_univ, true_and] at hS
      rw [Finset.mem_powersetCard]
      constructor
      · intro k hk
        rw [Finset.mem_erase] at hk
        simp only [Finset.mem_erase, Finset.mem_univ, and_true]
        exact ⟨hk.1, fun h => hS.2.1 (h ▸ hk.2)⟩
      · rw [Finset.card_erase_of_mem hS.2.2, hS.1]; rfl
    · intro S hS
      rw [Finset.mem_powersetCard] at hS
      have hj : j ∉ S := fun h => by have := hS.1 h; simp at this
      have hi : i ∉ S := fun h => by have := hS.1 h; simp at this
      simp only [Finset.mem_filter, Finset.mem_univ, true_and]
      refine ⟨by rw [Finset.card_insert_of_notMem hj, hS.2], ?_, by simp⟩
      simp [hij, hi]
    · intro S hS
      simp only [Finset.mem_filter, Finset.mem_univ, true_and] at hS
      exact Finset.insert_erase hS.2.2
    · intro S hS
      rw [Finset.mem_powersetCard] at hS
      have hj : j ∉ S := fun h => by have := hS.1 h; simp at this
      exact Finset.erase_insert hj

theorem card_empty_full {n p i j : ℕ} (hi : i < n) (hj : j < n) (hij : i ≠ j) :
    ((sectorFinset n p).filter (fun s => s.testBit i = false ∧ s.testBit j = true)).card
      = binom (n - 2) ((p : ℤ) - 1) := by
  rw [← card_finset_empty_full (p := p) (⟨i, hi⟩ : Fin n) ⟨j, hj⟩ (by simpa using hij)]
  apply Finset.card_bij (fun s _ => occF n s)
  · intro s hs
    simp only [Finset.mem_filter, mem_sectorFinset] at hs
    simp only [Finset.mem_filter, Finset.mem_univ, true_and, mem_occF]
    exact ⟨by rw [card_occF hs.1.1, hs.1.2], by simp [hs.2.1], hs.2.2⟩
  · intro s hs t ht h
    simp only [Finset.mem_filter, mem_sectorFinset] at hs ht
    exact occF_inj hs.1.1 ht.1.1 h
  · intro S hS
    simp only [Finset.mem_filter, Finset.mem_univ, true_and] at hS
    obtain ⟨s, hs, rfl⟩ := occF_surj S
    rw [mem_occF, mem_occF] at hS
    refine ⟨s, ?_, rfl⟩
    simp only [Finset.mem_filter, mem_sectorFinset]
    exact ⟨⟨hs, by rw [← card_occF hs, hS.1]⟩, by simpa using hS.2.1, hS.2.2⟩

theorem sum_map_flatMap {α β M : Type} [AddCommMonoid M] (l : List α) (g : α → List β) (h : β → M) :
    ((l.flatMap g).map h).sum = (l.map fun x => ((g x).map h).sum).sum := by
  induction l with
  | nil => rfl
  | cons x xs ih => simp only [List.flatMap_cons, List.map_append, List.sum_append, List.map_cons, List.sum_cons, ih]

theorem sum_map_range {M : Type} [AddCommMonoid M] (n : ℕ) (f : ℕ → M) :
    ((List.range n).map f).sum = ∑ i ∈ Finset.range n, f i := rfl

theorem sum_map_filter {α M : Type} [AddCommMonoid M] (l : List α) (q : α → Bool) (f : α → M) :
    ((l.filter q).map f).sum = (l.map fun x => if q x then f x else 0).sum := by
  induction l with
  | nil => rfl
  | cons x xs ih =>
    rw [List.filter_cons]
    split_ifs with h <;> simp [h, ih]

theorem sum_map_toFinset {α M : Type} [DecidableEq α] [AddCommMonoid M] (l : List α) (hl : l.Nodup) (f : α → M) :
    (l.map f).sum = ∑ x ∈ l.toFinset, f x := (List.sum_toFinset f hl).symm

theorem SectorList.nodup {n p : ℕ} {L : List ℕ} (h : SectorList n p L) : L.Nodup :=
  h.sorted.imp (fun h => ne_of_lt h)

theorem SectorList.toFinset {n p : ℕ} {L : List ℕ} (h : SectorList n p L) : L.toFinset = sectorFinset n p := by
  ext s; rw [List.mem_toFinset, h.mem, mem_sectorFinset]

theorem sectorList_of_generate {w n p : ℕ} (hn : n ≤ 32) (hnw : n ≤ w) {L : List ℕ} (hpn : p ≤ n)
    (h : generateStates w n (p : ℤ) = .ok L) : SectorList n p L := by
  obtain ⟨L', h1, h2, h3, h4⟩ := generateStates_core (w := w) hn hnw hpn
  obtain rfl : L' = L := by rw [h1] at h; exact Except.ok.inj h
  exact ⟨h2, h3, h4⟩

end Edpyt
