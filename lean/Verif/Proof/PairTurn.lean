import Verif.Proof.Shiba
import Mathlib.Data.Nat.Factorial.Basic
/-!
The spin operators after the exchange of particles and holes of one spin: they create and destroy pairs.
-/
namespace Edpyt
open Spec Matrix

section
variable {M : Type} [Fintype M] [LinearOrder M]

theorem ann_vec (k : M) (x : Finset M → ℝ) (T : Finset M) : (ann ℝ k *ᵥ x) T = if k ∈ T then 0 else ((sgn k T : ℤ) : ℝ) * x (insert k T) := by
  change ∑ S, ann ℝ k T S * x S = _
  rw [Finset.sum_eq_single (insert k T)]
  · rw [ann_apply, if_pos (Finset.mem_insert_self k T)]
    by_cases h : k ∈ T
    · rw [if_pos h, if_neg, zero_mul]
      intro he
      rw [he] at h
      exact Finset.notMem_erase _ _ h
    · rw [if_neg h, if_pos (Finset.erase_insert h).symm, sgn_insert_of_not_gt (lt_irrefl k)]
  · intro S _ hS
    rw [ann_apply]
    split_ifs with h1 h2
    · exact absurd (by rw [h2, Finset.insert_erase h1]) hS
    · exact zero_mul _
    · exact zero_mul _
  · exact fun h => absurd (Finset.mem_univ _) h

theorem cre_vec (k : M) (x : Finset M → ℝ) (T : Finset M) : (cre ℝ k *ᵥ x) T = if k ∈ T then ((sgn k T : ℤ) : ℝ) * x (T.erase k) else 0 := by
  change ∑ S, cre ℝ k T S * x S = _
  rw [Finset.sum_eq_single (T.erase k)]
  · rw [cre_apply, if_pos (Finset.notMem_erase k T)]
    by_cases h : k ∈ T
    · rw [if_pos h, if_pos (Finset.insert_erase h).symm, sgn_erase_of_not_gt (lt_irrefl k)]
    · rw [if_neg h, if_neg, zero_mul]
      intro he
      rw [he] at h
      exact h (Finset.mem_insert_self _ _)
  · intro S _ hS
    rw [cre_apply]
    by_cases h1 : k ∈ S
    · rw [if_neg (fun h => h h1), zero_mul]
    · rw [if_pos h1, if_neg, zero_mul]
      intro h2
      exact hS (by rw [h2, Finset.erase_insert h1])
  · exact fun h => absurd (Finset.mem_univ _) h
end

variable {n : ℕ} {η : Fin n → ℤ}

theorem join_insert_pair (T : Finset (Fin n)) (i : Fin n) : insert (orb false i) (insert (orb true i) (join T T)) = join (insert i T) (insert i T) := by
  rw [← join_parts (insert (orb false i) (insert (orb true i) (join T T)))]
  congr 1
  · ext k
    rw [mem_upPart, Finset.mem_insert, Finset.mem_insert, castAdd_mem_join, Finset.mem_insert]
    change orb false k = _ ∨ orb false k = _ ∨ _ ↔ _
    rw [orb_inj, orb_inj]
    simp
  · ext k
    rw [mem_dwPart, Finset.mem_insert, Finset.mem_insert, natAdd_mem_join, Finset.mem_insert]
    change orb true k = _ ∨ orb true k = _ ∨ _ ↔ _
    rw [orb_inj, orb_inj]
    simp

theorem join_erase_pair (T : Finset (Fin n)) (i : Fin n) : ((join T T).erase (orb false i)).erase (orb true i) = join (T.erase i) (T.erase i) := by
  rw [← join_parts (((join T T).erase (orb false i)).erase (orb true i))]
  congr 1
  · ext k
    rw [mem_upPart, Finset.mem_erase, Finset.mem_erase, castAdd_mem_join, Finset.mem_erase]
    change orb false k ≠ _ ∧ orb false k ≠ _ ∧ _ ↔ _
    rw [Ne, Ne, orb_inj, orb_inj]
    simp
  · ext k
    rw [mem_dwPart, Finset.mem_erase, Finset.mem_erase, natAdd_mem_join, Finset.mem_erase]
    change orb true k ≠ _ ∧ orb true k ≠ _ ∧ _ ↔ _
    rw [Ne, Ne, orb_inj, orb_inj]
    simp

theorem orb_dw_mem_join {U D : Finset (Fin n)} {i : Fin n} : orb true i ∈ join U D ↔ i ∈ D := natAdd_mem_join
theorem orb_up_mem_join {U D : Finset (Fin n)} {i : Fin n} : orb false i ∈ join U D ↔ i ∈ U := castAdd_mem_join

theorem pair_ann_vec (x : Finset (Fin (n + n)) → ℝ) (T : Finset (Fin n)) (i : Fin n) :
    ((ann ℝ (orb true i) * ann ℝ (orb false i)) *ᵥ x) (join T T) = if i ∈ T then 0 else (-1) ^ (T.card + 1) * x (join (insert i T) (insert i T)) := by
  rw [← Matrix.mulVec_mulVec, ann_vec]
  by_cases h : i ∈ T
  · rw [if_pos (orb_dw_mem_join.mpr h), if_pos h]
  · rw [if_neg (fun h' => h (orb_dw_mem_join.mp h')), if_neg h, ann_vec, if_neg, join_insert_pair]
    · have e1 : sgn (orb true i) (join T T) = sgn i T := (sgn_natAdd i _).trans (by rw [dwPart_join])
      have e2 : sgn (orb false i) (insert (orb true i) (join T T)) = sgn i T * (-1) ^ (T.card + 1) := by
        refine (sgn_castAdd i _).trans ?_
        have u : upPart (insert (orb true i) (join T T)) = T := by
          ext k
          rw [mem_upPart, Finset.mem_insert, castAdd_mem_join]
          change orb false k = _ ∨ _ ↔ _
          rw [orb_inj]
          simp
        have d : dwPart (insert (orb true i) (join T T)) = insert i T := by
          ext k
          rw [mem_dwPart, Finset.mem_insert, natAdd_mem_join, Finset.mem_insert]
          change orb true k = _ ∨ _ ↔ _
          rw [orb_inj]
          simp
        rw [u, d, Finset.card_insert_of_notMem h]
      rw [e1, e2]
      rcases sgn_cases i T with hs | hs <;> rw [hs] <;> push_cast <;> ring
    · rw [Finset.mem_insert, orb_inj, orb_up_mem_join]
      simp [h]

theorem pair_cre_vec (x : Finset (Fin (n + n)) → ℝ) (T : Finset (Fin n)) (i : Fin n) :
    ((cre ℝ (orb false i) * cre ℝ (orb true i)) *ᵥ x) (join T T) = if i ∈ T then (-1) ^ T.card * x (join (T.erase i) (T.erase i)) else 0 := by
  rw [← Matrix.mulVec_mulVec, cre_vec]
  by_cases h : i ∈ T
  · rw [if_pos (orb_up_mem_join.mpr h), if_pos h, cre_vec, if_pos, join_erase_pair]
    · have e1 : sgn (orb true i) ((join T T).erase (orb false i)) = sgn i T := by
        refine (sgn_natAdd i _).trans ?_
        congr 1
        ext k
        rw [mem_dwPart, Finset.mem_erase, natAdd_mem_join]
        change orb true k ≠ _ ∧ _ ↔ _
        rw [Ne, orb_inj]
        simp
      have e2 : sgn (orb false i) (join T T) = sgn i T * (-1) ^ T.card := (sgn_castAdd i _).trans (by rw [upPart_join, dwPart_join])
      rw [e1, e2]
      rcases sgn_cases i T with hs | hs <;> rw [hs] <;> push_cast <;> ring
    · rw [Finset.mem_erase, Ne, orb_inj, orb_dw_mem_join]
      simp [h]
  · rw [if_neg (fun h' => h (orb_up_mem_join.mp h')), if_neg h]

/-- Turning an up spin down, after the exchange: a pair is destroyed. -/
noncomputable def pairOut (η : Fin n → ℤ) : Matrix (Finset (Fin (n + n))) (Finset (Fin (n + n))) ℝ := shibaConj η (spinTurn false)

theorem pairOut_eq (hη : ∀ i, η i * η i = 1) : pairOut η = ∑ i : Fin n, (-(η i : ℝ)) • (ann ℝ (orb true i) * ann ℝ (orb false i)) := by
  unfold pairOut spinTurn
  rw [shibaConj_sum]
  refine Finset.sum_congr rfl fun i _ => ?_
  rw [Bool.not_false, shibaConj_mul hη, shibaConj_dw_cre hη, shibaConj_up hη, smul_mul_smul_comm]
  congr 1
  have := neg_one_pow_sq n
  rw [pow_succ]
  linear_combination (-(η i : ℝ)) * this

theorem pairOut_vec (hη : ∀ i, η i * η i = 1) (x : Finset (Fin (n + n)) → ℝ) (T : Finset (Fin n)) :
    (pairOut η *ᵥ x) (join T T) = (-1) ^ T.card * ∑ i ∈ Tᶜ, (η i : ℝ) * x (join (insert i T) (insert i T)) := by
  rw [pairOut_eq hη, Matrix.sum_mulVec, Finset.sum_apply, Finset.mul_sum, ← Finset.sum_subset (Finset.subset_univ Tᶜ)]
  · refine Finset.sum_congr rfl fun i hi => ?_
    rw [Matrix.smul_mulVec, Pi.smul_apply, pair_ann_vec, if_neg (Finset.mem_compl.mp hi), smul_eq_mul, pow_succ]
    ring
  · intro i _ hi
    rw [Matrix.smul_mulVec, Pi.smul_apply, pair_ann_vec, if_pos (by simpa using hi), smul_zero]

theorem pairIn_vec (hη : ∀ i, η i * η i = 1) (x : Finset (Fin (n + n)) → ℝ) (T : Finset (Fin n)) :
    ((pairOut η)ᵀ *ᵥ x) (join T T) = -(-1) ^ T.card * ∑ i ∈ T, (η i : ℝ) * x (join (T.erase i) (T.erase i)) := by
  rw [pairOut_eq hη, Matrix.transpose_sum, Matrix.sum_mulVec, Finset.sum_apply, Finset.mul_sum, ← Finset.sum_subset (Finset.subset_univ T)]
  · refine Finset.sum_congr rfl fun i hi => ?_
    rw [Matrix.transpose_smul, Matrix.transpose_mul, Matrix.smul_mulVec, Pi.smul_apply]
    change _ • ((cre ℝ (orb false i) * cre ℝ (orb true i)) *ᵥ x) (join T T) = _
    rw [pair_cre_vec, if_pos hi, smul_eq_mul]
    ring
  · intro i _ hi
    rw [Matrix.transpose_smul, Matrix.transpose_mul, Matrix.smul_mulVec, Pi.smul_apply]
    change _ • ((cre ℝ (orb false i) * cre ℝ (orb true i)) *ᵥ x) (join T T) = _
    rw [pair_cre_vec, if_neg hi, smul_zero]

theorem sum_erase_insert (u : ℕ) (F : Finset (Fin n) → Fin n → ℝ) :
    ∑ T ∈ Finset.powersetCard (u + 1) Finset.univ, ∑ i ∈ T, F (T.erase i) i = ∑ T ∈ Finset.powersetCard u Finset.univ, ∑ i ∈ Tᶜ, F T i := by
  rw [Finset.sum_sigma', Finset.sum_sigma']
  refine Finset.sum_bij' (fun p _ => ⟨p.1.erase p.2, p.2⟩) (fun p _ => ⟨insert p.2 p.1, p.2⟩) ?_ ?_ ?_ ?_ ?_
  · rintro ⟨T, i⟩ h
    rw [Finset.mem_sigma, Finset.mem_powersetCard_univ] at h ⊢
    exact ⟨by rw [Finset.card_erase_of_mem h.2, h.1]; rfl, Finset.mem_compl.mpr (Finset.notMem_erase _ _)⟩
  · rintro ⟨T, i⟩ h
    rw [Finset.mem_sigma, Finset.mem_powersetCard_univ] at h ⊢
    exact ⟨by rw [Finset.card_insert_of_notMem (Finset.mem_compl.mp h.2), h.1], Finset.mem_insert_self _ _⟩
  · rintro ⟨T, i⟩ h
    rw [Finset.mem_sigma] at h
    simp only [Finset.insert_erase h.2]
  · rintro ⟨T, i⟩ h
    rw [Finset.mem_sigma, Finset.mem_compl] at h
    simp only [Finset.erase_insert h.2]
  · rintro ⟨T, i⟩ h
    rfl

/-- The sites of the sublattice `A` in a set. -/
def subA (η : Fin n → ℤ) (T : Finset (Fin n)) : Finset (Fin n) := T.filter fun i => η i = 1

/-- The number of sites of the sublattice `A`. -/
def cardA (η : Fin n → ℤ) : ℕ := (subA η Finset.univ).card

/-- Amplitude of the reference state. -/
def refAmp (η : Fin n → ℤ) (T : Finset (Fin n)) : ℕ := (subA η T).card.factorial * (cardA η - (subA η T).card).factorial

theorem refAmp_pos (T : Finset (Fin n)) : 0 < refAmp η T := Nat.mul_pos (Nat.factorial_pos _) (Nat.factorial_pos _)

theorem subA_le (T : Finset (Fin n)) : (subA η T).card ≤ cardA η := Finset.card_le_card (Finset.filter_subset_filter _ (Finset.subset_univ T))

theorem subA_insert_pos {T : Finset (Fin n)} {i : Fin n} (hi : i ∉ T) (h : η i = 1) : (subA η (insert i T)).card = (subA η T).card + 1 := by
  unfold subA
  rw [Finset.filter_insert, if_pos h, Finset.card_insert_of_notMem (fun h' => hi (Finset.mem_filter.mp h').1)]

theorem subA_insert_neg {T : Finset (Fin n)} {i : Fin n} (h : η i ≠ 1) : subA η (insert i T) = subA η T := by
  unfold subA
  rw [Finset.filter_insert, if_neg h]

theorem subA_erase_neg {T : Finset (Fin n)} {i : Fin n} (h : η i ≠ 1) : subA η (T.erase i) = subA η T := by
  unfold subA
  rw [Finset.filter_erase]
  exact Finset.erase_eq_of_notMem fun h' => h (Finset.mem_filter.mp h').2

theorem subA_erase_pos {T : Finset (Fin n)} {i : Fin n} (hi : i ∈ T) (h : η i = 1) : (subA η (T.erase i)).card = (subA η T).card - 1 := by
  unfold subA
  rw [Finset.filter_erase, Finset.card_erase_of_mem (Finset.mem_filter.mpr ⟨hi, h⟩)]

theorem signs (hη : ∀ i, η i * η i = 1) (i : Fin n) : η i = 1 ∨ η i = -1 := mul_self_eq_one_iff.mp (hη i)

/-- A sum over the sites of a set, in which the terms depend on the sublattice only. -/
theorem sum_sublattice (hη : ∀ i, η i * η i = 1) (X : Finset (Fin n)) {f : Fin n → ℝ} {u v : ℝ} (hu : ∀ i ∈ X, η i = 1 → f i = u) (hv : ∀ i ∈ X, η i = -1 → f i = v) :
    ∑ i ∈ X, (η i : ℝ) * f i = (subA η X).card * u - ((X.card : ℝ) - (subA η X).card) * v := by
  rw [← Finset.sum_filter_add_sum_filter_not X fun i => η i = 1]
  have e1 : ∑ i ∈ X with η i = 1, (η i : ℝ) * f i = (subA η X).card * u := by
    rw [Finset.sum_congr rfl fun i hi => show (η i : ℝ) * f i = u by
      obtain ⟨h1, h2⟩ := Finset.mem_filter.mp hi
      rw [hu i h1 h2, h2]; simp, Finset.sum_const, nsmul_eq_mul]
    rfl
  have e2 : ∑ i ∈ X with ¬ η i = 1, (η i : ℝ) * f i = -(((X.card : ℝ) - (subA η X).card) * v) := by
    rw [Finset.sum_congr rfl fun i hi => show (η i : ℝ) * f i = -v by
      obtain ⟨h1, h2⟩ := Finset.mem_filter.mp hi
      have h3 := (signs hη i).resolve_left h2
      rw [hv i h1 h3, h3]; simp, Finset.sum_const, nsmul_eq_mul]
    have := Finset.card_filter_add_card_filter_not (s := X) fun i => η i = 1
    have h4 : (X.card : ℝ) = (subA η X).card + (X.filter fun i => ¬ η i = 1).card := by
      rw [← this]; push_cast; rfl
    rw [h4]; ring
  rw [e1, e2]; ring

theorem refAmp_in (hη : ∀ i, η i * η i = 1) {T : Finset (Fin n)} (hT : T.card < cardA η) :
    ∑ i ∈ Tᶜ, (η i : ℝ) * (refAmp η (insert i T) : ℝ) = ((T.card : ℝ) + 1 - (n - cardA η)) * refAmp η T := by
  have hle : (subA η T).card ≤ T.card := Finset.card_le_card (Finset.filter_subset _ _)
  obtain ⟨k, hk⟩ : ∃ k, cardA η = (subA η T).card + 1 + k := ⟨cardA η - (subA η T).card - 1, by omega⟩
  have hg : (refAmp η T : ℝ) = ((subA η T).card.factorial : ℝ) * ((k + 1).factorial : ℝ) := by
    unfold refAmp
    rw [show cardA η - (subA η T).card = k + 1 by omega, Nat.cast_mul]
  rw [sum_sublattice hη Tᶜ (u := ((subA η T).card + 1).factorial * k.factorial) (v := refAmp η T)]
  · have c1 : (subA η Tᶜ).card = k + 1 := by
      have : (subA η T).card + (subA η Tᶜ).card = cardA η := by
        unfold cardA subA
        rw [← Finset.card_union_of_disjoint, ← Finset.filter_union, Finset.union_compl]
        exact Finset.disjoint_filter_filter (disjoint_compl_right)
      omega
    have c2 : (Tᶜ.card : ℝ) = n - T.card := by
      rw [Finset.card_compl, Fintype.card_fin, Nat.cast_sub (by simpa using Finset.card_le_univ T)]
    rw [c1, c2, hg, hk, Nat.factorial_succ, Nat.factorial_succ]
    push_cast
    ring
  · intro i hi h
    unfold refAmp
    rw [subA_insert_pos (Finset.mem_compl.mp hi) h, show cardA η - ((subA η T).card + 1) = k by omega, Nat.cast_mul]
  · intro i hi h
    unfold refAmp
    rw [subA_insert_neg (by rw [h]; decide)]

theorem refAmp_out (hη : ∀ i, η i * η i = 1) {T : Finset (Fin n)} (hT : T.card = cardA η + 1) (hn : n ≤ 2 * cardA η) :
    ∑ i ∈ T, (η i : ℝ) * (refAmp η (T.erase i) : ℝ) = 0 := by
  have hpos : 1 ≤ (subA η T).card := by
    by_contra h0
    have c1 : (T.filter fun i => ¬ η i = 1).card ≤ (Finset.univ.filter fun i => ¬ η i = 1).card := Finset.card_le_card (Finset.filter_subset_filter _ (Finset.subset_univ T))
    have c2 := Finset.card_filter_add_card_filter_not (s := T) fun i => η i = 1
    have c3 := Finset.card_filter_add_card_filter_not (s := (Finset.univ : Finset (Fin n))) fun i => η i = 1
    rw [Finset.card_univ, Fintype.card_fin] at c3
    change (subA η T).card + _ = _ at c2
    change cardA η + _ = _ at c3
    omega
  have hle := subA_le (η := η) T
  obtain ⟨m, hm⟩ : ∃ m, (subA η T).card = m + 1 := ⟨(subA η T).card - 1, by omega⟩
  obtain ⟨k, hk⟩ : ∃ k, cardA η = m + 1 + k := ⟨cardA η - m - 1, by omega⟩
  rw [sum_sublattice hη T (u := m.factorial * (k + 1).factorial) (v := (m + 1).factorial * k.factorial)]
  · rw [hm, hT, hk, Nat.factorial_succ, Nat.factorial_succ]
    push_cast
    ring
  · intro i hi h
    unfold refAmp
    rw [subA_erase_pos hi h, hm, show m + 1 - 1 = m by omega, show cardA η - m = k + 1 by omega, Nat.cast_mul]
  · intro i hi h
    unfold refAmp
    rw [subA_erase_neg (by rw [h]; decide), hm, show cardA η - (m + 1) = k by omega, Nat.cast_mul]

/-- Overlap with the reference state of `u` pairs. -/
noncomputable def refOverlap (η : Fin n → ℤ) (u : ℕ) (x : Finset (Fin (n + n)) → ℝ) : ℝ := ∑ T ∈ Finset.powersetCard u Finset.univ, (refAmp η T : ℝ) * x (join T T)

theorem refOverlap_in (hη : ∀ i, η i * η i = 1) {u : ℕ} (hu : u < cardA η) (x : Finset (Fin (n + n)) → ℝ) :
    refOverlap η (u + 1) ((pairOut η)ᵀ *ᵥ x) = (-1) ^ u * ((u : ℝ) + 1 - (n - cardA η)) * refOverlap η u x := by
  have e1 : refOverlap η (u + 1) ((pairOut η)ᵀ *ᵥ x) = (-1) ^ u * ∑ T ∈ Finset.powersetCard (u + 1) Finset.univ, ∑ i ∈ T,
      (η i : ℝ) * (refAmp η (insert i (T.erase i)) : ℝ) * x (join (T.erase i) (T.erase i)) := by
    unfold refOverlap
    rw [Finset.mul_sum]
    refine Finset.sum_congr rfl fun T hT => ?_
    rw [pairIn_vec hη, Finset.mem_powersetCard_univ.mp hT, Finset.mul_sum, Finset.mul_sum, Finset.mul_sum]
    refine Finset.sum_congr rfl fun i hi => ?_
    rw [Finset.insert_erase hi, pow_succ]
    ring
  rw [e1, sum_erase_insert u fun T i => (η i : ℝ) * (refAmp η (insert i T) : ℝ) * x (join T T), mul_assoc]
  congr 1
  unfold refOverlap
  rw [Finset.mul_sum]
  refine Finset.sum_congr rfl fun T hT => ?_
  have hT' := Finset.mem_powersetCard_univ.mp hT
  rw [← Finset.sum_mul, refAmp_in hη (by rw [hT']; exact hu), hT']
  ring

theorem refOverlap_out (hη : ∀ i, η i * η i = 1) (hn : n ≤ 2 * cardA η) (x : Finset (Fin (n + n)) → ℝ) : refOverlap η (cardA η) (pairOut η *ᵥ x) = 0 := by
  have e1 : refOverlap η (cardA η) (pairOut η *ᵥ x) = (-1) ^ cardA η * ∑ T ∈ Finset.powersetCard (cardA η) Finset.univ, ∑ i ∈ Tᶜ,
      (η i : ℝ) * (refAmp η T : ℝ) * x (join (insert i T) (insert i T)) := by
    unfold refOverlap
    rw [Finset.mul_sum]
    refine Finset.sum_congr rfl fun T hT => ?_
    rw [pairOut_vec hη, Finset.mem_powersetCard_univ.mp hT, Finset.mul_sum, Finset.mul_sum, Finset.mul_sum]
    exact Finset.sum_congr rfl fun i hi => by ring
  rw [e1, ← sum_erase_insert (cardA η) fun T i => (η i : ℝ) * (refAmp η T : ℝ) * x (join (insert i T) (insert i T)), Finset.sum_eq_zero, mul_zero]
  intro T hT
  have hT' := Finset.mem_powersetCard_univ.mp hT
  rw [Finset.sum_congr rfl fun i hi => show (η i : ℝ) * (refAmp η (T.erase i) : ℝ) * x (join (insert i (T.erase i)) (insert i (T.erase i))) = (η i : ℝ) * (refAmp η (T.erase i) : ℝ) * x (join T T) by
    rw [Finset.insert_erase hi], ← Finset.sum_mul, refAmp_out hη hT' hn, zero_mul]

end Edpyt
