import Verif.Spec.Orderly
import Verif.Proof.Levels
import Verif.Proof.Hubbard
import Mathlib.Algebra.BigOperators.Fin
/-!
A lowest state of a matrix whose off-diagonal elements are not positive (up to signs of the basis states) vanishes nowhere.
-/
namespace Edpyt
open Spec Matrix

section
variable {ι : Type} [Fintype ι] [DecidableEq ι] {A : Matrix ι ι ℝ} {P : ι → Prop} {ε : ι → ℝ} {E : ℝ}

theorem perron_abs (hε : ∀ S, ε S = 1 ∨ ε S = -1) (hoff : ∀ S T, P S → P T → S ≠ T → ε S * A S T * ε T ≤ 0) {x : ι → ℝ} (hx : ∀ S, x S ≠ 0 → P S) :
    (fun S => ε S * |x S|) ⬝ᵥ A *ᵥ (fun S => ε S * |x S|) ≤ x ⬝ᵥ A *ᵥ x := by
  unfold dotProduct Matrix.mulVec dotProduct
  refine Finset.sum_le_sum fun S _ => ?_
  rw [Finset.mul_sum, Finset.mul_sum]
  refine Finset.sum_le_sum fun T _ => ?_
  by_cases hS : x S = 0
  · simp [hS]
  by_cases hT : x T = 0
  · simp [hT]
  by_cases hST : S = T
  · subst hST
    have h1 : ε S * ε S = 1 := by rcases hε S with h | h <;> rw [h] <;> norm_num
    have h2 : |x S| * |x S| = x S * x S := abs_mul_abs_self _
    have : ε S * |x S| * (A S S * (ε S * |x S|)) = (ε S * ε S) * (A S S * (|x S| * |x S|)) := by ring
    rw [this, h1, h2]
    linarith
  · have h := hoff S T (hx S hS) (hx T hT) hST
    have h1 : ε S * |x S| * (A S T * (ε T * |x T|)) = -(|A S T| * |x S| * |x T|) := by
      have e1 : |ε S * A S T * ε T| = |A S T| := by
        rw [abs_mul, abs_mul]
        rcases hε S with h | h <;> rcases hε T with h' | h' <;> rw [h, h'] <;> norm_num
      rw [abs_of_nonpos h] at e1
      rw [← e1]; ring
    rw [h1]
    have h2 : -|x S * (A S T * x T)| ≤ x S * (A S T * x T) := neg_abs_le _
    rw [abs_mul, abs_mul] at h2
    linarith [h2, show |x S| * (|A S T| * |x T|) = |A S T| * |x S| * |x T| by ring]

/-- A vector of least mean energy satisfies the eigenvalue equation. -/
theorem least_stationary (hA : Aᵀ = A) (hmin : ∀ x, (∀ S, x S ≠ 0 → P S) → E * (x ⬝ᵥ x) ≤ x ⬝ᵥ A *ᵥ x) {x : ι → ℝ} (hx : ∀ S, x S ≠ 0 → P S)
    (hE : x ⬝ᵥ A *ᵥ x ≤ E * (x ⬝ᵥ x)) {S : ι} (hS : P S) : (A *ᵥ x) S = E * x S := by
  set e : ι → ℝ := Pi.single S 1 with he
  have hq : ∀ t : ℝ, 0 ≤ 2 * t * ((A *ᵥ x) S - E * x S) + t ^ 2 * (e ⬝ᵥ A *ᵥ e - E * (e ⬝ᵥ e)) := fun t => by
    have h := hmin (x + t • e) fun T hT => by
      by_cases hTS : T = S
      · rw [hTS]; exact hS
      · refine hx T fun h0 => hT ?_
        rw [Pi.add_apply, Pi.smul_apply, he, Pi.single_eq_of_ne hTS, h0]; simp
    have e1 : e ⬝ᵥ A *ᵥ x = (A *ᵥ x) S := by rw [he, single_one_dotProduct]
    have e2 : x ⬝ᵥ A *ᵥ e = (A *ᵥ x) S := by
      rw [Matrix.dotProduct_mulVec, ← Matrix.mulVec_transpose, hA, he, dotProduct_single_one]
    have e3 : e ⬝ᵥ x = x S := by rw [he, single_one_dotProduct]
    have e4 : x ⬝ᵥ e = x S := by rw [he, dotProduct_single_one]
    rw [Matrix.mulVec_add, Matrix.mulVec_smul, dotProduct_add, add_dotProduct, add_dotProduct, add_dotProduct, dotProduct_add, dotProduct_add] at h
    simp only [smul_dotProduct, dotProduct_smul, smul_eq_mul, e1, e2, e3, e4] at h
    nlinarith [h, hE]
  set b := (A *ᵥ x) S - E * x S with hb
  set c := e ⬝ᵥ A *ᵥ e - E * (e ⬝ᵥ e) with hc
  have h0 : b = 0 := by
    by_contra hne
    have hc0 : 0 ≤ c := by
      have := hmin e fun T hT => by
        by_cases hTS : T = S
        · rw [hTS]; exact hS
        · exact absurd (by rw [he, Pi.single_eq_of_ne hTS]) hT
      linarith
    have h1 := hq (-b / (c + 1))
    have h2 : 2 * (-b / (c + 1)) * b + (-b / (c + 1)) ^ 2 * c = -(b ^ 2 * (c + 2)) / (c + 1) ^ 2 := by field_simp; ring
    rw [h2] at h1
    have h3 : 0 < b ^ 2 * (c + 2) / (c + 1) ^ 2 := by positivity
    rw [neg_div] at h1
    linarith
  linarith [h0, hb]

/-- A lowest vector that vanishes at one basis state vanishes altogether. -/
theorem perron_zero (hA : Aᵀ = A) (hε : ∀ S, ε S = 1 ∨ ε S = -1) (hoff : ∀ S T, P S → P T → S ≠ T → ε S * A S T * ε T ≤ 0)
    (hconn : ∀ Z : ι → Prop, (∀ S T, P S → P T → S ≠ T → A S T ≠ 0 → Z S → Z T) → ∀ S T, P S → P T → Z S → Z T)
    (hmin : ∀ x, (∀ S, x S ≠ 0 → P S) → E * (x ⬝ᵥ x) ≤ x ⬝ᵥ A *ᵥ x) {x : ι → ℝ} (hx : ∀ S, x S ≠ 0 → P S)
    (hE : x ⬝ᵥ A *ᵥ x ≤ E * (x ⬝ᵥ x)) {S : ι} (hS : P S) (h0 : x S = 0) : x = 0 := by
  set y : ι → ℝ := fun S => ε S * |x S| with hy
  have hyx : ∀ T, y T = 0 ↔ x T = 0 := fun T => by
    have : ε T ≠ 0 := by rcases hε T with h | h <;> rw [h] <;> norm_num
    rw [hy]; simp [this]
  have hyP : ∀ T, y T ≠ 0 → P T := fun T hT => hx T fun h => hT ((hyx T).mpr h)
  have hyy : y ⬝ᵥ y = x ⬝ᵥ x := Finset.sum_congr rfl fun T _ => by
    have h1 : ε T * ε T = 1 := by rcases hε T with h | h <;> rw [h] <;> norm_num
    have h2 : |x T| * |x T| = x T * x T := abs_mul_abs_self _
    rw [show y T * y T = (ε T * ε T) * (|x T| * |x T|) by rw [hy]; ring, h1, h2, one_mul]
  have hyE : y ⬝ᵥ A *ᵥ y ≤ E * (y ⬝ᵥ y) := by rw [hyy]; exact (perron_abs hε hoff hx).trans hE
  have key := hconn (fun T => y T = 0) (fun T T' hT hT' hne hAT hyT => by
    have h1 := least_stationary hA hmin hyP hyE hT
    rw [hyT, mul_zero] at h1
    have h2 : ∑ R, ε T * (A T R * y R) = 0 := by rw [← Finset.mul_sum]; unfold Matrix.mulVec dotProduct at h1; rw [h1, mul_zero]
    have h3 : ∀ R ∈ Finset.univ, ε T * (A T R * y R) ≤ 0 := fun R _ => by
      by_cases hR : R = T
      · rw [hR, hyT]; simp
      by_cases hP : y R = 0
      · rw [hP]; simp
      have := hoff T R hT (hyP R hP) (Ne.symm hR)
      rw [show ε T * (A T R * y R) = (ε T * A T R * ε R) * |x R| by rw [hy]; ring]
      exact mul_nonpos_of_nonpos_of_nonneg this (abs_nonneg _)
    have h4 := (Finset.sum_eq_zero_iff_of_nonpos h3).mp h2 T' (Finset.mem_univ _)
    have h5 : ε T ≠ 0 := by rcases hε T with h | h <;> rw [h] <;> norm_num
    rcases mul_eq_zero.mp h4 with h | h
    · exact absurd h h5
    · exact (mul_eq_zero.mp h).resolve_left hAT)
  funext T
  by_contra hT
  exact hT ((hyx T).mp (key S T hS (hx T hT) ((hyx S).mpr h0)))
end

section
variable {n : ℕ} {t : Fin n → Fin n → ℝ} {σ : Fin n → ℝ} {p : ℕ}

/-- The sign of a configuration: the product of the signs of its orbitals. -/
def epsOf (σ : Fin n → ℝ) (A : Finset (Fin n)) : ℝ := ∏ m ∈ A, σ m

theorem epsOf_sign (hσ : ∀ i, σ i = 1 ∨ σ i = -1) (A : Finset (Fin n)) : epsOf σ A = 1 ∨ epsOf σ A = -1 := by
  unfold epsOf
  induction A using Finset.induction_on with
  | empty => left; rfl
  | insert i A hi ih =>
    rw [Finset.prod_insert hi]
    rcases hσ i with h | h <;> rcases ih with h' | h' <;> rw [h, h'] <;> norm_num

/-- The one-spin hopping operator. -/
noncomputable def oneHop (t : Fin n → Fin n → ℝ) : Matrix (Finset (Fin n)) (Finset (Fin n)) ℝ := ∑ i, ∑ j, t i j • (cre ℝ i * ann ℝ j)

theorem cre_ann_elem (i j : Fin n) (B A : Finset (Fin n)) :
    (cre ℝ i * ann ℝ j) B A = if j ∈ A ∧ i ∈ B ∧ B.erase i = A.erase j then ((sgn i B : ℤ) : ℝ) * ((sgn j A : ℤ) : ℝ) else 0 := by
  rw [Matrix.mul_apply]
  rw [Finset.sum_eq_single (A.erase j)]
  · simp only [cre, ann, Matrix.transpose_apply, Matrix.of_apply]
    by_cases h3 : A.erase j = B.erase i
    · by_cases h1 : j ∈ A <;> by_cases h2 : i ∈ B <;> simp [h1, h2, h3]
    · rw [if_neg fun h => h3 h.2, zero_mul, if_neg fun h => h3 h.2.2.symm]
  · intro C _ hC
    simp only [ann, Matrix.of_apply]
    rw [if_neg fun h => hC h.2, mul_zero]
  · exact fun h => absurd (Finset.mem_univ _) h

/-- Electrons never overtake each other, and the hopping elements are negative with the signs `σ`. -/
def NoPass (t : Fin n → Fin n → ℝ) (σ : Fin n → ℝ) (p : ℕ) : Prop :=
  ∀ A : Finset (Fin n), A.card = p → ∀ i j, j ∈ A → i ∉ A → t i j ≠ 0 → σ i * t i j * σ j < 0 ∧ ∀ m ∈ A, ¬ (i < m ∧ m < j) ∧ ¬ (j < m ∧ m < i)

theorem noPass_term (hσ : ∀ i, σ i = 1 ∨ σ i = -1) (h : NoPass t σ p) {A B : Finset (Fin n)} (hA : A.card = p) (hAB : B ≠ A) (i j : Fin n) :
    epsOf σ B * (t i j * (cre ℝ i * ann ℝ j) B A) * epsOf σ A ≤ 0 ∧
      (j ∈ A → i ∉ A → B = insert i (A.erase j) → t i j ≠ 0 → epsOf σ B * (t i j * (cre ℝ i * ann ℝ j) B A) * epsOf σ A < 0) := by
  rw [cre_ann_elem]
  by_cases hc : j ∈ A ∧ i ∈ B ∧ B.erase i = A.erase j
  · obtain ⟨hj, hi, he⟩ := hc
    rw [if_pos ⟨hj, hi, he⟩]
    have hij : i ≠ j := by
      rintro rfl
      exact hAB (by rw [← Finset.insert_erase hi, he, Finset.insert_erase hj])
    have hiA : i ∉ A := fun hc => by
      have : i ∈ B.erase i := by rw [he]; exact Finset.mem_erase.mpr ⟨hij, hc⟩
      exact (Finset.mem_erase.mp this).1 rfl
    by_cases ht : t i j = 0
    · rw [ht]; simp
    obtain ⟨hneg, hbt⟩ := h A hA i j hj hiA ht
    have hs : (sgn i B : ℤ) = sgn j A := by
      unfold sgn
      congr 1
      have h1 : B.filter (fun k => i < k) = (A.erase j).filter fun k => i < k := by
        rw [← he]
        ext k
        simp only [Finset.mem_filter, Finset.mem_erase]
        exact ⟨fun hk => ⟨⟨fun hh => absurd hk.2 (by rw [hh]; exact lt_irrefl _), hk.1⟩, hk.2⟩, fun hk => ⟨hk.1.2, hk.2⟩⟩
      have h2 : A.filter (fun k => j < k) = (A.erase j).filter fun k => i < k := by
        ext k
        simp only [Finset.mem_filter, Finset.mem_erase]
        constructor
        · rintro ⟨hk, hjk⟩
          refine ⟨⟨fun hh => absurd hjk (by rw [hh]; exact lt_irrefl _), hk⟩, ?_⟩
          rcases lt_trichotomy i k with hik | hik | hik
          · exact hik
          · exact absurd hk (hik ▸ hiA)
          · exact absurd ⟨hjk, hik⟩ (hbt k hk).2
        · rintro ⟨⟨hkj, hk⟩, hik⟩
          refine ⟨hk, ?_⟩
          rcases lt_trichotomy j k with hjk | hjk | hjk
          · exact hjk
          · exact absurd hjk.symm hkj
          · exact absurd ⟨hik, hjk⟩ (hbt k hk).1
      rw [h1, h2]
    have hs2 : ((sgn i B : ℤ) : ℝ) * ((sgn j A : ℤ) : ℝ) = 1 := by
      rw [hs]
      unfold sgn
      push_cast
      rw [← pow_add, ← two_mul, pow_mul]
      norm_num
    have e1 : epsOf σ B = σ i * epsOf σ (A.erase j) := by
      unfold epsOf
      rw [← he, Finset.mul_prod_erase _ _ hi]
    have e2 : epsOf σ A = σ j * epsOf σ (A.erase j) := by
      unfold epsOf
      rw [Finset.mul_prod_erase _ _ hj]
    have e3 : epsOf σ (A.erase j) * epsOf σ (A.erase j) = 1 := by rcases epsOf_sign hσ (A.erase j) with h | h <;> rw [h] <;> norm_num
    have e4 : epsOf σ B * (t i j * (((sgn i B : ℤ) : ℝ) * ((sgn j A : ℤ) : ℝ))) * epsOf σ A = σ i * t i j * σ j := by
      rw [hs2, e1, e2]
      calc _ = σ i * t i j * σ j * (epsOf σ (A.erase j) * epsOf σ (A.erase j)) := by ring
        _ = _ := by rw [e3, mul_one]
    rw [e4]
    exact ⟨hneg.le, fun _ _ _ _ => hneg⟩
  · rw [if_neg hc]
    refine ⟨by simp, fun hj hiA hB ht => absurd ⟨hj, ?_, ?_⟩ hc⟩
    · rw [hB]; exact Finset.mem_insert_self _ _
    · rw [hB, Finset.erase_insert fun hh => hiA (Finset.mem_of_mem_erase hh)]

theorem oneHop_elem (B A : Finset (Fin n)) : oneHop t B A = ∑ i, ∑ j, t i j * (cre ℝ i * ann ℝ j) B A := by
  unfold oneHop
  simp only [Matrix.sum_apply, Matrix.smul_apply, smul_eq_mul]

theorem oneHop_nonpos (hσ : ∀ i, σ i = 1 ∨ σ i = -1) (h : NoPass t σ p) {A B : Finset (Fin n)} (hA : A.card = p) (hAB : B ≠ A) :
    epsOf σ B * oneHop t B A * epsOf σ A ≤ 0 := by
  rw [oneHop_elem, Finset.mul_sum, Finset.sum_mul]
  refine Finset.sum_nonpos fun i _ => ?_
  rw [Finset.mul_sum, Finset.sum_mul]
  exact Finset.sum_nonpos fun j _ => (noPass_term hσ h hA hAB i j).1

theorem oneHop_ne (hσ : ∀ i, σ i = 1 ∨ σ i = -1) (h : NoPass t σ p) {A : Finset (Fin n)} (hA : A.card = p) {i j : Fin n} (hj : j ∈ A) (hi : i ∉ A)
    (ht : t i j ≠ 0) : oneHop t (insert i (A.erase j)) A ≠ 0 := by
  have hAB : insert i (A.erase j) ≠ A := fun hh => hi (hh ▸ Finset.mem_insert_self _ _)
  intro h0
  have h1 : epsOf σ (insert i (A.erase j)) * oneHop t (insert i (A.erase j)) A * epsOf σ A < 0 := by
    rw [oneHop_elem, Finset.mul_sum, Finset.sum_mul]
    refine Finset.sum_neg' (fun i' _ => ?_) ⟨i, Finset.mem_univ _, ?_⟩
    · rw [Finset.mul_sum, Finset.sum_mul]
      exact Finset.sum_nonpos fun j' _ => (noPass_term hσ h hA hAB i' j').1
    · rw [Finset.mul_sum, Finset.sum_mul]
      exact Finset.sum_neg' (fun j' _ => (noPass_term hσ h hA hAB i j').1) ⟨j, Finset.mem_univ _, (noPass_term hσ h hA hAB i j).2 hj hi rfl ht⟩
  rw [h0] at h1
  simp at h1

/-- Every configuration of `p` electrons can be reached from every other by single hops. -/
def Reach (t : Fin n → Fin n → ℝ) (p : ℕ) : Prop :=
  ∀ Z : Finset (Fin n) → Prop, (∀ A : Finset (Fin n), A.card = p → ∀ i j, j ∈ A → i ∉ A → t i j ≠ 0 → Z A → Z (insert i (A.erase j))) →
    ∀ A B, A.card = p → B.card = p → Z A → Z B

theorem reach_zero : Reach t 0 := fun Z _ A B hA hB hZ => by
  rw [Finset.card_eq_zero] at hA hB
  rw [hB, ← hA]; exact hZ

theorem reach_full : Reach t n := fun Z _ A B hA hB hZ => by
  have e : ∀ C : Finset (Fin n), C.card = n → C = Finset.univ := fun C hC => Finset.card_eq_iff_eq_univ _ |>.mp (by rw [hC, Fintype.card_fin])
  rw [e B hB, ← e A hA]; exact hZ

theorem reach_one (hc : ∀ i j, Relation.ReflTransGen (fun k l : Fin n => t k l ≠ 0 ∧ k ≠ l) i j) (hs : ∀ i j, t i j = t j i) : Reach t 1 := fun Z hZ A B hA hB h => by
  obtain ⟨i, rfl⟩ := Finset.card_eq_one.mp hA
  obtain ⟨j, rfl⟩ := Finset.card_eq_one.mp hB
  have := hc i j
  induction this with
  | refl => exact h
  | tail _ hkl ih =>
    have := hZ _ (Finset.card_singleton _) _ _ (Finset.mem_singleton_self _) (Finset.notMem_singleton.mpr (Ne.symm hkl.2)) (by rw [hs]; exact hkl.1) (ih (Finset.card_singleton _))
    simpa using this

theorem downSet_eq {A B : Finset (Fin n)} (h : A.card = B.card) (hA : ∀ i j, j ∈ A → i < j → i ∈ A) (hB : ∀ i j, j ∈ B → i < j → i ∈ B) : A = B := by
  have hsub : A ⊆ B ∨ B ⊆ A := by
    by_contra hc
    push Not at hc
    obtain ⟨h1, h2⟩ := hc
    obtain ⟨x, hx, hxB⟩ := Finset.not_subset.mp h1
    obtain ⟨y, hy, hyA⟩ := Finset.not_subset.mp h2
    rcases lt_trichotomy x y with hxy | hxy | hxy
    · exact hxB (hB _ _ hy hxy)
    · exact hxB (hxy ▸ hy)
    · exact hyA (hA _ _ hx hxy)
  rcases hsub with hs | hs
  · exact Finset.eq_of_subset_of_card_le hs h.ge
  · exact (Finset.eq_of_subset_of_card_le hs h.le).symm

theorem downSet_of_step {A : Finset (Fin n)} (h : ∀ i j : Fin n, (i : ℕ) + 1 = j → j ∈ A → i ∈ A) : ∀ i j, j ∈ A → i < j → i ∈ A := by
  intro i j hj hij
  obtain ⟨d, hd⟩ := Nat.exists_eq_add_of_lt hij
  induction d generalizing i with
  | zero => exact h i j (by omega) hj
  | succ d ih =>
    have hlt : (i : ℕ) + 1 < n := by have := j.2; omega
    refine h i ⟨i + 1, hlt⟩ rfl (ih _ ?_ ?_)
    · rw [Fin.lt_def]; simp only; omega
    · simp only; omega

theorem reach_chain (hc : ∀ i j : Fin n, (i : ℕ) + 1 = j → t i j ≠ 0) (hs : ∀ i j, t i j = t j i) (p : ℕ) : Reach t p := by
  intro Z hZ
  have key : ∀ m : ℕ, ∀ A : Finset (Fin n), A.card = p → ∑ i ∈ A, (i : ℕ) = m → ∃ C : Finset (Fin n), C.card = p ∧ (∀ i j, j ∈ C → i < j → i ∈ C) ∧ (Z A ↔ Z C) := by
    intro m
    induction m using Nat.strong_induction_on with
    | _ m ih =>
      intro A hA hm
      by_cases hd : ∀ i j : Fin n, (i : ℕ) + 1 = j → j ∈ A → i ∈ A
      · exact ⟨A, hA, downSet_of_step hd, Iff.rfl⟩
      push Not at hd
      obtain ⟨i, j, hij, hj, hi⟩ := hd
      have hne : i ≠ j := fun h => hi (h ▸ hj)
      have hi' : i ∉ A.erase j := fun h => hi (Finset.mem_of_mem_erase h)
      have hcard : (insert i (A.erase j)).card = p := by
        rw [Finset.card_insert_of_notMem hi', Finset.card_erase_of_mem hj, hA]
        have : 0 < A.card := Finset.card_pos.mpr ⟨j, hj⟩
        omega
      have hback : insert j ((insert i (A.erase j)).erase i) = A := by rw [Finset.erase_insert hi', Finset.insert_erase hj]
      have hsum : ∑ k ∈ insert i (A.erase j), (k : ℕ) < m := by
        have e1 := Finset.add_sum_erase A (fun k : Fin n => (k : ℕ)) hj
        rw [Finset.sum_insert hi']
        omega
      obtain ⟨C, hC, hCd, hiff⟩ := ih _ hsum _ hcard rfl
      refine ⟨C, hC, hCd, Iff.trans ⟨fun h => hZ A hA i j hj hi (hc i j hij) h, fun h => ?_⟩ hiff⟩
      have := hZ _ hcard j i (Finset.mem_insert_self _ _) (fun hh => by
        rcases Finset.mem_insert.mp hh with hh | hh
        · exact hne hh.symm
        · exact (Finset.mem_erase.mp hh).1 rfl) (by rw [hs]; exact hc i j hij) h
      rwa [hback] at this
  intro A B hA hB hZA
  obtain ⟨C, hC, hCd, h1⟩ := key _ A hA rfl
  obtain ⟨D, hD, hDd, h2⟩ := key _ B hB rfl
  rw [downSet_eq (by rw [hC, hD]) hCd hDd] at h1
  exact h2.mpr (h1.mp hZA)
end
end Edpyt
