import Verif.Props.GfExact
import Verif.Proof.Thermal
import Mathlib.Data.Fintype.BigOperators
/-!
The sectors of a complete espace give an orthonormal eigenbasis of the whole Fock space.
-/
namespace Edpyt
open Spec Matrix
variable {n : ℕ}

/-- Number of electrons of one spin. -/
def spinCount (s : Bool) (S : Finset (Fin (n + n))) : ℤ := if s then ((dwPart S).card : ℤ) else ((upPart S).card : ℤ)

/-- An operator that changes the number of electrons of spin `s` by `d s`. -/
def Grade (A : Matrix (Finset (Fin (n + n))) (Finset (Fin (n + n))) ℝ) (d : Bool → ℤ) : Prop :=
  ∀ T S, A T S ≠ 0 → ∀ s, spinCount s T = spinCount s S + d s

theorem grade_ann (s : Bool) (i : Fin n) : Grade (ann ℝ (orb s i)) (fun s' => if s' = s then -1 else 0) := by
  intro T S h s'
  simp only [ann, Matrix.of_apply] at h
  split at h
  · rename_i hc
    obtain ⟨hi, rfl⟩ := hc
    cases s <;> simp only [orb, Bool.false_eq_true, if_false, if_true] at hi ⊢ <;> cases s' <;>
      simp only [spinCount, Bool.false_eq_true, Bool.true_eq_false, if_false, if_true, add_zero]
    · have : upPart (S.erase (Fin.castAdd n i)) = (upPart S).erase i := by
        ext j; simp [Fin.ext_iff]
      rw [this, Finset.card_erase_of_mem (by simpa using hi), Nat.cast_sub (Finset.card_pos.mpr ⟨i, by simpa using hi⟩)]
      push_cast; ring
    · rw [dwPart_erase_up]
    · rw [upPart_erase_dw]
    · have : dwPart (S.erase (Fin.natAdd n i)) = (dwPart S).erase i := by
        ext j; simp [Fin.ext_iff]
      rw [this, Finset.card_erase_of_mem (by simpa using hi), Nat.cast_sub (Finset.card_pos.mpr ⟨i, by simpa using hi⟩)]
      push_cast; ring
  · exact absurd rfl h

theorem Grade.transpose {A : Matrix (Finset (Fin (n + n))) (Finset (Fin (n + n))) ℝ} {d : Bool → ℤ} (h : Grade A d) : Grade Aᵀ (-d) := by
  intro T S hne s
  have := h S T hne s
  simp only [Pi.neg_apply]; omega

theorem grade_cre (s : Bool) (i : Fin n) : Grade (cre ℝ (orb s i)) (fun s' => if s' = s then 1 else 0) := by
  intro T S hne s'
  have := grade_ann s i S T hne s'
  simp only at this ⊢
  split at this <;> simp_all <;> omega

theorem Grade.mul {A B : Matrix (Finset (Fin (n + n))) (Finset (Fin (n + n))) ℝ} {d e : Bool → ℤ} (ha : Grade A d) (hb : Grade B e) :
    Grade (A * B) (d + e) := by
  intro T S hne s
  rw [Matrix.mul_apply] at hne
  obtain ⟨R, -, hR⟩ := Finset.exists_ne_zero_of_sum_ne_zero hne
  have h1 := ha T R (left_ne_zero_of_mul hR) s
  have h2 := hb R S (right_ne_zero_of_mul hR) s
  simp only [Pi.add_apply]; omega

theorem Grade.smul {A : Matrix (Finset (Fin (n + n))) (Finset (Fin (n + n))) ℝ} {d : Bool → ℤ} (ha : Grade A d) (x : ℝ) : Grade (x • A) d := by
  intro T S hne s
  refine ha T S ?_ s
  rw [Matrix.smul_apply, smul_eq_mul] at hne
  exact right_ne_zero_of_mul hne

theorem Grade.add {A B : Matrix (Finset (Fin (n + n))) (Finset (Fin (n + n))) ℝ} {d : Bool → ℤ} (ha : Grade A d) (hb : Grade B d) : Grade (A + B) d := by
  intro T S hne s
  by_cases h : A T S = 0
  · refine hb T S ?_ s
    intro h'; exact hne (by rw [Matrix.add_apply, h, h', add_zero])
  · exact ha T S h s

theorem Grade.sub {A B : Matrix (Finset (Fin (n + n))) (Finset (Fin (n + n))) ℝ} {d : Bool → ℤ} (ha : Grade A d) (hb : Grade B d) : Grade (A - B) d := by
  have := ha.add (hb.smul (-1))
  rwa [neg_smul, one_smul, ← sub_eq_add_neg] at this

theorem Grade.sum {α : Type} {t : Finset α} {f : α → Matrix (Finset (Fin (n + n))) (Finset (Fin (n + n))) ℝ} {d : Bool → ℤ}
    (h : ∀ a ∈ t, Grade (f a) d) : Grade (∑ a ∈ t, f a) d := by
  intro T S hne s
  rw [Matrix.sum_apply] at hne
  obtain ⟨a, ha, hR⟩ := Finset.exists_ne_zero_of_sum_ne_zero hne
  exact h a ha T S hR s

theorem grade_one : Grade (1 : Matrix (Finset (Fin (n + n))) (Finset (Fin (n + n))) ℝ) 0 := by
  intro T S hne s
  rw [Matrix.one_apply] at hne
  split at hne
  · rename_i h; rw [h]; simp
  · exact absurd rfl hne

theorem Grade.of_eq {A : Matrix (Finset (Fin (n + n))) (Finset (Fin (n + n))) ℝ} {d e : Bool → ℤ} (ha : Grade A d) (h : ∀ s, d s = e s) : Grade A e := by
  rwa [← funext h]

theorem grade_num (s : Bool) (i : Fin n) : Grade (num ℝ (orb s i)) 0 :=
  ((grade_cre s i).mul (grade_ann s i)).of_eq fun s' => by simp only [Pi.add_apply, Pi.zero_apply]; split <;> simp

theorem grade_ham (a : HamArgs) : Grade a.ham 0 := by
  have hk : Grade (kinetic fun s => kept (n := a.n) a.mu (a.H (if s then 1 else 0))) 0 := by
    refine Grade.sum fun s _ => Grade.sum fun i _ => Grade.sum fun j _ => Grade.smul ?_ _
    exact ((grade_cre s i).mul (grade_ann s j)).of_eq fun s' => by simp only [Pi.add_apply, Pi.zero_apply]; split <;> simp
  have mul0 : ∀ {A B : Matrix (Finset (Fin (a.n + a.n))) (Finset (Fin (a.n + a.n))) ℝ}, Grade A 0 → Grade B 0 → Grade (A * B) 0 :=
    fun ha hb => (ha.mul hb).of_eq fun s => by simp
  unfold HamArgs.ham hubbard codeExchange
  refine Grade.add (Grade.add (Grade.add hk ?_) ?_) (Grade.add (Grade.sub ?_ ?_) ?_)
  · refine Grade.sum fun i _ => Grade.smul (mul0 ?_ ?_) _
    · exact (grade_num false i).sub (grade_one.smul _)
    · exact (grade_num true i).sub (grade_one.smul _)
  · refine Grade.smul (Grade.sum fun i _ => Grade.sum fun j _ => Grade.smul (mul0 ?_ ?_) _) _
    · exact ((grade_num false i).add (grade_num true i)).sub (grade_one.smul _)
    · exact ((grade_num false j).add (grade_num true j)).sub (grade_one.smul _)
  · refine Grade.smul (Grade.sum fun i _ => Grade.sum fun j _ => Grade.smul (Grade.sum fun s _ => ?_) _) _
    refine ((((grade_cre s i).mul (grade_cre s j)).mul (grade_ann s i)).mul (grade_ann s j)).of_eq fun s' => ?_
    simp only [Pi.add_apply, Pi.zero_apply]; split <;> simp
  · refine Grade.smul (Grade.sum fun i _ => Grade.sum fun j _ => Grade.smul (Grade.sum fun s _ => ?_) _) _
    refine ((((grade_cre s i).mul (grade_cre (!s) j)).mul (grade_ann (!s) i)).mul (grade_ann s j)).of_eq fun s' => ?_
    cases s <;> cases s' <;> simp
  · refine Grade.smul (Grade.sum fun i _ => Grade.sum fun j _ => Grade.smul (Grade.sum fun s _ => ?_) _) _
    refine ((((grade_cre s i).mul (grade_cre (!s) i)).mul (grade_ann (!s) j)).mul (grade_ann s j)).of_eq fun s' => ?_
    cases s <;> cases s' <;> simp

/-- The vectors of a sector are supported on its basis states. -/
theorem ket_support {p q : ℕ} {up dw : List ℕ} (hu : SectorList n p up) (hd : SectorList n q dw) (v : ℕ → ℝ) {S : Finset (Fin (n + n))}
    (h : ket n up dw v S ≠ 0) : spinCount false S = p ∧ spinCount true S = q := by
  unfold ket at h
  obtain ⟨iu, -, h⟩ := Finset.exists_ne_zero_of_sum_ne_zero h
  obtain ⟨id, -, h⟩ := Finset.exists_ne_zero_of_sum_ne_zero h
  split at h
  · rename_i hS
    have b1 := (hu.mem _).mp (List.getElem_mem iu.2)
    have b2 := (hd.mem _).mp (List.getElem_mem id.2)
    subst hS
    simp only [spinCount, Bool.false_eq_true, if_false, if_true]
    constructor
    · have := upPart_occ2 (n := n) (sdw := dw[id]) b1.1
      simp only [Fin.getElem_fin] at this ⊢
      rw [this, card_occF b1.1]
      exact_mod_cast b1.2
    · have := dwPart_occ2 (n := n) (sdw := dw[id]) b1.1
      simp only [Fin.getElem_fin] at this ⊢
      rw [this, card_occF b2.1]
      exact_mod_cast b2.2
  · exact absurd rfl h

/-- Matrix elements between sectors that an operator does not connect vanish. -/
theorem Grade.elem_zero {A : Matrix (Finset (Fin (n + n))) (Finset (Fin (n + n))) ℝ} {δ : Bool → ℤ} (hA : Grade A δ) {p q p' q' : ℕ}
    {up dw up' dw' : List ℕ} (hu : SectorList n p up) (hd : SectorList n q dw) (hu' : SectorList n p' up') (hd' : SectorList n q' dw')
    (v v' : ℕ → ℝ) (hne : ¬ ((p' : ℤ) = p + δ false ∧ (q' : ℤ) = q + δ true)) :
    ket n up' dw' v' ⬝ᵥ (A *ᵥ ket n up dw v) = 0 := by
  simp only [dotProduct, Matrix.mulVec]
  apply Finset.sum_eq_zero; intro T _
  by_cases hT : ket n up' dw' v' T = 0
  · rw [hT, zero_mul]
  · have ht := ket_support hu' hd' v' hT
    rw [Finset.sum_eq_zero, mul_zero]
    intro S _
    by_cases hS : ket n up dw v S = 0
    · rw [hS, mul_zero]
    · have hs := ket_support hu hd v hS
      have : A T S = 0 := by
        by_contra h
        have h1 := hA T S h false
        have h2 := hA T S h true
        exact hne ⟨by omega, by omega⟩
      rw [this, zero_mul]

end Edpyt
