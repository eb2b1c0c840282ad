import Verif.Spec.TwoSpin
import Verif.Proof.Fock
import Verif.Proof.Operators
import Mathlib.LinearAlgebra.Matrix.Kronecker
import Mathlib.Tactic.Ring
import Mathlib.Tactic.NoncommRing
/-!
The Fock space of both spin species as a product of two Fock spaces.
-/
namespace Edpyt
open Spec
open scoped Kronecker

variable {n : ℕ}

def upPart (S : Finset (Fin (n + n))) : Finset (Fin n) := Finset.univ.filter fun i => Fin.castAdd n i ∈ S
def dwPart (S : Finset (Fin (n + n))) : Finset (Fin n) := Finset.univ.filter fun i => Fin.natAdd n i ∈ S
def join (U D : Finset (Fin n)) : Finset (Fin (n + n)) := U.map (Fin.castAddEmb n) ∪ D.map (Fin.natAddEmb n)

@[simp] theorem mem_upPart {S : Finset (Fin (n + n))} {i : Fin n} : i ∈ upPart S ↔ Fin.castAdd n i ∈ S := by
  simp [upPart]
@[simp] theorem mem_dwPart {S : Finset (Fin (n + n))} {i : Fin n} : i ∈ dwPart S ↔ Fin.natAdd n i ∈ S := by
  simp [dwPart]

theorem castAdd_ne_natAdd (i j : Fin n) : Fin.castAdd n i ≠ Fin.natAdd n j := by
  intro h; have := congrArg Fin.val h; simp at this; omega

@[simp] theorem castAdd_mem_join {U D : Finset (Fin n)} {i : Fin n} : Fin.castAdd n i ∈ join U D ↔ i ∈ U := by
  unfold join
  rw [Finset.mem_union, Finset.mem_map, Finset.mem_map]
  constructor
  · rintro (⟨a, ha, h⟩ | ⟨a, ha, h⟩)
    · have : a = i := by have := congrArg Fin.val h; simp at this; exact Fin.ext this
      exact this ▸ ha
    · exact absurd h.symm (castAdd_ne_natAdd i a)
  · intro h; exact Or.inl ⟨i, h, rfl⟩

@[simp] theorem natAdd_mem_join {U D : Finset (Fin n)} {i : Fin n} : Fin.natAdd n i ∈ join U D ↔ i ∈ D := by
  unfold join
  rw [Finset.mem_union, Finset.mem_map, Finset.mem_map]
  constructor
  · rintro (⟨a, ha, h⟩ | ⟨a, ha, h⟩)
    · exact absurd h (castAdd_ne_natAdd a i)
    · have : a = i := by have := congrArg Fin.val h; simp at this; exact Fin.ext this
      exact this ▸ ha
  · intro h; exact Or.inr ⟨i, h, rfl⟩

theorem ext2 {S T : Finset (Fin (n + n))} (h1 : upPart S = upPart T) (h2 : dwPart S = dwPart T) : S = T := by
  ext k
  refine Fin.addCases (fun i => ?_) (fun i => ?_) k
  · rw [← mem_upPart, h1, mem_upPart]
  · rw [← mem_dwPart, h2, mem_dwPart]

theorem upPart_join (U D : Finset (Fin n)) : upPart (join U D) = U := by ext i; simp
theorem dwPart_join (U D : Finset (Fin n)) : dwPart (join U D) = D := by ext i; rw [mem_dwPart, natAdd_mem_join]
theorem join_parts (S : Finset (Fin (n + n))) : join (upPart S) (dwPart S) = S :=
  ext2 (upPart_join _ _) (dwPart_join _ _)

/-- Splitting of a set of modes into its spin components. -/
def split2 (n : ℕ) : Finset (Fin (n + n)) ≃ Finset (Fin n) × Finset (Fin n) where
  toFun S := (upPart S, dwPart S)
  invFun p := join p.1 p.2
  left_inv S := join_parts S
  right_inv p := by simp [upPart_join, dwPart_join]

variable {R : Type} [CommRing R]

/-- Tensor product of an operator on the up modes and one on the down modes. -/
def lift2 (A B : Matrix (Finset (Fin n)) (Finset (Fin n)) R) :
    Matrix (Finset (Fin (n + n))) (Finset (Fin (n + n))) R := (A ⊗ₖ B).submatrix (split2 n) (split2 n)

theorem lift2_apply (A B : Matrix (Finset (Fin n)) (Finset (Fin n)) R) (T S : Finset (Fin (n + n))) :
    lift2 A B T S = A (upPart T) (upPart S) * B (dwPart T) (dwPart S) := rfl

theorem lift2_mul (A B C D : Matrix (Finset (Fin n)) (Finset (Fin n)) R) :
    lift2 A B * lift2 C D = lift2 (A * C) (B * D) := by
  unfold lift2
  rw [Matrix.submatrix_mul_equiv, Matrix.mul_kronecker_mul]

theorem lift2_transpose (A B : Matrix (Finset (Fin n)) (Finset (Fin n)) R) :
    (lift2 A B).transpose = lift2 A.transpose B.transpose := by
  ext T S; simp only [Matrix.transpose_apply, lift2_apply]

theorem lift2_neg_right (A B : Matrix (Finset (Fin n)) (Finset (Fin n)) R) :
    lift2 A (-B) = - lift2 A B := by
  ext T S; simp [lift2_apply]

/-- Parity of the number of particles. -/
def par (R : Type) [CommRing R] (n : ℕ) : Matrix (Finset (Fin n)) (Finset (Fin n)) R :=
  Matrix.diagonal fun D => (-1) ^ D.card

theorem par_mul_par : par R n * par R n = 1 := by
  unfold par
  rw [Matrix.diagonal_mul_diagonal, ← Matrix.diagonal_one]
  congr 1; funext D; rw [← pow_add, ← two_mul, pow_mul]; simp

theorem par_mul_ann (i : Fin n) : par R n * ann R i = -(ann R i * par R n) := by
  ext T S
  rw [par, Matrix.diagonal_mul, Matrix.neg_apply, Matrix.mul_diagonal, ann_apply]
  split_ifs with h1 h2
  · subst h2
    have := Finset.card_erase_add_one h1
    rw [← this, pow_succ]; ring
  · ring
  · ring

theorem par_transpose : (par R n).transpose = par R n := Matrix.diagonal_transpose _

theorem par_mul_cre (i : Fin n) : par R n * cre R i = -(cre R i * par R n) := by
  have h := congrArg Matrix.transpose (par_mul_ann (R := R) i)
  rw [Matrix.transpose_neg, Matrix.transpose_mul, Matrix.transpose_mul, par_transpose] at h
  show par R n * (ann R i).transpose = -((ann R i).transpose * par R n)
  rw [h, neg_neg]

theorem card_join (U D : Finset (Fin n)) : (join U D).card = U.card + D.card := by
  unfold join
  rw [Finset.card_union_of_disjoint, Finset.card_map, Finset.card_map]
  rw [Finset.disjoint_left]
  intro k hk hk'
  rw [Finset.mem_map] at hk hk'
  obtain ⟨a, _, rfl⟩ := hk
  obtain ⟨b, _, h⟩ := hk'
  exact castAdd_ne_natAdd a b h.symm

theorem sgn_castAdd (i : Fin n) (S : Finset (Fin (n + n))) :
    sgn (Fin.castAdd n i) S = sgn i (upPart S) * (-1) ^ (dwPart S).card := by
  unfold sgn
  rw [← pow_add, ← card_join]
  congr 2
  apply ext2
  · rw [upPart_join]; ext k
    rw [mem_upPart, Finset.mem_filter, Finset.mem_filter, mem_upPart, Fin.lt_def, Fin.lt_def]; rfl
  · rw [dwPart_join]; ext k
    rw [mem_dwPart, Finset.mem_filter, mem_dwPart, Fin.lt_def]
    refine and_iff_left ?_
    simp only [Fin.val_castAdd, Fin.val_natAdd]; omega

theorem sgn_natAdd (i : Fin n) (S : Finset (Fin (n + n))) :
    sgn (Fin.natAdd n i) S = sgn i (dwPart S) := by
  unfold sgn
  congr 1
  have : S.filter (fun k => Fin.natAdd n i < k) = join ∅ ((dwPart S).filter (fun k => i < k)) := by
    apply ext2
    · rw [upPart_join]; ext k
      rw [mem_upPart, Finset.mem_filter, Fin.lt_def]
      simp only [Fin.val_castAdd, Fin.val_natAdd, Finset.notMem_empty, iff_false]; omega
    · rw [dwPart_join]; ext k
      rw [mem_dwPart, Finset.mem_filter, Finset.mem_filter, mem_dwPart, Fin.lt_def, Fin.lt_def]
      simp only [Fin.val_natAdd]
      constructor <;> rintro ⟨h1, h2⟩ <;> exact ⟨h1, by omega⟩
  rw [this, card_join, Finset.card_empty, zero_add]

theorem upPart_erase_up (i : Fin n) (S : Finset (Fin (n + n))) :
    upPart (S.erase (Fin.castAdd n i)) = (upPart S).erase i := by
  ext k
  rw [mem_upPart, Finset.mem_erase, Finset.mem_erase, mem_upPart, ne_eq, ne_eq, Fin.castAdd_inj]

theorem dwPart_erase_up (i : Fin n) (S : Finset (Fin (n + n))) : dwPart (S.erase (Fin.castAdd n i)) = dwPart S := by
  ext k
  rw [mem_dwPart, Finset.mem_erase, mem_dwPart, and_iff_right (castAdd_ne_natAdd i k).symm]

theorem upPart_erase_dw (i : Fin n) (S : Finset (Fin (n + n))) : upPart (S.erase (Fin.natAdd n i)) = upPart S := by
  ext k
  rw [mem_upPart, Finset.mem_erase, mem_upPart, and_iff_right (castAdd_ne_natAdd k i)]

theorem dwPart_erase_dw (i : Fin n) (S : Finset (Fin (n + n))) :
    dwPart (S.erase (Fin.natAdd n i)) = (dwPart S).erase i := by
  ext k
  rw [mem_dwPart, Finset.mem_erase, Finset.mem_erase, mem_dwPart, ne_eq, ne_eq, Fin.natAdd_inj]

theorem eq_iff_parts {S T : Finset (Fin (n + n))} : T = S ↔ upPart T = upPart S ∧ dwPart T = dwPart S :=
  ⟨fun h => by rw [h]; exact ⟨rfl, rfl⟩, fun h => ext2 h.1 h.2⟩

theorem ann_up (i : Fin n) : ann R (orb false i) = lift2 (ann R i) (par R n) := by
  ext T S
  rw [lift2_apply, ann_apply, ann_apply, par, Matrix.diagonal_apply]
  simp only [orb, Bool.false_eq_true, if_false, mem_upPart]
  have e : T = S.erase (Fin.castAdd n i) ↔ upPart T = (upPart S).erase i ∧ dwPart T = dwPart S := by
    rw [eq_iff_parts, upPart_erase_up, dwPart_erase_up]
  by_cases h : Fin.castAdd n i ∈ S
  · rw [if_pos h, if_pos h]
    by_cases h1 : upPart T = (upPart S).erase i
    · by_cases h2 : dwPart T = dwPart S
      · rw [if_pos (e.mpr ⟨h1, h2⟩), if_pos h1, if_pos h2, sgn_castAdd, h2]; push_cast; rfl
      · rw [if_neg (fun h => h2 (e.mp h).2), if_neg h2, mul_zero]
    · rw [if_neg (fun h => h1 (e.mp h).1), if_neg h1, zero_mul]
  · rw [if_neg h, if_neg h, zero_mul]

theorem ann_dw (i : Fin n) : ann R (orb true i) = lift2 1 (ann R i) := by
  ext T S
  rw [lift2_apply, ann_apply, ann_apply, Matrix.one_apply]
  simp only [orb, if_true, mem_dwPart]
  have e : T = S.erase (Fin.natAdd n i) ↔ upPart T = upPart S ∧ dwPart T = (dwPart S).erase i := by
    rw [eq_iff_parts, upPart_erase_dw, dwPart_erase_dw]
  by_cases h : Fin.natAdd n i ∈ S
  · rw [if_pos h, if_pos h]
    by_cases h1 : dwPart T = (dwPart S).erase i
    · by_cases h2 : upPart T = upPart S
      · rw [if_pos (e.mpr ⟨h2, h1⟩), if_pos h1, if_pos h2, sgn_natAdd, one_mul]
      · rw [if_neg (fun h => h2 (e.mp h).1), if_neg h2, zero_mul]
    · rw [if_neg (fun h => h1 (e.mp h).2), if_neg h1, mul_zero]
  · rw [if_neg h, if_neg h, mul_zero]

theorem cre_up (i : Fin n) : cre R (orb false i) = lift2 (cre R i) (par R n) := by
  unfold cre; rw [ann_up, lift2_transpose, par_transpose]

theorem cre_dw (i : Fin n) : cre R (orb true i) = lift2 1 (cre R i) := by
  unfold cre; rw [ann_dw, lift2_transpose, Matrix.transpose_one]

theorem hop_up (i j : Fin n) : cre R (orb false i) * ann R (orb false j) = lift2 (cre R i * ann R j) 1 := by
  rw [cre_up, ann_up, lift2_mul, par_mul_par]

theorem hop_dw (i j : Fin n) : cre R (orb true i) * ann R (orb true j) = lift2 1 (cre R i * ann R j) := by
  rw [cre_dw, ann_dw, lift2_mul, one_mul]

theorem par_hop (i j : Fin n) : par R n * (cre R i * ann R j) * par R n = cre R i * ann R j := by
  rw [← mul_assoc, par_mul_cre, neg_mul, mul_assoc (cre R i), par_mul_ann, mul_neg, neg_neg, mul_assoc, mul_assoc,
    par_mul_par, mul_one]

/-- `c†_i↑ c†_k↓ c_l↓ c_j↑`. -/
theorem quad_up_dw (i k l j : Fin n) : cre R (orb false i) * cre R (orb true k) * ann R (orb true l) * ann R (orb false j)
    = lift2 (cre R i * ann R j) (cre R k * ann R l) := by
  rw [cre_up, cre_dw, ann_dw, ann_up, lift2_mul, lift2_mul, lift2_mul, mul_one, mul_one, mul_assoc (par R n), par_hop]

/-- `c†_i↓ c†_k↑ c_l↑ c_j↓`. -/
theorem quad_dw_up (i k l j : Fin n) : cre R (orb true i) * cre R (orb false k) * ann R (orb false l) * ann R (orb true j)
    = lift2 (cre R k * ann R l) (cre R i * ann R j) := by
  rw [cre_up, cre_dw, ann_dw, ann_up, lift2_mul, lift2_mul, lift2_mul, mul_one, one_mul, mul_assoc (cre R i), par_mul_par,
    mul_one]

theorem quad_same {M : Type} [Fintype M] [LinearOrder M] (i j : M) (h : i ≠ j) :
    cre R i * cre R j * ann R i * ann R j = -(num R i * num R j) := by
  unfold num
  have h1 : cre R j * ann R i = -(ann R i * cre R j) := by
    have := ann_cre_anticomm (R := R) i j
    rw [if_neg h] at this
    exact eq_neg_of_add_eq_zero_right this
  rw [mul_assoc (cre R i), h1]; noncomm_ring

theorem lt_two_pow_add {n a b : ℕ} (ha : a < 2 ^ n) (hb : b < 2 ^ n) : a + 2 ^ n * b < 2 ^ (n + n) := by
  rw [pow_add]
  calc a + 2 ^ n * b < 2 ^ n + 2 ^ n * b := by omega
    _ = 2 ^ n * (b + 1) := by ring
    _ ≤ 2 ^ n * 2 ^ n := Nat.mul_le_mul_left _ hb

theorem upPart_occ2 {sup sdw : ℕ} (h : sup < 2 ^ n) : upPart (occ2 n sup sdw) = occF n sup := by
  ext i
  simp only [mem_upPart, occ2, mem_occF, Fin.val_castAdd]
  rw [Nat.add_comm, Nat.testBit_two_pow_mul_add _ h, if_pos i.2]

theorem dwPart_occ2 {sup sdw : ℕ} (h : sup < 2 ^ n) : dwPart (occ2 n sup sdw) = occF n sdw := by
  ext i
  simp only [mem_dwPart, occ2, mem_occF, Fin.val_natAdd]
  rw [Nat.add_comm, Nat.testBit_two_pow_mul_add _ h, if_neg (by omega), Nat.add_sub_cancel_left]

theorem lift2_occ2 (A B : Matrix (Finset (Fin n)) (Finset (Fin n)) R) {tu td su sd : ℕ} (ht : tu < 2 ^ n) (hs : su < 2 ^ n) :
    lift2 A B (occ2 n tu td) (occ2 n su sd) = A (occF n tu) (occF n su) * B (occF n td) (occF n sd) := by
  rw [lift2_apply, upPart_occ2 ht, upPart_occ2 hs, dwPart_occ2 ht, dwPart_occ2 hs]

end Edpyt
