import Verif.Props.LevelSymm
import Verif.Props.SigmaTail
import Verif.Proof.Decouple
/-!
The exchange of particles and holes for one spin only.
-/
namespace Edpyt
open Spec Matrix

section
variable {M : Type} [Fintype M] [LinearOrder M]

/-- `c_k + η c†_k`. -/
noncomputable def majorana (η : ℤ) (k : M) : Matrix (Finset M) (Finset M) ℝ := ann ℝ k + (η : ℝ) • cre ℝ k

theorem ann_sq (k : M) : ann ℝ k * ann ℝ k = 0 := by
  have h := ann_anticomm (R := ℝ) k k
  rw [← two_smul ℝ] at h
  exact (smul_eq_zero.mp h).resolve_left two_ne_zero

theorem cre_sq (k : M) : cre ℝ k * cre ℝ k = 0 := by
  have h := cre_anticomm (R := ℝ) k k
  rw [← two_smul ℝ] at h
  exact (smul_eq_zero.mp h).resolve_left two_ne_zero

theorem ann_mul_cre_self (k : M) : ann ℝ k * cre ℝ k = 1 - cre ℝ k * ann ℝ k := by
  have h := ann_cre_anticomm (R := ℝ) k k
  rw [if_pos rfl] at h
  exact eq_sub_of_add_eq h

theorem majorana_transpose (η : ℤ) (k : M) : (majorana η k)ᵀ = cre ℝ k + (η : ℝ) • ann ℝ k := by
  unfold majorana
  rw [Matrix.transpose_add, Matrix.transpose_smul]
  rfl

theorem majorana_orth {η : ℤ} (h : η * η = 1) (k : M) : (majorana η k)ᵀ * majorana η k = 1 := by
  have h' : (η : ℝ) * η = 1 := by exact_mod_cast h
  rw [majorana_transpose, majorana]
  rw [Matrix.add_mul, Matrix.mul_add, Matrix.mul_add, Matrix.smul_mul, Matrix.smul_mul, Matrix.mul_smul, Matrix.mul_smul, smul_smul, h', ann_sq, cre_sq, ann_mul_cre_self, one_smul, smul_zero]
  abel

theorem majorana_self {η : ℤ} (h : η * η = 1) (k : M) : majorana η k * ann ℝ k = ((η : ℝ) • cre ℝ k) * majorana η k := by
  have h' : (η : ℝ) * η = 1 := by exact_mod_cast h
  rw [majorana, Matrix.add_mul, Matrix.mul_add, Matrix.smul_mul, Matrix.smul_mul, Matrix.mul_smul, ann_sq, cre_sq]
  simp

theorem majorana_other {η : ℤ} {j k : M} (h : j ≠ k) : majorana η k * ann ℝ j = (-ann ℝ j) * majorana η k := by
  rw [majorana, Matrix.add_mul, Matrix.mul_add, Matrix.smul_mul, Matrix.mul_smul, ann_ann_anti k j, cre_ann_anti h.symm]
  simp [Matrix.neg_mul]

/-- The product of these operators over the orbitals of a list. -/
noncomputable def holeOp (η : M → ℤ) : List M → Matrix (Finset M) (Finset M) ℝ
  | [] => 1
  | k :: l => majorana (η k) k * holeOp η l

theorem holeOp_orth {η : M → ℤ} (hη : ∀ k, η k * η k = 1) (l : List M) : (holeOp η l)ᵀ * holeOp η l = 1 := by
  induction l with
  | nil => simp [holeOp]
  | cons k l ih =>
    rw [holeOp, Matrix.transpose_mul, Matrix.mul_assoc, ← Matrix.mul_assoc (majorana (η k) k)ᵀ, majorana_orth (hη k), Matrix.one_mul, ih]

theorem holeOp_outside (η : M → ℤ) {l : List M} {j : M} (h : j ∉ l) : holeOp η l * ann ℝ j = ((-1 : ℝ) ^ l.length • ann ℝ j) * holeOp η l := by
  induction l with
  | nil => simp [holeOp]
  | cons k l ih =>
    rw [List.mem_cons, not_or] at h
    rw [holeOp, Matrix.mul_assoc, ih h.2, ← Matrix.mul_assoc, Matrix.mul_smul, majorana_other h.1, List.length_cons, pow_succ]
    simp only [Matrix.neg_mul, Matrix.smul_mul, Matrix.mul_assoc, mul_neg, mul_one, neg_smul, smul_neg]

theorem holeOp_outside_cre {η : M → ℤ} (hη : ∀ k, η k * η k = 1) {l : List M} {j : M} (h : j ∉ l) : holeOp η l * cre ℝ j = ((-1 : ℝ) ^ l.length • cre ℝ j) * holeOp η l := by
  have ho := holeOp_orth hη l
  have ho' : holeOp η l * (holeOp η l)ᵀ = 1 := _root_.mul_eq_one_comm.mp ho
  have h1 : holeOp η l * ann ℝ j * (holeOp η l)ᵀ = (-1 : ℝ) ^ l.length • ann ℝ j := by rw [holeOp_outside η h, Matrix.mul_assoc, ho', Matrix.mul_one]
  have h2 := congrArg Matrix.transpose h1
  rw [Matrix.transpose_mul, Matrix.transpose_mul, Matrix.transpose_transpose, Matrix.transpose_smul, ← Matrix.mul_assoc] at h2
  calc holeOp η l * cre ℝ j = holeOp η l * cre ℝ j * ((holeOp η l)ᵀ * holeOp η l) := by rw [ho, Matrix.mul_one]
    _ = _ := by rw [← Matrix.mul_assoc]; exact congrArg (· * holeOp η l) h2

theorem holeOp_inside {η : M → ℤ} (hη : ∀ k, η k * η k = 1) {l : List M} (hl : l.Nodup) {j : M} (h : j ∈ l) :
    holeOp η l * ann ℝ j = ((-1 : ℝ) ^ (l.length + 1) * η j) • cre ℝ j * holeOp η l := by
  induction l with
  | nil => simp at h
  | cons k l ih =>
    rw [List.nodup_cons] at hl
    by_cases hjk : j = k
    · subst hjk
      rw [holeOp, Matrix.mul_assoc, holeOp_outside η hl.1, ← Matrix.mul_assoc, Matrix.mul_smul, majorana_self (hη j), List.length_cons, Matrix.smul_mul, Matrix.smul_mul, Matrix.smul_mul, smul_smul]
      simp only [Matrix.smul_mul, Matrix.mul_assoc]
      congr 1
      ring
    · have hj : j ∈ l := (List.mem_cons.mp h).resolve_left hjk
      have hc : majorana (η k) k * cre ℝ j = (-cre ℝ j) * majorana (η k) k := by
        rw [majorana, Matrix.add_mul, Matrix.mul_add, Matrix.smul_mul, Matrix.mul_smul, cre_cre_anti k j]
        have := cre_ann_anti (i := j) (j := k) hjk
        rw [Matrix.neg_mul, Matrix.neg_mul, this, neg_neg]
      rw [holeOp, Matrix.mul_assoc, ih hl.2 hj, Matrix.smul_mul, Matrix.mul_smul, ← Matrix.mul_assoc, hc, List.length_cons]
      simp only [Matrix.neg_mul, Matrix.smul_mul, Matrix.mul_assoc, smul_neg]
      rw [← neg_smul]
      congr 1
      ring

end

section
variable {n : ℕ} {η : Fin n → ℤ}

/-- Particles and holes of the spin `down` are exchanged, with the signs `η` of the sites. -/
noncomputable def shiba (η : Fin n → ℤ) : Matrix (Finset (Fin (n + n))) (Finset (Fin (n + n))) ℝ := holeOp (siteSign η) ((List.finRange n).map (orb true))

/-- Transformation of an operator. -/
noncomputable def shibaConj (η : Fin n → ℤ) (A : Matrix (Finset (Fin (n + n))) (Finset (Fin (n + n))) ℝ) : Matrix (Finset (Fin (n + n))) (Finset (Fin (n + n))) ℝ :=
  shiba η * A * (shiba η)ᵀ

variable (hη : ∀ i, η i * η i = 1)
include hη

theorem shiba_orth : (shiba η)ᵀ * shiba η = 1 := holeOp_orth (siteSign_sq hη) _

theorem shiba_orth' : shiba η * (shiba η)ᵀ = 1 := _root_.mul_eq_one_comm.mp (shiba_orth hη)

theorem shibaConj_of {A B : Matrix (Finset (Fin (n + n))) (Finset (Fin (n + n))) ℝ} (h : shiba η * A = B * shiba η) : shibaConj η A = B := by
  rw [shibaConj, h, Matrix.mul_assoc, shiba_orth' hη, Matrix.mul_one]

theorem shibaConj_mul (A B : Matrix (Finset (Fin (n + n))) (Finset (Fin (n + n))) ℝ) : shibaConj η (A * B) = shibaConj η A * shibaConj η B := by
  unfold shibaConj
  calc shiba η * (A * B) * (shiba η)ᵀ = shiba η * A * ((shiba η)ᵀ * shiba η) * B * (shiba η)ᵀ := by rw [shiba_orth hη, Matrix.mul_one]; simp only [Matrix.mul_assoc]
    _ = _ := by simp only [Matrix.mul_assoc]

theorem shibaConj_one : shibaConj η 1 = 1 := by rw [shibaConj, Matrix.mul_one, shiba_orth' hη]

omit hη in
theorem shibaConj_add (A B : Matrix (Finset (Fin (n + n))) (Finset (Fin (n + n))) ℝ) : shibaConj η (A + B) = shibaConj η A + shibaConj η B := by
  rw [shibaConj, Matrix.mul_add, Matrix.add_mul]; rfl

omit hη in
theorem shibaConj_sub (A B : Matrix (Finset (Fin (n + n))) (Finset (Fin (n + n))) ℝ) : shibaConj η (A - B) = shibaConj η A - shibaConj η B := by
  rw [shibaConj, Matrix.mul_sub, Matrix.sub_mul]; rfl

omit hη in
theorem shibaConj_smul (c : ℝ) (A : Matrix (Finset (Fin (n + n))) (Finset (Fin (n + n))) ℝ) : shibaConj η (c • A) = c • shibaConj η A := by
  rw [shibaConj, Matrix.mul_smul, Matrix.smul_mul]; rfl

omit hη in
theorem shibaConj_sum {κ : Type} (s : Finset κ) (A : κ → Matrix (Finset (Fin (n + n))) (Finset (Fin (n + n))) ℝ) : shibaConj η (∑ k ∈ s, A k) = ∑ k ∈ s, shibaConj η (A k) := by
  rw [shibaConj, Matrix.mul_sum, Matrix.sum_mul]; rfl

omit hη in
theorem shibaConj_transpose (A : Matrix (Finset (Fin (n + n))) (Finset (Fin (n + n))) ℝ) : shibaConj η Aᵀ = (shibaConj η A)ᵀ := by
  unfold shibaConj
  simp only [Matrix.transpose_mul, Matrix.transpose_transpose, Matrix.mul_assoc]

theorem shibaConj_up (i : Fin n) : shibaConj η (ann ℝ (orb false i)) = (-1 : ℝ) ^ n • ann ℝ (orb false i) := by
  refine shibaConj_of hη ?_
  have h := holeOp_outside (siteSign η) (l := (List.finRange n).map (orb true)) (j := orb false i) (by simp [orb_inj])
  rw [List.length_map, List.length_finRange] at h
  exact h

theorem shibaConj_dw (i : Fin n) : shibaConj η (ann ℝ (orb true i)) = ((-1 : ℝ) ^ (n + 1) * η i) • cre ℝ (orb true i) := by
  refine shibaConj_of hη ?_
  have h := holeOp_inside (siteSign_sq hη) (l := (List.finRange n).map (orb true)) ((List.nodup_finRange n).map fun x y hxy => (orb_inj.mp hxy).2) (j := orb true i) (by simp)
  rw [List.length_map, List.length_finRange, siteSign_orb] at h
  exact h

theorem shibaConj_up_cre (i : Fin n) : shibaConj η (cre ℝ (orb false i)) = (-1 : ℝ) ^ n • cre ℝ (orb false i) := by
  have : cre ℝ (orb false i) = (ann ℝ (orb false i))ᵀ := rfl
  rw [this, shibaConj_transpose, shibaConj_up hη, Matrix.transpose_smul]

theorem shibaConj_dw_cre (i : Fin n) : shibaConj η (cre ℝ (orb true i)) = ((-1 : ℝ) ^ (n + 1) * η i) • ann ℝ (orb true i) := by
  have : cre ℝ (orb true i) = (ann ℝ (orb true i))ᵀ := rfl
  rw [this, shibaConj_transpose, shibaConj_dw hη, Matrix.transpose_smul]
  rfl

omit hη in
theorem neg_one_pow_sq (n : ℕ) : (-1 : ℝ) ^ n * (-1 : ℝ) ^ n = 1 := by rw [← mul_pow]; norm_num

theorem shibaConj_up_hop (i j : Fin n) : shibaConj η (cre ℝ (orb false i) * ann ℝ (orb false j)) = cre ℝ (orb false i) * ann ℝ (orb false j) := by
  rw [shibaConj_mul hη, shibaConj_up_cre hη, shibaConj_up hη, Matrix.smul_mul, Matrix.mul_smul, smul_smul, neg_one_pow_sq, one_smul]

theorem shibaConj_dw_hop (i j : Fin n) : shibaConj η (cre ℝ (orb true i) * ann ℝ (orb true j)) =
    (if i = j then 1 else 0) - ((η i * η j : ℤ) : ℝ) • (cre ℝ (orb true j) * ann ℝ (orb true i)) := by
  have h4 := ann_cre_anticomm (R := ℝ) (orb true i) (orb true j)
  rw [shibaConj_mul hη, shibaConj_dw_cre hη, shibaConj_dw hη, Matrix.smul_mul, Matrix.mul_smul, smul_smul, eq_sub_of_add_eq h4]
  have e : (-1 : ℝ) ^ (n + 1) * η i * ((-1 : ℝ) ^ (n + 1) * η j) = ((η i * η j : ℤ) : ℝ) := by
    rw [mul_mul_mul_comm, neg_one_pow_sq, one_mul]; push_cast; rfl
  rw [e, smul_sub]
  by_cases hij : i = j
  · subst hij
    rw [if_pos rfl, if_pos rfl, hη, Int.cast_one, one_smul]
  · rw [if_neg hij, if_neg (by rw [orb_inj]; exact fun h => hij h.2), smul_zero]

theorem shibaConj_num_up (i : Fin n) : shibaConj η (num ℝ (orb false i)) = num ℝ (orb false i) := shibaConj_up_hop hη i i

theorem shibaConj_num_dw (i : Fin n) : shibaConj η (num ℝ (orb true i)) = 1 - num ℝ (orb true i) := by
  have h := shibaConj_dw_hop hη i i
  rw [if_pos rfl, hη, Int.cast_one, one_smul] at h
  exact h

/-- The states that the transformation connects: the same electrons of spin `up`, and holes of spin `down` in place of electrons. -/
theorem shiba_counts {T S : Finset (Fin (n + n))} (h : shiba η T S ≠ 0) : spinCount false T = spinCount false S ∧ spinCount true T = n - spinCount true S := by
  have key : ∀ {A B : Matrix (Finset (Fin (n + n))) (Finset (Fin (n + n))) ℝ}, shibaConj η A = B → B * shiba η = shiba η * A := fun {A B} e => by
    rw [← e, shibaConj, Matrix.mul_assoc, shiba_orth hη, Matrix.mul_one]
  have hu : ∀ i, orb false i ∈ T ↔ orb false i ∈ S := fun i => by
    have e := congrFun (congrFun (key (shibaConj_num_up hη i)) T) S
    rw [num_diagonal, Matrix.diagonal_mul, Matrix.mul_diagonal] at e
    by_cases h1 : orb false i ∈ T <;> by_cases h2 : orb false i ∈ S <;> simp_all
  have hd : ∀ i, orb true i ∈ T ↔ orb true i ∉ S := fun i => by
    have e := congrFun (congrFun (key (shibaConj_num_dw hη i)) T) S
    rw [num_diagonal, Matrix.sub_mul, Matrix.one_mul, Matrix.sub_apply, Matrix.diagonal_mul, Matrix.mul_diagonal] at e
    by_cases h1 : orb true i ∈ T <;> by_cases h2 : orb true i ∈ S <;> simp_all
  rw [spinCount_eq, spinCount_eq, spinCount_eq, spinCount_eq]
  constructor
  · simp only [hu]
  · have := Finset.card_filter_add_card_filter_not (s := (Finset.univ : Finset (Fin n))) (fun i => orb true i ∈ S)
    simp only [hd]
    rw [Finset.card_univ, Fintype.card_fin] at this
    omega

/-- Transformation of the kinetic term: the hops of spin `up` are unchanged. -/
theorem kinetic_shiba (t : Bool → Fin n → Fin n → ℝ) (hs : ∀ s i j, t s i j = t s j i) :
    shibaConj η (kinetic t) = kinetic (fun s i j => if s then -(η i * η j : ℤ) * t s i j else t s i j) + (∑ i, t true i i) • 1 := by
  unfold kinetic
  simp only [Fintype.sum_bool, shibaConj_add, shibaConj_sum, shibaConj_smul, shibaConj_up_hop hη, shibaConj_dw_hop hη, if_true, Bool.false_eq_true, if_false]
  have e : ∑ i, ∑ j, t true i j • ((if i = j then 1 else 0) - ((η i * η j : ℤ) : ℝ) • (cre ℝ (orb true j) * ann ℝ (orb true i))) =
      ∑ i, ∑ j, (-((η i * η j : ℤ) : ℝ) * t true i j) • (cre ℝ (orb true i) * ann ℝ (orb true j)) + (∑ i, t true i i) • 1 := by
    rw [Finset.sum_comm (f := fun i j => (-((η i * η j : ℤ) : ℝ) * t true i j) • (cre ℝ (orb true i) * ann ℝ (orb true j))), Finset.sum_smul, ← Finset.sum_add_distrib]
    refine Finset.sum_congr rfl fun i _ => ?_
    have h1 : ∀ j, t true i j • ((if i = j then 1 else 0) - ((η i * η j : ℤ) : ℝ) • (cre ℝ (orb true j) * ann ℝ (orb true i))) =
        (-((η j * η i : ℤ) : ℝ) * t true j i) • (cre ℝ (orb true j) * ann ℝ (orb true i)) + if i = j then t true i i • (1 : Matrix (Finset (Fin (n + n))) (Finset (Fin (n + n))) ℝ) else 0 := by
      intro j
      rw [hs true j i, mul_comm (η j)]
      by_cases hij : i = j
      · subst hij
        rw [if_pos rfl, if_pos rfl]
        module
      · rw [if_neg hij, if_neg hij]
        module
    rw [Finset.sum_congr rfl fun j _ => h1 j, Finset.sum_add_distrib, Finset.sum_ite_eq, if_pos (Finset.mem_univ _)]
  rw [e]
  abel

/-- Transformation of the interaction on the sites: it changes sign. -/
theorem onsite_shiba (hf : Bool) (V : Fin n → Fin n → ℝ) :
    shibaConj η (onsiteU hf V) = onsiteU hf (fun i j => -V i j) + ∑ i, (if hf then 0 else V i i) • num ℝ (orb false i) := by
  unfold onsiteU
  rw [shibaConj_sum, ← Finset.sum_add_distrib]
  refine Finset.sum_congr rfl fun i _ => ?_
  rw [shibaConj_smul, shibaConj_mul hη, shibaConj_sub, shibaConj_sub, shibaConj_smul, shibaConj_one hη, shibaConj_num_up hη, shibaConj_num_dw hη]
  cases hf
  · simp only [Bool.false_eq_true, if_false, zero_smul, sub_zero]
    rw [Matrix.mul_sub, Matrix.mul_one]
    module
  · simp only [if_true, zero_smul, add_zero]
    have h1 : (1 - num ℝ (orb true i) - (1 / 2 : ℝ) • 1 : Matrix (Finset (Fin (n + n))) (Finset (Fin (n + n))) ℝ) = -(num ℝ (orb true i) - (1 / 2 : ℝ) • 1) := by
      have : (1 : Matrix (Finset (Fin (n + n))) (Finset (Fin (n + n))) ℝ) = (1 / 2 : ℝ) • 1 + (1 / 2 : ℝ) • 1 := by
        rw [← add_smul]; norm_num
      nth_rewrite 1 [this]
      abel
    rw [h1, mul_neg, smul_neg, neg_smul]

end
end Edpyt
