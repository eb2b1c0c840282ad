import Verif.Proof.Lieb
import Verif.Proof.Hubbard
/-!
Irreducibility of hops and occupations on the configurations of `m` electrons, and the amplitudes of a sector as a matrix.
-/
namespace Edpyt.Lieb
open Spec Matrix

variable {n m : ℕ} {t : Fin n → Fin n → ℝ}

/-- Through other electrons, an electron can be moved along any path. -/
theorem reach_path {Z : Finset (Fin n) → Prop} {p : ℕ}
    (hZ : ∀ A : Finset (Fin n), A.card = p → ∀ i j, j ∈ A → i ∉ A → t i j ≠ 0 → Z A → Z (insert i (A.erase j))) {a b : Fin n}
    (h : Relation.ReflTransGen (fun k l : Fin n => t l k ≠ 0 ∧ k ≠ l) a b) : ∀ A : Finset (Fin n), A.card = p → a ∈ A → b ∉ A → Z A → Z (insert b (A.erase a)) := by
  have hcard : ∀ {A : Finset (Fin n)} {i j}, A.card = p → j ∈ A → i ∉ A → (insert i (A.erase j)).card = p := fun {A i j} hA hj hi => by
    rw [Finset.card_insert_of_notMem fun hh => hi (Finset.mem_of_mem_erase hh), Finset.card_erase_of_mem hj, hA]
    have := Finset.card_pos.mpr ⟨j, hj⟩
    omega
  induction h using Relation.ReflTransGen.head_induction_on with
  | refl => exact fun A _ h1 h2 => absurd h1 h2
  | head hac hcb ih =>
    rename_i a c
    intro A hA ha hb hZA
    by_cases hc : c ∈ A
    · have hcb' : c ≠ b := fun hh => hb (hh ▸ hc)
      have h1 := ih A hA hc hb hZA
      have h2 := hZ _ (hcard hA hc hb) c a (Finset.mem_insert_of_mem (Finset.mem_erase.mpr ⟨hac.2, ha⟩))
        (fun hh => by
          rcases Finset.mem_insert.mp hh with hh | hh
          · exact hcb' hh
          · exact (Finset.mem_erase.mp hh).1 rfl) hac.1 h1
      have e : insert c ((insert b (A.erase c)).erase a) = insert b (A.erase a) := by
        have hba : b ≠ a := fun hh => hb (hh ▸ ha)
        ext x
        simp only [Finset.mem_insert, Finset.mem_erase]
        by_cases h1 : x = c <;> by_cases h2 : x = a <;> by_cases h3 : x = b <;> simp_all
      rwa [e] at h2
    · have h1 := hZ A hA c a ha hc hac.1 hZA
      by_cases hcb' : c = b
      · rwa [hcb'] at h1
      have h2 := ih (insert c (A.erase a)) (hcard hA ha hc) (Finset.mem_insert_self _ _) (fun hh => by
        rcases Finset.mem_insert.mp hh with hh | hh
        · exact hcb' hh.symm
        · exact hb (Finset.mem_of_mem_erase hh)) h1
      rwa [Finset.erase_insert fun hh => hc (Finset.mem_of_mem_erase hh)] at h2

/-- On a connected cluster every configuration can be reached. -/
theorem reach_connected (hc : ∀ i j, Relation.ReflTransGen (fun k l : Fin n => t l k ≠ 0 ∧ k ≠ l) i j) (p : ℕ) : Reach t p := fun Z hZ A B hA hB h => by
  induction hk : (A \ B).card using Nat.strong_induction_on generalizing A with
  | _ k ih =>
    by_cases h0 : A \ B = ∅
    · have : A = B := Finset.eq_of_subset_of_card_le (Finset.sdiff_eq_empty_iff_subset.mp h0) (by rw [hA, hB])
      rwa [← this]
    · obtain ⟨a, ha⟩ := Finset.nonempty_iff_ne_empty.mpr h0
      obtain ⟨b, hb⟩ : (B \ A).Nonempty := by
        rw [← Finset.card_pos, Finset.card_sdiff_comm (by rw [hA, hB] : B.card = A.card)]
        exact Finset.card_pos.mpr ⟨a, ha⟩
      rw [Finset.mem_sdiff] at ha hb
      have h1 := reach_path hZ (hc a b) A hA ha.1 hb.2 h
      have hcard : (insert b (A.erase a)).card = p := by
        rw [Finset.card_insert_of_notMem fun hh => hb.2 (Finset.mem_of_mem_erase hh), Finset.card_erase_of_mem ha.1, hA]
        have := Finset.card_pos.mpr ⟨a, ha.1⟩
        omega
      refine ih _ ?_ _ hcard h1 rfl
      rw [← hk]
      refine Finset.card_lt_card ⟨fun x hx => ?_, fun hh => ?_⟩
      · rw [Finset.mem_sdiff, Finset.mem_insert, Finset.mem_erase] at hx
        rw [Finset.mem_sdiff]
        rcases hx.1 with rfl | hx1
        · exact absurd hb.1 hx.2
        · exact ⟨hx1.2, hx.2⟩
      · have := hh (Finset.mem_sdiff.mpr ha)
        rw [Finset.mem_sdiff, Finset.mem_insert, Finset.mem_erase] at this
        rcases this.1 with h2 | h2
        · exact ha.2 (h2 ▸ hb.1)
        · exact h2.1 rfl

/-- The element of a single hop does not vanish. -/
theorem oneHop_ne_zero {A : Finset (Fin n)} {i j : Fin n} (hj : j ∈ A) (hi : i ∉ A) (ht : t i j ≠ 0) : oneHop t (insert i (A.erase j)) A ≠ 0 := by
  have hij : i ≠ j := fun hh => hi (hh ▸ hj)
  have hie : i ∉ A.erase j := fun hh => hi (Finset.mem_of_mem_erase hh)
  have hs : ∀ (k : Fin n) (C : Finset (Fin n)), ((sgn k C : ℤ) : ℝ) ≠ 0 := fun k C => by
    rw [Int.cast_ne_zero]; unfold sgn; exact pow_ne_zero _ (by norm_num)
  rw [oneHop_elem, Finset.sum_eq_single i, Finset.sum_eq_single j]
  · rw [cre_ann_elem, if_pos ⟨hj, Finset.mem_insert_self _ _, by rw [Finset.erase_insert hie]⟩]
    exact mul_ne_zero ht (mul_ne_zero (hs _ _) (hs _ _))
  · intro j' _ hne
    rw [cre_ann_elem, if_neg, mul_zero]
    rintro ⟨h1, -, h3⟩
    rw [Finset.erase_insert hie] at h3
    have : j' ∈ A.erase j := Finset.mem_erase.mpr ⟨hne, h1⟩
    rw [h3] at this
    exact (Finset.mem_erase.mp this).1 rfl
  · exact fun hh => absurd (Finset.mem_univ _) hh
  · intro i' _ hne
    refine Finset.sum_eq_zero fun j' _ => ?_
    rw [cre_ann_elem, if_neg, mul_zero]
    rintro ⟨h1, h2, h3⟩
    have h4 : i ∈ (insert i (A.erase j)).erase i' := Finset.mem_erase.mpr ⟨hne.symm, Finset.mem_insert_self _ _⟩
    rw [h3] at h4
    exact hi (Finset.mem_of_mem_erase h4)
  · exact fun hh => absurd (Finset.mem_univ _) hh

/-- The configurations of `m` electrons on `n` sites. -/
abbrev Conf (n m : ℕ) : Type := {A : Finset (Fin n) // A.card = m}

/-- Hops between the configurations. -/
noncomputable def hopR (t : Fin n → Fin n → ℝ) (m : ℕ) : Matrix (Conf n m) (Conf n m) ℝ := (oneHop t).submatrix Subtype.val Subtype.val

/-- Occupation of a site, shifted. -/
noncomputable def occR (c : ℝ) (m : ℕ) (x : Fin n) : Matrix (Conf n m) (Conf n m) ℝ := Matrix.diagonal fun A => (if x ∈ A.1 then 1 else 0) - c

theorem irreducible (hc : ∀ i j, Relation.ReflTransGen (fun k l : Fin n => t l k ≠ 0 ∧ k ≠ l) i j) (c : ℝ) (m : ℕ) :
    Irreducible ((hopR t m).map Complex.ofReal) fun x => (occR c m x).map Complex.ofReal := fun Z hK hL => by
  have hLv : ∀ (x : Fin n) (v : Conf n m → ℂ) (B : Conf n m), ((occR c m x).map Complex.ofReal *ᵥ v) B = ((if x ∈ B.1 then 1 else 0) - c) * v B := fun x v B => by
    have : (occR c m x).map Complex.ofReal = Matrix.diagonal fun A : Conf n m => (((if x ∈ A.1 then 1 else 0) - c : ℝ) : ℂ) := by
      unfold occR; rw [Matrix.diagonal_map (by simp)]
    rw [this, mulVec_diagonal, Complex.ofReal_sub]
    congr 2
    split_ifs <;> simp
  -- projection on one configuration
  have hproj : ∀ v ∈ Z, ∀ A : Conf n m, v A ≠ 0 → (Pi.single A 1 : Conf n m → ℂ) ∈ Z := fun v hv A hA => by
    have h1 : ∀ s : Finset (Fin n), (fun B : Conf n m => if ∀ x ∈ s, (x ∈ B.1 ↔ x ∈ A.1) then v B else 0) ∈ Z := fun s => by
      induction s using Finset.induction_on with
      | empty => simpa using hv
      | insert x s hx ih =>
        have h2 := hL x _ ih
        by_cases hxA : x ∈ A.1
        · have h3 := Z.add_mem h2 (Z.smul_mem (c : ℂ) ih)
          convert h3 using 1
          funext B
          rw [Pi.add_apply, Pi.smul_apply, hLv]
          simp only [Finset.forall_mem_insert]
          by_cases hs : ∀ y ∈ s, (y ∈ B.1 ↔ y ∈ A.1)
          · rw [if_pos hs]
            by_cases hxB : x ∈ B.1
            · rw [if_pos ⟨iff_of_true hxB hxA, hs⟩, if_pos hxB, smul_eq_mul]; ring
            · rw [if_neg fun hh => hxB (hh.1.mpr hxA), if_neg hxB, smul_eq_mul]; ring
          · rw [if_neg hs, if_neg fun hh => hs hh.2, smul_zero, mul_zero, add_zero]
        · have h3 := Z.sub_mem ih (Z.add_mem h2 (Z.smul_mem (c : ℂ) ih))
          convert h3 using 1
          funext B
          rw [Pi.sub_apply, Pi.add_apply, Pi.smul_apply, hLv]
          simp only [Finset.forall_mem_insert]
          by_cases hs : ∀ y ∈ s, (y ∈ B.1 ↔ y ∈ A.1)
          · rw [if_pos hs]
            by_cases hxB : x ∈ B.1
            · rw [if_neg fun hh => hxA (hh.1.mp hxB), if_pos hxB, smul_eq_mul]; ring
            · rw [if_pos ⟨iff_of_false hxB hxA, hs⟩, if_neg hxB, smul_eq_mul]; ring
          · rw [if_neg hs, if_neg fun hh => hs hh.2, smul_zero, mul_zero, add_zero, sub_zero]
    have h2 := Z.smul_mem (v A)⁻¹ (h1 Finset.univ)
    convert h2 using 1
    funext B
    rw [Pi.smul_apply]
    by_cases hBA : B = A
    · subst hBA; simp [hA]
    · rw [Pi.single_eq_of_ne hBA, if_neg, smul_zero]
      exact fun hh => hBA (Subtype.ext (Finset.ext fun x => hh x (Finset.mem_univ _)))
  by_cases hZ : Z = ⊥
  · exact Or.inl hZ
  right
  obtain ⟨v, hv, hv0⟩ := (Submodule.ne_bot_iff Z).mp hZ
  obtain ⟨A, hA⟩ : ∃ A, v A ≠ 0 := by
    by_contra hh
    push Not at hh
    exact hv0 (funext hh)
  have hall : ∀ B : Conf n m, (Pi.single B 1 : Conf n m → ℂ) ∈ Z := fun B => by
    refine reach_connected hc m (fun C => ∀ h : C.card = m, (Pi.single (⟨C, h⟩ : Conf n m) 1 : Conf n m → ℂ) ∈ Z) (fun C hC i j hj hi ht hZC h => ?_) A.1 B.1 A.2 B.2
      (fun h => hproj v hv ⟨A.1, h⟩ hA) B.2
    have h1 := hK _ (hZC hC)
    refine hproj _ h1 _ ?_
    rw [mulVec_single_one]
    show ((oneHop t (insert i (C.erase j)) C : ℝ) : ℂ) ≠ 0
    exact Complex.ofReal_ne_zero.mpr (oneHop_ne_zero hj hi ht)
  rw [Submodule.eq_top_iff']
  intro v
  rw [pi_eq_sum_univ' v]
  refine Z.sum_mem fun B _ => ?_
  have := Z.smul_mem (v B) (hall B)
  convert this using 2

/-- The action of the Hamiltonian on a real matrix of amplitudes. -/
noncomputable def phiR (t : Fin n → Fin n → ℝ) (c : ℝ) (u : Fin n → ℝ) (X : Matrix (Conf n m) (Conf n m) ℝ) : Matrix (Conf n m) (Conf n m) ℝ :=
  hopR t m * X + X * hopR t m + ∑ x, u x • (occR c m x * X * occR c m x)

theorem phi_map (c : ℝ) (u : Fin n → ℝ) (X : Matrix (Conf n m) (Conf n m) ℝ) :
    phi ((hopR t m).map Complex.ofReal) (fun x => (occR c m x).map Complex.ofReal) u (X.map Complex.ofReal) = (phiR t c u X).map Complex.ofReal := by
  have hm : ∀ A B : Matrix (Conf n m) (Conf n m) ℝ, A.map Complex.ofReal * B.map Complex.ofReal = (A * B).map Complex.ofReal := fun A B =>
    (Matrix.map_mul (f := Complex.ofRealHom)).symm
  unfold phi phiR
  ext A B
  simp only [hm, Matrix.add_apply, Matrix.sum_apply, Matrix.smul_apply, Matrix.map_apply, smul_eq_mul, Complex.ofReal_add, Complex.ofReal_sum, Complex.ofReal_mul]

theorem trace_form {Z : Matrix (Conf n m) (Conf n m) ℂ} (hZ : Z.IsHermitian) (Y1 Y2 : Matrix (Conf n m) (Conf n m) ℝ) :
    (Z * (Y1.map Complex.ofReal + Complex.I • Y2.map Complex.ofReal)).trace.re = ∑ A, ∑ B, ((Z A B).re * Y1 A B + (Z A B).im * Y2 A B) := by
  rw [Matrix.trace, Complex.re_sum, Finset.sum_comm]
  refine Finset.sum_congr rfl fun A _ => ?_
  rw [Matrix.diag_apply, Matrix.mul_apply, Complex.re_sum]
  refine Finset.sum_congr rfl fun B _ => ?_
  have h1 : Z A B = (starRingEnd ℂ) (Z B A) := by
    have := congrFun (congrFun hZ.eq A) B
    rw [conjTranspose_apply] at this
    exact this.symm
  rw [h1, Matrix.add_apply, Matrix.smul_apply, Matrix.map_apply, Matrix.map_apply, smul_eq_mul]
  simp [Complex.mul_re]

theorem re_im (Z : Matrix (Conf n m) (Conf n m) ℂ) : Z = (Z.map Complex.re).map Complex.ofReal + Complex.I • (Z.map Complex.im).map Complex.ofReal := by
  ext A B
  simp only [Matrix.add_apply, Matrix.smul_apply, Matrix.map_apply, smul_eq_mul]
  rw [mul_comm]; exact (Complex.re_add_im _).symm

theorem phiR_transpose (ht : ∀ i j, t i j = t j i) (c : ℝ) (u : Fin n → ℝ) (X : Matrix (Conf n m) (Conf n m) ℝ) : phiR t c u Xᵀ = (phiR t c u X)ᵀ := by
  have hk : (hopR t m)ᵀ = hopR t m := by
    ext A B
    show oneHop t B.1 A.1 = oneHop t A.1 B.1
    rw [oneHop_elem, oneHop_elem, Finset.sum_comm]
    refine Finset.sum_congr rfl fun i _ => Finset.sum_congr rfl fun j _ => ?_
    rw [ht j i]
    congr 1
    have : (cre ℝ j * ann ℝ i) = (cre ℝ i * ann ℝ j)ᵀ := by
      rw [Matrix.transpose_mul]
      rfl
    rw [this, Matrix.transpose_apply]
  have hl : ∀ x : Fin n, (occR c m x)ᵀ = occR c m x := fun x => by unfold occR; rw [Matrix.diagonal_transpose]
  unfold phiR
  rw [transpose_add, transpose_add, transpose_mul, transpose_mul, hk, transpose_sum, add_comm (Xᵀ * hopR t m)]
  congr 1
  refine Finset.sum_congr rfl fun x _ => ?_
  rw [transpose_smul, transpose_mul, transpose_mul, hl, Matrix.mul_assoc]

theorem phiR_add (c : ℝ) (u : Fin n → ℝ) (X Y : Matrix (Conf n m) (Conf n m) ℝ) : phiR t c u (X + Y) = phiR t c u X + phiR t c u Y := by
  unfold phiR
  simp only [Matrix.mul_add, Matrix.add_mul, smul_add, Finset.sum_add_distrib]
  abel

theorem phiR_smul (c : ℝ) (u : Fin n → ℝ) (r : ℝ) (X : Matrix (Conf n m) (Conf n m) ℝ) : phiR t c u (r • X) = r • phiR t c u X := by
  unfold phiR
  simp only [Matrix.mul_smul, Matrix.smul_mul, smul_add, Finset.smul_sum]
  congr 1
  exact Finset.sum_congr rfl fun x _ => smul_comm _ _ _

theorem swap_sum (X Y : Matrix (Conf n m) (Conf n m) ℝ) : ∑ A, ∑ B, X B A * Y B A = ∑ A, ∑ B, X A B * Y A B := Finset.sum_comm

/-- Real version: the amplitudes of paired configurations in a ground state have one strict sign. -/
theorem real_definite (ht : ∀ i j, t i j = t j i) (hc : ∀ i j, Relation.ReflTransGen (fun k l : Fin n => t l k ≠ 0 ∧ k ≠ l) i j) {c e : ℝ} {u : Fin n → ℝ} (hu : ∀ x, u x < 0)
    (hmin : ∀ X : Matrix (Conf n m) (Conf n m) ℝ, e * ∑ A, ∑ B, X A B * X A B ≤ ∑ A, ∑ B, X A B * phiR t c u X A B) {X : Matrix (Conf n m) (Conf n m) ℝ}
    (hE : ∑ A, ∑ B, X A B * phiR t c u X A B ≤ e * ∑ A, ∑ B, X A B * X A B) : X = 0 ∨ (∀ A, 0 < X A A) ∨ ∀ A, X A A < 0 := by
  have hsymK : (hopR t m)ᵀ = hopR t m := by
    ext A B
    show oneHop t B.1 A.1 = oneHop t A.1 B.1
    rw [oneHop_elem, oneHop_elem, Finset.sum_comm]
    refine Finset.sum_congr rfl fun i _ => Finset.sum_congr rfl fun j _ => ?_
    rw [ht j i]
    congr 1
    have : (cre ℝ j * ann ℝ i) = (cre ℝ i * ann ℝ j)ᵀ := by
      rw [Matrix.transpose_mul]
      rfl
    rw [this, Matrix.transpose_apply]
  have hherm : ∀ {M : Matrix (Conf n m) (Conf n m) ℝ}, Mᵀ = M → (M.map Complex.ofReal).IsHermitian := fun {M} hM => by
    ext A B
    rw [conjTranspose_apply, Matrix.map_apply, Matrix.map_apply, Complex.star_def, Complex.conj_ofReal]
    exact congrArg _ (congrFun (congrFun hM A) B)
  have hK := hherm hsymK
  have hL : ∀ x : Fin n, ((occR c m x).map Complex.ofReal).IsHermitian := fun x => hherm (by unfold occR; rw [Matrix.diagonal_transpose])
  have hen : ∀ Z : Matrix (Conf n m) (Conf n m) ℂ, Z.IsHermitian →
      (Z * phi ((hopR t m).map Complex.ofReal) (fun x => (occR c m x).map Complex.ofReal) u Z).trace.re =
        ∑ A, ∑ B, ((Z A B).re * phiR t c u (Z.map Complex.re) A B + (Z A B).im * phiR t c u (Z.map Complex.im) A B) := fun Z hZ => by
    conv_lhs => rw [re_im Z, phi_add, phi_smul, phi_map, phi_map, ← re_im Z]
    exact trace_form hZ _ _
  have hno : ∀ Z : Matrix (Conf n m) (Conf n m) ℂ, Z.IsHermitian → (Z * Z).trace.re = ∑ A, ∑ B, ((Z A B).re * (Z A B).re + (Z A B).im * (Z A B).im) := fun Z hZ => by
    conv_lhs => rw [show Z * Z = Z * ((Z.map Complex.re).map Complex.ofReal + Complex.I • (Z.map Complex.im).map Complex.ofReal) by rw [← re_im]]
    exact trace_form hZ _ _
  set S : Matrix (Conf n m) (Conf n m) ℝ := (1 / 2 : ℝ) • (X + Xᵀ) with hS
  set M : Matrix (Conf n m) (Conf n m) ℝ := (1 / 2 : ℝ) • (X + (-1 : ℝ) • Xᵀ) with hM
  set Z : Matrix (Conf n m) (Conf n m) ℂ := S.map Complex.ofReal + Complex.I • M.map Complex.ofReal with hZd
  have hre : Z.map Complex.re = S := by ext A B; simp [hZd]
  have him : Z.map Complex.im = M := by ext A B; simp [hZd]
  have hreA : ∀ A B, (Z A B).re = S A B := fun A B => congrFun (congrFun hre A) B
  have himA : ∀ A B, (Z A B).im = M A B := fun A B => congrFun (congrFun him A) B
  have hZ : Z.IsHermitian := by
    ext A B
    rw [conjTranspose_apply]
    refine Complex.ext ?_ ?_
    · rw [Complex.star_def, Complex.conj_re, hreA, hreA]
      simp only [hS, Matrix.smul_apply, Matrix.add_apply, Matrix.transpose_apply, smul_eq_mul]; ring
    · rw [Complex.star_def, Complex.conj_im, himA, himA]
      simp only [hM, Matrix.smul_apply, Matrix.add_apply, Matrix.transpose_apply, smul_eq_mul]; ring
  have key : ∀ Y : Matrix (Conf n m) (Conf n m) ℝ, ∑ A, ∑ B, ((1 / 2 * (X A B + X B A)) * (1 / 2 * (Y A B + Y B A)) + (1 / 2 * (X A B - X B A)) * (1 / 2 * (Y A B - Y B A))) = ∑ A, ∑ B, X A B * Y A B := fun Y => by
    have h1 : ∀ A B, (1 / 2 * (X A B + X B A)) * (1 / 2 * (Y A B + Y B A)) + (1 / 2 * (X A B - X B A)) * (1 / 2 * (Y A B - Y B A)) = 1 / 2 * (X A B * Y A B) + 1 / 2 * (X B A * Y B A) := fun A B => by ring
    simp only [h1, Finset.sum_add_distrib, ← Finset.mul_sum]
    rw [swap_sum]; ring
  have hE1 : (Z * phi ((hopR t m).map Complex.ofReal) (fun x => (occR c m x).map Complex.ofReal) u Z).trace.re = ∑ A, ∑ B, X A B * phiR t c u X A B := by
    rw [hen Z hZ, hre, him, ← key]
    refine Finset.sum_congr rfl fun A _ => Finset.sum_congr rfl fun B _ => ?_
    rw [hreA, himA, hS, hM, phiR_smul, phiR_smul, phiR_add, phiR_add, phiR_smul, phiR_transpose ht]
    simp only [Matrix.smul_apply, Matrix.add_apply, Matrix.transpose_apply, smul_eq_mul]; ring
  have hE2 : (Z * Z).trace.re = ∑ A, ∑ B, X A B * X A B := by
    rw [hno Z hZ, ← key]
    refine Finset.sum_congr rfl fun A _ => Finset.sum_congr rfl fun B _ => ?_
    rw [hreA, himA, hS, hM]
    simp only [Matrix.smul_apply, Matrix.add_apply, Matrix.transpose_apply, smul_eq_mul]; ring
  have hdiag : ∀ A, (Z A A).re = X A A := fun A => by
    rw [hreA, hS]; simp only [Matrix.smul_apply, Matrix.add_apply, Matrix.transpose_apply, smul_eq_mul]; ring
  have hmin' : ∀ Y : Matrix (Conf n m) (Conf n m) ℂ, Y.IsHermitian → e * (Y * Y).trace.re ≤
      (Y * phi ((hopR t m).map Complex.ofReal) (fun x => (occR c m x).map Complex.ofReal) u Y).trace.re := fun Y hY => by
    rw [hen Y hY, hno Y hY]
    simp only [Finset.sum_add_distrib]
    have h1 := hmin (Y.map Complex.re)
    have h2 := hmin (Y.map Complex.im)
    simp only [Matrix.map_apply] at h1 h2
    rw [mul_add]
    exact add_le_add h1 h2
  rcases definite hK hL hu (irreducible hc c m) (e := e) hmin' hZ (by rw [hE1, hE2]; exact hE) with h | h | h
  · left
    ext A B
    have h1 := hreA A B
    have h2 := himA A B
    rw [h] at h1 h2
    simp only [hS, hM, Matrix.zero_apply, Complex.zero_re, Complex.zero_im, Matrix.smul_apply, Matrix.add_apply, Matrix.transpose_apply, smul_eq_mul] at h1 h2
    rw [Matrix.zero_apply]
    linarith
  · exact Or.inr (Or.inl fun A => hdiag A ▸ h A)
  · exact Or.inr (Or.inr fun A => hdiag A ▸ h A)

end Edpyt.Lieb
