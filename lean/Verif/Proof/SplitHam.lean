import Verif.Proof.Decouple
import Verif.Props.GreenStable
import Verif.Spec.Split
/-!
The Hamiltonian of an input with two groups of modes is the sum of the Hamiltonians of the groups.
-/
namespace Edpyt
open Edpyt.Spec Matrix

section
variable {n : ℕ}

/-- The Hamiltonian from its elements. -/
noncomputable def genHam (hf : Bool) (t : Bool → Fin n → Fin n → ℝ) (z : Fin n → ℝ) (V Jx Jp : Fin n → Fin n → ℝ) : Matrix (Finset (Fin (n + n))) (Finset (Fin (n + n))) ℝ :=
  hubbard hf t z V + (exchangeSame Jx - exchangeFlip Jx + pairHopping Jp)

theorem half_add {F : Fin n → Fin n → Matrix (Finset (Fin (n + n))) (Finset (Fin (n + n))) ℝ} (J J' : Fin n → Fin n → ℝ) :
    (1 / 2 : ℝ) • ∑ i, ∑ j, (J i j + J' i j) • F i j = (1 / 2 : ℝ) • ∑ i, ∑ j, J i j • F i j + (1 / 2 : ℝ) • ∑ i, ∑ j, J' i j • F i j := by
  simp only [add_smul, Finset.sum_add_distrib, smul_add]

theorem genHam_add (hf : Bool) (t t' : Bool → Fin n → Fin n → ℝ) (z : Fin n → ℝ) (V V' Jx Jx' Jp Jp' : Fin n → Fin n → ℝ) :
    genHam hf (fun s i j => t s i j + t' s i j) z (fun i j => V i j + V' i j) (fun i j => Jx i j + Jx' i j) (fun i j => Jp i j + Jp' i j) =
      genHam hf t z V Jx Jp + genHam hf t' z V' Jx' Jp' := by
  have h1 : kinetic (fun s i j => t s i j + t' s i j) = kinetic t + kinetic t' := by
    unfold kinetic; simp only [add_smul, Finset.sum_add_distrib]
  have h2 : onsiteU hf (fun i j => V i j + V' i j) = onsiteU hf V + onsiteU hf V' := by
    unfold onsiteU; simp only [add_smul, Finset.sum_add_distrib]
  have h3 : interSite z (fun i j => V i j + V' i j) = interSite z V + interSite z V' := by
    unfold interSite
    rw [← half_add]
    refine congrArg _ (Finset.sum_congr rfl fun i _ => Finset.sum_congr rfl fun j _ => ?_)
    by_cases h : i = j <;> simp [h]
  have h4 : exchangeSame (fun i j => Jx i j + Jx' i j) = exchangeSame Jx + exchangeSame Jx' := half_add _ _
  have h5 : exchangeFlip (fun i j => Jx i j + Jx' i j) = exchangeFlip Jx + exchangeFlip Jx' := half_add _ _
  have h6 : pairHopping (fun i j => Jp i j + Jp' i j) = pairHopping Jp + pairHopping Jp' := half_add _ _
  unfold genHam hubbard
  rw [h1, h2, h3, h4, h5, h6]
  abel

theorem half_mem {C : Fin (n + n) → Prop} {F : Fin n → Fin n → Matrix (Finset (Fin (n + n))) (Finset (Fin (n + n))) ℝ} {J : Fin n → Fin n → ℝ}
    (h : ∀ i j, J i j ≠ 0 → F i j ∈ evenAlg C) : (1 / 2 : ℝ) • ∑ i, ∑ j, J i j • F i j ∈ evenAlg C := by
  refine Subalgebra.smul_mem _ (Subalgebra.sum_mem _ fun i _ => Subalgebra.sum_mem _ fun j _ => ?_) _
  by_cases h0 : J i j = 0
  · rw [h0, zero_smul]; exact Subalgebra.zero_mem _
  · exact Subalgebra.smul_mem _ (h i j h0) _

section
variable {C : Fin (n + n) → Prop}

theorem mem_ca {i j : Fin (n + n)} (hi : C i) (hj : C j) : cre ℝ i * ann ℝ j ∈ evenAlg C := Algebra.subset_adjoin ⟨i, j, hi, hj, .inl rfl⟩
theorem mem_cc {i j : Fin (n + n)} (hi : C i) (hj : C j) : cre ℝ i * cre ℝ j ∈ evenAlg C := Algebra.subset_adjoin ⟨i, j, hi, hj, .inr (.inl rfl)⟩
theorem mem_aa {i j : Fin (n + n)} (hi : C i) (hj : C j) : ann ℝ i * ann ℝ j ∈ evenAlg C := Algebra.subset_adjoin ⟨i, j, hi, hj, .inr (.inr rfl)⟩

theorem mem_quad {i j k l : Fin (n + n)} (hi : C i) (hj : C j) (hk : C k) (hl : C l) : cre ℝ i * cre ℝ j * ann ℝ k * ann ℝ l ∈ evenAlg C := by
  rw [Matrix.mul_assoc]
  exact Subalgebra.mul_mem _ (mem_cc hi hj) (mem_aa hk hl)

theorem genHam_mem (hf : Bool) {t : Bool → Fin n → Fin n → ℝ} (z : Fin n → ℝ) {V Jx Jp : Fin n → Fin n → ℝ}
    (ht : ∀ s i j, t s i j ≠ 0 → C (orb s i) ∧ C (orb s j)) (hV : ∀ i j, V i j ≠ 0 → ∀ s, C (orb s i) ∧ C (orb s j))
    (hx : ∀ i j, Jx i j ≠ 0 → ∀ s, C (orb s i) ∧ C (orb s j)) (hp : ∀ i j, Jp i j ≠ 0 → ∀ s, C (orb s i) ∧ C (orb s j)) : genHam hf t z V Jx Jp ∈ evenAlg C := by
  have one : ∀ c : ℝ, c • (1 : Matrix (Finset (Fin (n + n))) (Finset (Fin (n + n))) ℝ) ∈ evenAlg C := fun c => Subalgebra.smul_mem _ (Subalgebra.one_mem _) _
  have hnum : ∀ {i : Fin (n + n)}, C i → num ℝ i ∈ evenAlg C := fun hi => mem_ca hi hi
  unfold genHam hubbard
  refine Subalgebra.add_mem _ (Subalgebra.add_mem _ (Subalgebra.add_mem _ ?_ ?_) ?_) (Subalgebra.add_mem _ (Subalgebra.sub_mem _ ?_ ?_) ?_)
  · refine Subalgebra.sum_mem _ fun s _ => Subalgebra.sum_mem _ fun i _ => Subalgebra.sum_mem _ fun j _ => ?_
    by_cases h0 : t s i j = 0
    · rw [h0, zero_smul]; exact Subalgebra.zero_mem _
    · exact Subalgebra.smul_mem _ (mem_ca (ht s i j h0).1 (ht s i j h0).2) _
  · refine Subalgebra.sum_mem _ fun i _ => ?_
    by_cases h0 : V i i = 0
    · rw [h0, zero_smul]; exact Subalgebra.zero_mem _
    · exact Subalgebra.smul_mem _ (Subalgebra.mul_mem _ (Subalgebra.sub_mem _ (hnum (hV i i h0 false).1) (one _)) (Subalgebra.sub_mem _ (hnum (hV i i h0 true).1) (one _))) _
  · refine half_mem fun i j h0 => ?_
    have h1 : V i j ≠ 0 := fun h => h0 (by rw [h, ite_self])
    exact Subalgebra.mul_mem _ (Subalgebra.sub_mem _ (Subalgebra.add_mem _ (hnum (hV i j h1 false).1) (hnum (hV i j h1 true).1)) (one _))
      (Subalgebra.sub_mem _ (Subalgebra.add_mem _ (hnum (hV i j h1 false).2) (hnum (hV i j h1 true).2)) (one _))
  · exact half_mem fun i j h0 => Subalgebra.sum_mem _ fun s _ => mem_quad (hx i j h0 s).1 (hx i j h0 s).2 (hx i j h0 s).1 (hx i j h0 s).2
  · exact half_mem fun i j h0 => Subalgebra.sum_mem _ fun s _ => mem_quad (hx i j h0 s).1 (hx i j h0 (!s)).2 (hx i j h0 (!s)).1 (hx i j h0 s).2
  · exact half_mem fun i j h0 => Subalgebra.sum_mem _ fun s _ => mem_quad (hp i j h0 s).1 (hp i j h0 (!s)).1 (hp i j h0 (!s)).2 (hp i j h0 s).2

end

/-- The reference occupations matter only where there is an interaction. -/
theorem genHam_congr_z (hf : Bool) (t : Bool → Fin n → Fin n → ℝ) {z z' : Fin n → ℝ} {V : Fin n → Fin n → ℝ} (Jx Jp : Fin n → Fin n → ℝ)
    (h : ∀ i j, V i j ≠ 0 → z i = z' i ∧ z j = z' j) : genHam hf t z V Jx Jp = genHam hf t z' V Jx Jp := by
  unfold genHam hubbard
  have : interSite z V = interSite z' V := by
    unfold interSite
    refine congrArg _ (Finset.sum_congr rfl fun i _ => Finset.sum_congr rfl fun j _ => ?_)
    by_cases h0 : V i j = 0
    · rw [h0, ite_self, zero_smul, zero_smul]
    · rw [(h i j h0).1, (h i j h0).2]
  rw [this]

end

/-- One group of an input, as an input. -/
noncomputable def HamArgs.part (a : HamArgs) (col : Bool → ℕ → Bool) (b : Bool) : HamArgs :=
  { a with
    H := fun s i j => if i = j then (if col (decide (s = 1)) i = b then a.H s i i else -a.mu) else if col (decide (s = 1)) i = b ∧ col (decide (s = 1)) j = b then a.H s i j else 0
    V := ⟨a.V.U.map fun A i j => if col false i = b ∧ col false j = b then A i j else 0, a.V.Jx.map fun A i j => if col false i = b ∧ col false j = b then A i j else 0,
      a.V.Jp.map fun A i j => if col false i = b ∧ col false j = b then A i j else 0⟩ }

/-- Its Hamiltonian, on the Fock space of the whole input. -/
noncomputable def HamArgs.partHam (a : HamArgs) (col : Bool → ℕ → Bool) (b : Bool) : Matrix (Finset (Fin (a.n + a.n))) (Finset (Fin (a.n + a.n))) ℝ := (a.part col b).ham

section
variable {a : HamArgs} {col : Bool → ℕ → Bool}

theorem HamArgs.Valid.part (ha : a.Valid) (b : Bool) : (a.part col b).Valid where
  two_le := ha.two_le
  le := ha.le
  hU := by simpa [HamArgs.part] using ha.hU
  symmH s i j hi hj := by
    simp only [HamArgs.part]
    by_cases h : i = j
    · rw [h]
    · rw [if_neg h, if_neg (Ne.symm h), ha.symmH s i j hi hj]; simp only [and_comm]
  symmX A hA i j hi hj := by
    simp only [HamArgs.part, Option.mem_def, Option.map_eq_some_iff] at hA
    obtain ⟨B, hB, rfl⟩ := hA
    simp only [ha.symmX B hB i j hi hj, and_comm]
  symmP A hA i j hi hj := by
    simp only [HamArgs.part, Option.mem_def, Option.map_eq_some_iff] at hA
    obtain ⟨B, hB, rfl⟩ := hA
    simp only [ha.symmP B hB i j hi hj, and_comm]
  hJ h := by
    simp only [HamArgs.part, Option.map_eq_none_iff] at h ⊢
    exact ha.hJ h

theorem offdiag_mask {n : ℕ} (J : Option (ℕ → ℕ → ℝ)) (P : ℕ → ℕ → Prop) [∀ i j, Decidable (P i j)] (i j : Fin n) :
    offdiag (n := n) (optMat (J.map fun A i j => if P i j then A i j else 0)) i j = if P i j then offdiag (n := n) (optMat J) i j else 0 := by
  cases J with
  | none => simp [optMat, offdiag]
  | some A =>
    simp only [optMat, offdiag, Option.map_some, Option.getD_some]
    by_cases h : P i j
    · simp [h]
    · simp [h]

theorem part_ham (b : Bool) : a.partHam col b = genHam (n := a.n) a.hf
    (fun s (i j : Fin a.n) => if col s i = b ∧ col s j = b then kept (n := a.n) a.mu (a.H (if s then 1 else 0)) i j else 0) (fun i => (a.z.getD fun _ => if a.hf then 1 else 0) i)
    (fun i j : Fin a.n => if col false i = b ∧ col false j = b then a.V.U.getD 0 i j else 0)
    (fun i j : Fin a.n => if col false i = b ∧ col false j = b then offdiag (n := a.n) (optMat a.V.Jx) i j else 0)
    (fun i j : Fin a.n => if col false i = b ∧ col false j = b then offdiag (n := a.n) (optMat a.V.Jp) i j else 0) := by
  have h1 : (fun s : Bool => kept (n := a.n) a.mu ((a.part col b).H (if s then 1 else 0))) =
      fun s (i j : Fin a.n) => if col s i = b ∧ col s j = b then kept (n := a.n) a.mu (a.H (if s then 1 else 0)) i j else 0 := by
    funext s i j
    have hs : decide ((if s then 1 else 0 : ℕ) = 1) = s := by cases s <;> rfl
    rw [kept_apply, kept_apply]
    simp only [HamArgs.part, hs]
    by_cases h : i = j
    · subst h
      by_cases hc : col s i = b <;> simp [hc]
    · have h' : (i : ℕ) ≠ j := fun e => h (Fin.ext e)
      by_cases hc : col s i = b ∧ col s j = b
      · simp [h, h', hc]
      · simp [h, h', hc]
  have h2 : (fun i j : Fin a.n => (a.part col b).V.U.getD 0 i j) = fun i j : Fin a.n => if col false i = b ∧ col false j = b then a.V.U.getD 0 i j else 0 := by
    funext i j
    simp only [HamArgs.part]
    cases a.V.U <;> simp
  have h3 : offdiag (n := a.n) (optMat (a.part col b).V.Jx) = fun i j : Fin a.n => if col false i = b ∧ col false j = b then offdiag (n := a.n) (optMat a.V.Jx) i j else 0 := by
    funext i j
    exact offdiag_mask a.V.Jx (fun i j => col false i = b ∧ col false j = b) i j
  have h4 : offdiag (n := a.n) (optMat (a.part col b).V.Jp) = fun i j : Fin a.n => if col false i = b ∧ col false j = b then offdiag (n := a.n) (optMat a.V.Jp) i j else 0 := by
    funext i j
    exact offdiag_mask a.V.Jp (fun i j => col false i = b ∧ col false j = b) i j
  unfold HamArgs.partHam HamArgs.ham codeExchange genHam
  change hubbard a.hf (fun s : Bool => kept (n := a.n) a.mu ((a.part col b).H (if s then 1 else 0))) _ (fun i j : Fin a.n => (a.part col b).V.U.getD 0 i j) +
    (exchangeSame (offdiag (n := a.n) (optMat (a.part col b).V.Jx)) - exchangeFlip (offdiag (n := a.n) (optMat (a.part col b).V.Jx)) + pairHopping (offdiag (n := a.n) (optMat (a.part col b).V.Jp))) = _
  rw [h1, h2, h3, h4]
  rfl

/-- The mode belongs to the group. -/
def InGroup (n : ℕ) (col : Bool → ℕ → Bool) (b : Bool) (m : Fin (n + n)) : Prop := ∃ (s : Bool) (i : Fin n), m = orb s i ∧ col s i = b

theorem inGroup_orb {n : ℕ} {b : Bool} {s : Bool} {i : Fin n} : InGroup n col b (orb s i) ↔ col s i = b := by
  constructor
  · rintro ⟨s', i', h, hc⟩
    obtain ⟨rfl, rfl⟩ := orb_inj.mp h
    exact hc
  · exact fun h => ⟨s, i, rfl, h⟩

theorem exists_orb {n : ℕ} (m : Fin (n + n)) : ∃ (s : Bool) (i : Fin n), m = orb s i := by
  by_cases h : (m : ℕ) < n
  · exact ⟨false, ⟨m, h⟩, by ext; simp [orb]⟩
  · exact ⟨true, ⟨m - n, by omega⟩, by ext; simp [orb]; omega⟩

theorem inGroup_not {n : ℕ} {m : Fin (n + n)} : InGroup n col false m ↔ ¬ InGroup n col true m := by
  obtain ⟨s, i, rfl⟩ := exists_orb m
  rw [inGroup_orb, inGroup_orb]
  cases col s i <;> simp

theorem offdiag_ne {n : ℕ} {A : ℕ → ℕ → ℝ} {i j : Fin n} (h : offdiag (n := n) A i j ≠ 0) : (i : ℕ) ≠ j ∧ 1 / 10 ^ 7 < |A i j| := by
  unfold offdiag at h
  split_ifs at h with h1
  · exact ⟨fun e => h1.1 (Fin.ext e), h1.2⟩
  · exact absurd rfl h

theorem Spec.Splits.J {J : Option (ℕ → ℕ → ℝ)} {n : ℕ} (h : ∀ (A : ℕ → ℕ → ℝ), J = some A → ∀ i j : ℕ, i < n → j < n → i ≠ j → 1 / 10 ^ 7 < |A i j| → ∀ s s', col s i = col s' j)
    (i j : Fin n) (h0 : offdiag (n := n) (optMat J) i j ≠ 0) (s s' : Bool) : col s i = col s' j := by
  cases J with
  | none => simp [optMat, offdiag] at h0
  | some A =>
    obtain ⟨h1, h2⟩ := offdiag_ne h0
    exact h A rfl i j i.2 j.2 h1 h2 s s'

theorem Spec.Splits.hop' (h : Splits a col) (s : Bool) (i j : Fin a.n) (h0 : kept (n := a.n) a.mu (a.H (if s then 1 else 0)) i j ≠ 0) : col s i = col s j := by
  rw [kept_apply] at h0
  by_cases hij : i = j
  · rw [hij]
  · rw [if_neg hij] at h0
    by_cases h1 : |a.H (if s then 1 else 0) i j| > 1 / 10 ^ 7
    · exact h.hop s i j i.2 j.2 h1
    · rw [if_neg h1] at h0; exact absurd rfl h0

theorem Spec.Splits.U' (h : Splits a col) (i j : Fin a.n) (h0 : a.V.U.getD 0 i j ≠ 0) (s s' : Bool) : col s i = col s' j := by
  cases hU : a.V.U with
  | none => rw [hU] at h0; simp at h0
  | some A => rw [hU] at h0; exact h.U A hU i j i.2 j.2 h0 s s'

theorem mask_sum {x : ℝ} {c d : Bool} (h : x ≠ 0 → c = d) : x = (if c = true ∧ d = true then x else 0) + if c = false ∧ d = false then x else 0 := by
  by_cases h0 : x = 0
  · simp [h0]
  · rw [h h0]; cases d <;> simp

theorem Spec.Splits.ham (h : Splits a col) : a.ham = a.partHam col true + a.partHam col false := by
  rw [part_ham, part_ham]
  refine Eq.trans ?_ (genHam_add (n := a.n) _ _ _ _ _ _ _ _ _ _)
  unfold HamArgs.ham codeExchange genHam
  congr 1
  · congr 1
    · funext s i j
      exact mask_sum (h.hop' s i j)
    · funext i j
      exact mask_sum fun h0 => h.U' i j h0 false false
  · congr 2
    · congr 1
      funext i j
      exact mask_sum fun h0 => Spec.Splits.J h.Jx i j h0 false false
    · congr 1
      funext i j
      exact mask_sum fun h0 => Spec.Splits.J h.Jx i j h0 false false
    · funext i j
      exact mask_sum fun h0 => Spec.Splits.J h.Jp i j h0 false false

theorem partHam_symm (ha : a.Valid) (b : Bool) : (a.partHam col b).IsSymm := ham_symm (ha.part (col := col) b)

theorem Spec.Splits.mem (h : Splits a col) (b : Bool) : a.partHam col b ∈ evenAlg (InGroup a.n col b) := by
  rw [part_ham]
  have key : ∀ {f : Fin a.n → Fin a.n → ℝ}, (∀ i j, f i j ≠ 0 → ∀ s s', col s i = col s' j) → ∀ i j : Fin a.n, (if col false i = b ∧ col false j = b then f i j else 0) ≠ 0 →
      ∀ s, InGroup a.n col b (orb s i) ∧ InGroup a.n col b (orb s j) := by
    intro f hf i j h0 s
    split_ifs at h0 with h1
    · exact ⟨inGroup_orb.mpr ((hf i j h0 s false).trans h1.2), inGroup_orb.mpr ((hf i j h0 false s).symm.trans h1.1)⟩
    · exact absurd rfl h0
  refine genHam_mem _ _ (fun s i j h0 => ?_) (key h.U') (key fun i j h0 => Spec.Splits.J h.Jx i j h0) (key fun i j h0 => Spec.Splits.J h.Jp i j h0)
  by_cases h1 : col s i = b ∧ col s j = b
  · exact ⟨inGroup_orb.mpr h1.1, inGroup_orb.mpr h1.2⟩
  · rw [if_neg h1] at h0; exact absurd rfl h0

end
end Edpyt
