import Verif.Model.NonLocal
import Verif.Proof.Hopping
import Verif.Proof.TwoSpin
import Mathlib.Tactic.LinearCombination
import Mathlib.Tactic.FieldSimp
import Mathlib.Tactic.Abel
/-!
Lemmas about `ham_non_local.py`.
-/
namespace Edpyt
open Spec

/-! ### Specification identities -/
section spec
variable {K : Type} [Field K] {n : ℕ}

theorem add_rot {M : Type} [AddCommMonoid M] (a b c d : M) : a + b + (c + d) = a + d + (b + c) := by abel

theorem exchange_split_gen {M : Type} [AddCommGroup M] [Module K M] (c : K) (J : Fin n → Fin n → K)
    (f : Fin n → Fin n → Bool → Bool → M) :
    c • ∑ i, ∑ j, J i j • ∑ s : Bool, ∑ s' : Bool, f i j s s' =
      (c • ∑ i, ∑ j, J i j • ∑ s : Bool, f i j s s) + c • ∑ i, ∑ j, J i j • ∑ s : Bool, f i j s (!s) := by
  rw [← smul_add, ← Finset.sum_add_distrib]
  congr 1
  apply Finset.sum_congr rfl; intro i _
  rw [← Finset.sum_add_distrib]
  apply Finset.sum_congr rfl; intro j _
  rw [← smul_add]
  congr 1
  simp only [Fintype.sum_bool, Bool.not_true, Bool.not_false]
  exact add_rot _ _ _ _

theorem half_two [CharZero K] {M : Type} [AddCommGroup M] [Module K M] (a : K) (x : M) :
    (1 / 2 : K) • a • (x + x) = a • x := by
  have h2 : (2 : K) ≠ 0 := by exact_mod_cast (two_ne_zero : (2 : ℕ) ≠ 0)
  rw [← two_smul K, smul_smul, smul_smul]
  congr 1; field_simp

theorem exchange_split (J : Fin n → Fin n → K) : spinExchange J = exchangeSame J + exchangeFlip J :=
  exchange_split_gen (1 / 2 : K) J fun i j s s' =>
    cre K (orb s i) * cre K (orb s' j) * ann K (orb s' i) * ann K (orb s j)

theorem pairHopping_eq [CharZero K] (J : Fin n → Fin n → K) :
    pairHopping J = ∑ i, ∑ j, J i j • lift2 (cre K i * ann K j) (cre K i * ann K j) := by
  have h2 : (2 : K) ≠ 0 := by exact_mod_cast (two_ne_zero : (2 : ℕ) ≠ 0)
  unfold pairHopping
  rw [Finset.smul_sum]
  apply Finset.sum_congr rfl; intro i _
  rw [Finset.smul_sum]
  apply Finset.sum_congr rfl; intro j _
  simp only [Fintype.sum_bool, Bool.not_true, Bool.not_false, quad_up_dw, quad_dw_up]
  exact half_two _ _

theorem exchangeFlip_eq [CharZero K] (J : Fin n → Fin n → K) (hJ : ∀ i j, J i j = J j i) :
    exchangeFlip J = ∑ i, ∑ j, J i j • lift2 (cre K i * ann K j) (cre K j * ann K i) := by
  have h2 : (2 : K) ≠ 0 := by exact_mod_cast (two_ne_zero : (2 : ℕ) ≠ 0)
  unfold exchangeFlip
  simp only [Fintype.sum_bool, Bool.not_true, Bool.not_false, quad_up_dw, quad_dw_up, smul_add,
    Finset.sum_add_distrib]
  rw [Finset.sum_comm (f := fun i j => J i j • lift2 (cre K j * ann K i) (cre K i * ann K j))]
  have e : (∑ y, ∑ x, J x y • lift2 (cre K y * ann K x) (cre K x * ann K y)) =
      ∑ i, ∑ j, J i j • lift2 (cre K i * ann K j) (cre K j * ann K i) := by
    apply Finset.sum_congr rfl; intro i _
    apply Finset.sum_congr rfl; intro j _
    rw [hJ]
  rw [e, ← add_smul]
  have : (1 / 2 + 1 / 2 : K) = 1 := by field_simp; norm_num
  rw [this, one_smul]

theorem exchangeSame_eq (J : Fin n → Fin n → K) (hJ : ∀ i, J i i = 0) :
    exchangeSame J = (-(1 / 2) : K) • ∑ i, ∑ j, J i j • ∑ s : Bool, num K (orb s i) * num K (orb s j) := by
  unfold exchangeSame
  rw [neg_smul, ← smul_neg]
  congr 1
  rw [← Finset.sum_neg_distrib]
  apply Finset.sum_congr rfl; intro i _
  rw [← Finset.sum_neg_distrib]
  apply Finset.sum_congr rfl; intro j _
  by_cases h : i = j
  · subst h; simp [hJ]
  · rw [← smul_neg, ← Finset.sum_neg_distrib]
    congr 1
    apply Finset.sum_congr rfl; intro s _
    apply quad_same
    unfold orb
    cases s <;> simp [Fin.ext_iff] <;> (intro h'; exact h (Fin.ext h'))

theorem exchangeSame_occ2 (J : Fin n → Fin n → K) (hJ : ∀ i, J i i = 0) {tu td su sd : ℕ} (hs : su < 2 ^ n) :
    exchangeSame J (occ2 n tu td) (occ2 n su sd) = if occ2 n tu td = occ2 n su sd then
      -(1 / 2) * ∑ i, ∑ j, J i j *
        ((if su.testBit i ∧ su.testBit j then 1 else 0) + (if sd.testBit i ∧ sd.testBit j then 1 else 0)) else 0 := by
  rw [exchangeSame_eq J hJ, Matrix.smul_apply, Matrix.sum_apply, smul_eq_mul]
  have key : ∀ i j : Fin n, (J i j • ∑ s : Bool, num K (orb s i) * num K (orb s j)) (occ2 n tu td) (occ2 n su sd)
      = (if occ2 n tu td = occ2 n su sd then J i j *
        ((if su.testBit i ∧ su.testBit j then 1 else 0) + (if sd.testBit i ∧ sd.testBit j then 1 else 0)) else 0) := by
    intro i j
    have m1 : ∀ k : Fin n, (orb false k ∈ occ2 n su sd) ↔ su.testBit k = true := by
      intro k; rw [orb, if_neg (by simp), ← mem_upPart, upPart_occ2 hs, mem_occF]
    have m2 : ∀ k : Fin n, (orb true k ∈ occ2 n su sd) ↔ sd.testBit k = true := by
      intro k; rw [orb, if_pos rfl, ← mem_dwPart, dwPart_occ2 hs, mem_occF]
    rw [Matrix.smul_apply, Matrix.sum_apply, Fintype.sum_bool, mul_num_apply, mul_num_apply, num_apply, num_apply, smul_eq_mul]
    simp only [m1, m2]
    by_cases he : occ2 n tu td = occ2 n su sd
    · simp only [he, if_true]
      by_cases h1 : su.testBit i = true <;> by_cases h2 : su.testBit j = true <;> by_cases h3 : sd.testBit i = true <;>
        by_cases h4 : sd.testBit j = true <;> simp [h1, h2, h3, h4]
    · simp [he]
  simp only [Matrix.sum_apply, key]
  split_ifs with h
  · rfl
  · simp

end spec

/-! ### Counter driven filling -/
variable {K : Type} [Field K] [LinearOrder K]

/-- All elements contributed by one coupling matrix to one row. -/
def rowTerm (n : ℕ) (A : ℕ → ℕ → K) (ci cj : ℕ → Bool) (val : ℕ → ℕ → K) (pos : ℕ → ℕ → ℤ) : List (K × ℤ) :=
  (List.range n).flatMap fun i => (List.range n).flatMap fun j =>
    if keepElem A i j = true ∧ ci i = true ∧ cj j = true then [(val i j, pos i j)] else []

theorem rowTerm_emits {n : ℕ} (A : ℕ → ℕ → K) {T : Csr K} (hT : IsCsr T ((List.range n).map (keptRow n A)))
    (ci cj : ℕ → Bool) (val : ℕ → ℕ → K) (pos : ℕ → ℕ → ℤ)
    (body : ℕ → ℕ × Csr K → ℤ → Except PyErr (ℕ × Csr K)) (row : ℕ × Csr K → ℕ → Except PyErr (ℕ × Csr K))
    (hbody : ∀ i j (st : ℕ × Csr K) p, i < n → j < n → ci i = true → getItem T.indices p = .ok (j : ℤ) → getItem T.data p = .ok (A i j) →
      body i st p = if cj j = true then (do let m ← st.2.put st.1 (val i j) (pos i j); pure (st.1 + 1, m)) else pure st)
    (hrow : ∀ i st, i < n → row st i = if ci i = true then (do
      let lo ← getItem T.indptr i
      let hi ← getItem T.indptr (i + 1)
      forM' (body i) (pyRange lo hi) st) else pure st)
    (cap : ℕ) (P : List ℤ) (r c : ℕ) :
    Emits cap P r c (forM' row (List.range n)) (rowTerm n A ci cj val pos) := by
  apply emits_forM'
  intro i hi
  have hi : i < n := List.mem_range.mp hi
  simp only [hrow i _ hi]
  cases hc : ci i with
  | false =>
    simp only [Bool.false_eq_true, if_false, false_and, and_false]
    have : ((List.range n).flatMap fun _ => ([] : List (K × ℤ))) = [] := by simp
    rw [this]
    exact emits_pure _ _ _ _
  | true =>
    simp only [if_true, true_and]
    have hr : ((List.range n).map (keptRow n A))[i]'(by simpa using hi) = keptRow n A i := by simp
    have := emits_rowLoop (cap := cap) (P := P) (r := r) (c := c) hT i (by simpa using hi)
      (body i) (fun x => if cj x.2.toNat = true then [(val i x.2.toNat, pos i x.2.toNat)] else []) (by
        intro q x hx hd hix
        rw [hr, keptRow, List.mem_map] at hx
        obtain ⟨j, hj, rfl⟩ := hx
        have hjn : j < n := by simpa using (List.mem_filter.mp hj).1
        simp only at hd hix
        simp only [hbody i j _ (q : ℤ) hi hjn hc (getItem_of_getElem? hix) (getItem_of_getElem? hd), Int.toNat_natCast]
        cases hcj : cj j with
        | false => simp; exact emits_pure _ _ _ _
        | true => simp; exact emits_put _ _ _ _ _ _)
    rw [hr, keptRow, flatMap_filter_map] at this
    convert this using 2
    funext j
    simp only [Int.toNat_natCast]
    by_cases h1 : keepElem A i j = true <;> simp [h1]

theorem length_rowTerm (n : ℕ) (A : ℕ → ℕ → K) (ci cj : ℕ → Bool) (val : ℕ → ℕ → K) (pos : ℕ → ℕ → ℤ) :
    (rowTerm n A ci cj val pos).length = ∑ i ∈ Finset.range n, ∑ j ∈ Finset.range n,
      if keepElem A i j = true then (if ci i = true ∧ cj j = true then 1 else 0) else 0 := by
  unfold rowTerm
  rw [List.length_flatMap, sum_map_range]
  apply Finset.sum_congr rfl; intro i _
  rw [List.length_flatMap, sum_map_range]
  apply Finset.sum_congr rfl; intro j _
  by_cases h1 : keepElem A i j = true <;> by_cases h2 : ci i = true ∧ cj j = true <;> simp [h1, h2]

theorem sum_rowTerm (n : ℕ) (A : ℕ → ℕ → K) (ci cj : ℕ → Bool) (val : ℕ → ℕ → K) (pos : ℕ → ℕ → ℤ) (c : ℤ) :
    ((rowTerm n A ci cj val pos).map fun x => if x.2 = c then x.1 else 0).sum = ∑ i : Fin n, ∑ j : Fin n,
      if (i ≠ j ∧ |A i j| > 1 / 10 ^ 7) ∧ ci i = true ∧ cj j = true ∧ pos i j = c then val i j else 0 := by
  unfold rowTerm
  rw [sum_map_flatMap, sum_map_range, Finset.sum_range]
  apply Finset.sum_congr rfl; intro i _
  rw [sum_map_flatMap, sum_map_range, Finset.sum_range]
  apply Finset.sum_congr rfl; intro j _
  have hkeep : keepElem A i j = true ↔ (i ≠ j ∧ |A i j| > 1 / 10 ^ 7) := by
    unfold keepElem
    rw [Bool.and_eq_true, decide_eq_true_iff, decide_eq_true_iff]
    simp [Fin.ext_iff]
  simp only [← hkeep]
  by_cases h1 : keepElem A i j = true <;> by_cases h2 : ci i = true <;> by_cases h3 : cj j = true <;>
    by_cases h4 : pos i j = c <;> simp [h1, h2, h3, h4]

/-- Elements of the spin flip term. -/
def xEntries (bj n : ℕ) (up dw : List ℕ) (A : ℕ → ℕ → K) (sup sdw : ℕ) : List (K × ℤ) :=
  rowTerm n A (fun i => !sup.testBit i && sdw.testBit i) (fun j => sup.testBit j && !sdw.testBit j)
    (fun i j => -((cdgc sup i j).1 : K) * ((cdgc sdw j i).1 : K) * A i j)
    (fun i j => binsearch bj dw (cdgc sdw j i).2 * up.length + binsearch bj up (cdgc sup i j).2)

/-- Elements of the pair hopping term. -/
def pEntries (bj n : ℕ) (up dw : List ℕ) (A : ℕ → ℕ → K) (sup sdw : ℕ) : List (K × ℤ) :=
  rowTerm n A (fun i => !sup.testBit i && !sdw.testBit i) (fun j => sup.testBit j && sdw.testBit j)
    (fun i j => ((cdgc sup i j).1 : K) * ((cdgc sdw i j).1 : K) * A i j)
    (fun i j => binsearch bj dw (cdgc sdw i j).2 * up.length + binsearch bj up (cdgc sup i j).2)

theorem full_ne (s i : ℕ) : checkFull s i ≠ 0 ↔ s.testBit i = true := by
  rw [checkFull_eq]; cases s.testBit i <;> simp

theorem empty_ne (s i : ℕ) : checkEmpty s i ≠ 0 ↔ s.testBit i = false := by
  rw [checkEmpty_eq]; cases s.testBit i <;> simp

theorem xEntries_emits {bj n : ℕ} (up dw : List ℕ) (A : ℕ → ℕ → K) {T : Csr K}
    (hT : IsCsr T ((List.range n).map (keptRow n A))) (sup sdw : ℕ) (cap : ℕ) (P : List ℤ) (r c : ℕ) :
    Emits cap P r c (forM' (xRow bj up dw T sup sdw) (List.range n)) (xEntries bj n up dw A sup sdw) := by
  apply rowTerm_emits A hT _ _ _ _ (xElem bj up dw T sup sdw)
  · intro i j st p _ _ _ h1 h2
    simp only [xElem, h1, h2, bind, Except.bind, Int.toNat_natCast, full_ne, empty_ne]
    cases sup.testBit j <;> cases sdw.testBit j <;> simp
  · intro i st _
    simp only [xRow, full_ne, empty_ne]
    cases sup.testBit i <;> cases sdw.testBit i <;> simp

theorem pEntries_emits {bj n : ℕ} (up dw : List ℕ) (A : ℕ → ℕ → K) {T : Csr K}
    (hT : IsCsr T ((List.range n).map (keptRow n A))) (sup sdw : ℕ) (cap : ℕ) (P : List ℤ) (r c : ℕ) :
    Emits cap P r c (forM' (pRow bj up dw T sup sdw) (List.range n)) (pEntries bj n up dw A sup sdw) := by
  apply rowTerm_emits A hT _ _ _ _ (pElem bj up dw T sup sdw)
  · intro i j st p _ _ _ h1 h2
    simp only [pElem, h1, h2, bind, Except.bind, Int.toNat_natCast, full_ne]
    cases sup.testBit j <;> cases sdw.testBit j <;> simp
  · intro i st _
    simp only [pRow, empty_ne]
    cases sup.testBit i <;> cases sdw.testBit i <;> simp

theorem emits_bind {cap : ℕ} {P : List ℤ} {r c : ℕ} {f g : ℕ × Csr K → Except PyErr (ℕ × Csr K)}
    {E F : List (K × ℤ)} (hf : Emits cap P r c f E) (hg : Emits cap P r c g F) :
    Emits cap P r c (fun st => do let st ← f st; g st) (E ++ F) := by
  intro e st h hcap
  rw [List.length_append] at hcap
  obtain ⟨s1, h1, h2⟩ := hf e st h (by omega)
  obtain ⟨s2, h3, h4⟩ := hg _ s1 h2 (by rw [List.length_append]; omega)
  exact ⟨s2, by simp only [h1, bind, Except.bind, h3], by rwa [List.append_assoc] at h4⟩

/-- Elements of one row. -/
def nlEntries (bj n : ℕ) (up dw : List ℕ) (Jx Jp : Option (ℕ → ℕ → K)) (sup sdw : ℕ) : List (K × ℤ) :=
  (Jx.elim [] fun A => xEntries bj n up dw A sup sdw) ++ (Jp.elim [] fun A => pEntries bj n up dw A sup sdw)

/-- The compressed form of an optional matrix. -/
def IsComp (n : ℕ) : Option (ℕ → ℕ → K) → Option (Csr K) → Prop
  | none, none => True
  | some A, some T => IsCsr T ((List.range n).map (keptRow n A))
  | _, _ => False

/-- Number of kept elements. -/
def optNnz (n : ℕ) (J : Option (ℕ → ℕ → K)) : ℕ := J.elim 0 (countNnzOffdiag n)

theorem nlCompress_core (jk : Junk K) (n : ℕ) (J : Option (ℕ → ℕ → K)) :
    ∃ T, nlCompress jk n J = .ok (optNnz n J, T) ∧ IsComp n J T := by
  cases J with
  | none => exact ⟨none, rfl, trivial⟩
  | some A =>
    obtain ⟨T, h1, h2, -⟩ := nnzOffdiagCsrmat_core jk n A
    exact ⟨some T, by simp only [nlCompress, h1, bind, Except.bind]; rfl, h2⟩

theorem nlRowElems_emits {bj n : ℕ} (up dw : List ℕ) {Jx Jp : Option (ℕ → ℕ → K)} {Tx Tp : Option (Csr K)}
    (hx : IsComp n Jx Tx) (hp : IsComp n Jp Tp) (sup sdw : ℕ) (cap : ℕ) (P : List ℤ) (r c : ℕ) :
    Emits cap P r c (nlRowElems bj n up dw Tx Tp sup sdw) (nlEntries bj n up dw Jx Jp sup sdw) := by
  unfold nlEntries
  have h1 : Emits cap P r c (fun st => match Tx with
      | some T => forM' (xRow bj up dw T sup sdw) (List.range n) st
      | none => pure st) (Jx.elim [] fun A => xEntries bj n up dw A sup sdw) := by
    cases Jx <;> cases Tx <;> simp only [IsComp] at hx
    · exact emits_pure _ _ _ _
    · exact xEntries_emits up dw _ hx sup sdw cap P r c
  have h2 : Emits cap P r c (fun st => match Tp with
      | some T => forM' (pRow bj up dw T sup sdw) (List.range n) st
      | none => pure st) (Jp.elim [] fun A => pEntries bj n up dw A sup sdw) := by
    cases Jp <;> cases Tp <;> simp only [IsComp] at hp
    · exact emits_pure _ _ _ _
    · exact pEntries_emits up dw _ hp sup sdw cap P r c
  have := emits_bind h1 h2
  intro e st hw hcap
  obtain ⟨s, g1, g2⟩ := this e st hw hcap
  refine ⟨s, ?_, g2⟩
  rw [← g1]
  cases Tx <;> cases Tp <;> rfl

end Edpyt
