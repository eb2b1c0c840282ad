import Verif.Spec.CodeHam
import Verif.Spec.Hubbard
import Verif.Proof.Matvec
import Verif.Props.Hopping
import Verif.Props.Local
import Verif.Props.NonLocal
/-!
The many-body Hamiltonian as an operator on the whole Fock space.
-/
namespace Edpyt
open Spec

section diag
variable {K : Type} [Field K] {n : ℕ}

theorem num_diagonal {M : Type} [Fintype M] [LinearOrder M] (i : M) :
    num K i = Matrix.diagonal fun S => if i ∈ S then (1 : K) else 0 := by
  ext T S
  rw [num_apply, Matrix.diagonal_apply]
  by_cases h : T = S
  · subst h; simp
  · simp [h]

theorem orb_false_mem {su sd : ℕ} (hs : su < 2 ^ n) (k : Fin n) : (orb false k ∈ occ2 n su sd) ↔ su.testBit k = true := by
  rw [orb, if_neg (by simp), ← mem_upPart, upPart_occ2 hs, mem_occF]

theorem orb_true_mem {su sd : ℕ} (hs : su < 2 ^ n) (k : Fin n) : (orb true k ∈ occ2 n su sd) ↔ sd.testBit k = true := by
  rw [orb, if_pos rfl, ← mem_dwPart, dwPart_occ2 hs, mem_occF]

theorem smul_one_diagonal {M : Type} [DecidableEq M] (a : K) :
    a • (1 : Matrix M M K) = Matrix.diagonal fun _ => a := by
  rw [← Matrix.diagonal_one, ← Matrix.diagonal_smul]
  congr 1
  funext x; simp

theorem diagonal_sum {ι M : Type} [DecidableEq M] (s : Finset ι) (f : ι → M → K) :
    ∑ i ∈ s, Matrix.diagonal (f i) = Matrix.diagonal fun m => ∑ i ∈ s, f i m := by
  classical
  induction s using Finset.induction_on with
  | empty => simp
  | insert a s ha ih => rw [Finset.sum_insert ha, ih, Matrix.diagonal_add]; congr 1; funext m; rw [Finset.sum_insert ha]

/-- Eigenvalue of the interaction in the state `S`. -/
def onsiteVal (hf : Bool) (V : Fin n → Fin n → K) (S : Finset (Fin (n + n))) : K :=
  ∑ i, V i i * (((if orb false i ∈ S then 1 else 0) - (if hf then 1 / 2 else 0)) *
    ((if orb true i ∈ S then 1 else 0) - (if hf then 1 / 2 else 0)))

def interVal (z : Fin n → K) (V : Fin n → Fin n → K) (S : Finset (Fin (n + n))) : K :=
  1 / 2 * ∑ i, ∑ j, (if i ≠ j then V i j else 0) *
    (((if orb false i ∈ S then 1 else 0) + (if orb true i ∈ S then 1 else 0) - z i) *
     ((if orb false j ∈ S then 1 else 0) + (if orb true j ∈ S then 1 else 0) - z j))

theorem onsiteU_diagonal (hf : Bool) (V : Fin n → Fin n → K) : onsiteU hf V = Matrix.diagonal (onsiteVal hf V) := by
  unfold onsiteU
  simp only [num_diagonal, smul_one_diagonal, Matrix.diagonal_sub, Matrix.diagonal_mul_diagonal, ← Matrix.diagonal_smul]
  rw [diagonal_sum]
  rfl

theorem interSite_diagonal (z : Fin n → K) (V : Fin n → Fin n → K) : interSite z V = Matrix.diagonal (interVal z V) := by
  unfold interSite
  simp only [num_diagonal, smul_one_diagonal, Matrix.diagonal_add, Matrix.diagonal_sub, Matrix.diagonal_mul_diagonal,
    ← Matrix.diagonal_smul, diagonal_sum]
  rfl

/-- One-body operator of both spins on product states. -/
theorem kinetic_occ2 (t : Bool → Fin n → Fin n → K) {tu td su sd : ℕ} (h1 : tu < 2 ^ n) (h2 : td < 2 ^ n) (h3 : su < 2 ^ n) (h4 : sd < 2 ^ n) :
    kinetic t (occ2 n tu td) (occ2 n su sd) =
      oneBody (t false) (occF n tu) (occF n su) * (if td = sd then 1 else 0) +
      (if tu = su then 1 else 0) * oneBody (t true) (occF n td) (occF n sd) := by
  have e1 : ∀ a b, a < 2 ^ n → b < 2 ^ n → (1 : Matrix (Finset (Fin n)) (Finset (Fin n)) K) (occF n a) (occF n b) = if a = b then 1 else 0 := by
    intro a b ha hb
    rw [Matrix.one_apply]
    by_cases h : a = b
    · simp [h]
    · rw [if_neg h, if_neg (fun h' => h (occF_inj ha hb h'))]
  unfold kinetic oneBody
  rw [Fintype.sum_bool]
  simp only [hop_up, hop_dw]
  rw [Matrix.add_apply, add_comm]
  congr 1
  · rw [Matrix.sum_apply, Matrix.sum_apply, Finset.sum_mul]
    apply Finset.sum_congr rfl; intro i _
    rw [Matrix.sum_apply, Matrix.sum_apply, Finset.sum_mul]
    apply Finset.sum_congr rfl; intro j _
    rw [Matrix.smul_apply, Matrix.smul_apply, lift2_occ2 _ _ h1 h3, e1 _ _ h2 h4, smul_eq_mul, smul_eq_mul, mul_assoc]
  · rw [Matrix.sum_apply, Matrix.sum_apply, Finset.mul_sum]
    apply Finset.sum_congr rfl; intro i _
    rw [Matrix.sum_apply, Matrix.sum_apply, Finset.mul_sum]
    apply Finset.sum_congr rfl; intro j _
    rw [Matrix.smul_apply, Matrix.smul_apply, lift2_occ2 _ _ h1 h3, e1 _ _ h1 h3, smul_eq_mul, smul_eq_mul]
    ring

theorem oneBody_add (t t' : Fin n → Fin n → K) : oneBody (fun i j => t i j + t' i j) = oneBody t + oneBody t' := by
  unfold oneBody
  simp only [add_smul, Finset.sum_add_distrib]

theorem oneBody_diag (e : Fin n → K) {a b : ℕ} (ha : a < 2 ^ n) (hb : b < 2 ^ n) :
    oneBody (fun i j => if i = j then e i else 0) (occF n a) (occF n b) =
      if a = b then ∑ i : Fin n, e i * bitNum K b i else 0 := by
  unfold oneBody
  have : (∑ i : Fin n, ∑ j : Fin n, (if i = j then e i else 0) • (cre K i * ann K j)) = ∑ i : Fin n, e i • num K i := by
    apply Finset.sum_congr rfl; intro i _
    rw [Finset.sum_eq_single i]
    · simp [num]
    · intro j _ hj; simp [Ne.symm hj]
    · simp
  rw [this, Matrix.sum_apply]
  by_cases h : a = b
  · subst h
    simp only [if_true]
    apply Finset.sum_congr rfl; intro i _
    rw [Matrix.smul_apply, num_apply]
    simp [bitNum]
  · rw [if_neg h]
    apply Finset.sum_eq_zero; intro i _
    rw [Matrix.smul_apply, num_apply, if_neg (fun h' => h (occF_inj ha hb h'))]
    simp

end diag

section
variable {K : Type} [Field K] [LinearOrder K] {n : ℕ}

theorem kept_apply (mu : K) (A : ℕ → ℕ → K) (i j : Fin n) :
    kept mu A i j = if i = j then A i i + mu else if |A i j| > 1 / 10 ^ 7 then A i j else 0 := by
  unfold kept offdiag
  by_cases h : i = j
  · simp [h]
  · simp [h]

/-- Hamiltonian elements between product states. -/
theorem hubbard_occ2 (hf : Bool) (mu : K) (H : ℕ → ℕ → ℕ → K) (V : ℕ → ℕ → K) (z : ℕ → K)
    {tu td su sd : ℕ} (h1 : tu < 2 ^ n) (h2 : td < 2 ^ n) (h3 : su < 2 ^ n) (h4 : sd < 2 ^ n) :
    hubbard hf (fun s => kept (n := n) mu (H (if s then 1 else 0))) (fun i => z i) (fun i j => V i j) (occ2 n tu td) (occ2 n su sd) =
      (if tu = su ∧ td = sd then localEnergy n (fun i => H 0 i i) (fun i => H 1 i i) V z hf mu su sd else 0) +
      oneBody (offdiag (n := n) (H 0)) (occF n tu) (occF n su) * (if td = sd then 1 else 0) +
      (if tu = su then 1 else 0) * oneBody (offdiag (n := n) (H 1)) (occF n td) (occF n sd) := by
  unfold hubbard
  rw [Matrix.add_apply, Matrix.add_apply, kinetic_occ2 _ h1 h2 h3 h4, onsiteU_diagonal, interSite_diagonal,
    Matrix.diagonal_apply, Matrix.diagonal_apply]
  have hk : ∀ A : ℕ → ℕ → K, oneBody (kept (n := n) mu A) = oneBody (fun i j => if i = j then A i i + mu else 0) + oneBody (offdiag (n := n) A) :=
    fun A => oneBody_add _ _
  simp only [Bool.false_eq_true, if_false, if_true]
  rw [hk, hk, Matrix.add_apply, Matrix.add_apply, oneBody_diag (fun i : Fin n => H 0 i i + mu) h1 h3,
    oneBody_diag (fun i : Fin n => H 1 i i + mu) h2 h4]
  simp only [occ2_inj h1 h2 h3 h4]
  by_cases hu : tu = su <;> by_cases hd : td = sd
  · subst hu; subst hd
    simp only [and_self, if_true, mul_one, one_mul]
    have e1 : onsiteVal hf (fun i j : Fin n => V i j) (occ2 n tu td) =
        ∑ i : Fin n, if hf then V i i * (bitNum K tu i - 1 / 2) * (bitNum K td i - 1 / 2)
          else V i i * bitNum K tu i * bitNum K td i := by
      unfold onsiteVal
      apply Finset.sum_congr rfl; intro i _
      simp only [orb_false_mem h1, orb_true_mem h1, bitNum]
      cases hf <;> simp <;> ring
    have e2 : interVal (fun i : Fin n => z i) (fun i j : Fin n => V i j) (occ2 n tu td) =
        1 / 2 * ∑ i : Fin n, ∑ j : Fin n, if i ≠ j then
          (bitNum K tu i + bitNum K td i - z i) * V i j * (bitNum K tu j + bitNum K td j - z j) else 0 := by
      unfold interVal
      congr 1
      apply Finset.sum_congr rfl; intro i _
      apply Finset.sum_congr rfl; intro j _
      simp only [orb_false_mem h1, orb_true_mem h1, bitNum]
      by_cases hij : i = j
      · simp [hij]
      · simp only [ne_eq, hij, not_false_eq_true, if_true]; ring
    rw [e1, e2, localEnergy, Finset.sum_add_distrib]
    ring
  · subst hu
    simp [hd]
  · subst hd
    simp [hu]
  · simp [hu, hd]

end

/-! ### Operators built for a sector -/
section build
variable {K : Type} [Field K] [LinearOrder K]

theorem wf_of_isCsr {m : Csr K} {rows : List (List (K × ℤ))} (h : IsCsr m rows)
    (hi : ∀ x ∈ m.indices, 0 ≤ x ∧ x < m.cols) : m.WF := by
  refine ⟨?_, hi⟩
  intro i hir p hp
  have hir' : i < rows.length := by rw [← h.2.2.2]; exact hir
  unfold Csr.rowRange at hp
  rw [(isCsr_indptr h i (by omega)).2, (isCsr_indptr h (i + 1) (by omega)).2] at hp
  simp only [Option.getD_some] at hp
  rw [pyRange_rows i hir', List.mem_map] at hp
  obtain ⟨k, hk, rfl⟩ := hp
  have hk := List.mem_range.mp hk
  have h1 := (isCsr_read h i k hir' hk).1
  have h2 := (isCsr_read h i k hir' hk).2
  refine ⟨by positivity, ?_, ?_⟩
  · rw [Int.toNat_natCast]; exact (List.getElem?_eq_some_iff.mp h1).1
  · rw [Int.toNat_natCast]; exact (List.getElem?_eq_some_iff.mp h2).1

theorem hop_wf {n p : ℕ} (h2 : 2 ≤ n) (hn : n ≤ 32) (hp : p ≤ n) {L : List ℕ} (hL : SectorList n p L) (jk : Junk K)
    (bj : ℕ) (A : ℕ → ℕ → K) :
    ∃ st, buildSpinHopping jk bj n A L = .ok st ∧ st.2.WF ∧ st.2.cols = L.length ∧ st.2.rows = L.length ∧
      ∀ (r c : ℕ) (_ : r < L.length) (_ : c < L.length),
        st.2.dense r c = oneBody (offdiag (n := n) A) (occF n L[c]) (occF n L[r]) := by
  obtain ⟨st, e1, e2, e3, e4, e5, e6⟩ := buildSpinHopping_core h2 hn hp hL jk bj A
  refine ⟨st, e1, wf_of_isCsr e2 ?_, e4, by rw [e2.2.2.2]; simp, fun r c hr hc => dense_hop hn hL A e2 r c hr hc⟩
  intro x hx
  rw [e2.2.1, List.mem_map] at hx
  obtain ⟨y, hy, rfl⟩ := hx
  rw [List.mem_flatten] at hy
  obtain ⟨row, hrow, hy⟩ := hy
  obtain ⟨s, hs, rfl⟩ := List.mem_map.mp hrow
  unfold hopEntries at hy
  rw [List.mem_flatMap] at hy
  obtain ⟨i, hi, hy⟩ := hy
  rw [List.mem_flatMap] at hy
  obtain ⟨j, hj, hy⟩ := hy
  unfold hopPair at hy
  split_ifs at hy with hc
  · rw [List.mem_singleton] at hy
    subst hy
    have hm := cdgc_mem hn hL hs (List.mem_range.mp hi) (List.mem_range.mp hj) hc.2.2 hc.2.1
    have := List.idxOf_lt_length_of_mem hm
    rw [e4]
    simp only
    omega
  · simp at hy

/-- The operator list of a spin-resolved sector. -/
theorem mbHamSpin_core {w n p q : ℕ} (h2 : 2 ≤ n) (hn : n ≤ 32) (hnw : n ≤ w) (hp : p ≤ n) (hq : q ≤ n) {up dw : List ℕ}
    (hup : generateStates w n (p : ℤ) = .ok up) (hdw : generateStates w n (q : ℤ) = .ok dw)
    (jk : Junk K) (bj : ℕ) (H : ℕ → ℕ → ℕ → K) (V : VArg K) (hV : V.Jx = none → V.Jp = none) (diag : List K)
    (hdiag : diag.length = dw.length * up.length) :
    ∃ diag' ops, mbHamSpin jk bj n H V up dw diag = .ok (.loc diag' :: ops) ∧ ops ≠ [] ∧
      diag'.length = dw.length * up.length ∧ (∀ op ∈ ops, op.WF (dw.length * up.length) ∧ op.diag1 = none) ∧
      ∃ a b : Csr K, (∀ (r c : ℕ) (_ : r < up.length) (_ : c < up.length),
          a.dense r c = oneBody (offdiag (n := n) (H 0)) (occF n up[c]) (occF n up[r])) ∧
        (∀ (r c : ℕ) (_ : r < dw.length) (_ : c < dw.length),
          b.dense r c = oneBody (offdiag (n := n) (H 1)) (occF n dw[c]) (occF n dw[r])) ∧
        a.rows = up.length ∧
        ((V.Jx = none ∧ diag' = diag ∧ ops = [.up a dw.length, .dw b up.length]) ∨
         ∃ Jx m, V.Jx = some Jx ∧ ops = [.up a dw.length, .dw b up.length, .non m] ∧
           buildNonLocal jk bj n (some Jx) V.Jp up dw diag = .ok (false, m, diag')) := by
  have hu := sectorList_of_generate hn hnw hp hup
  have hd := sectorList_of_generate hn hnw hq hdw
  have hlu : 0 < up.length := by rw [hu.len]; exact Nat.choose_pos hp
  have hld : 0 < dw.length := by rw [hd.len]; exact Nat.choose_pos hq
  obtain ⟨a, a1, a2, a3, a4, a5⟩ := hop_wf h2 hn hp hu jk bj (H 0)
  obtain ⟨b, b1, b2, b3, b4, b5⟩ := hop_wf h2 hn hq hd jk bj (H 1)
  have hh : buildHamHopping jk bj n H up dw = .ok (a.2, b.2) := by
    simp only [buildHamHopping, a1, b1, bind, Except.bind]; rfl
  have w1 : (Op.up a.2 dw.length).WF (dw.length * up.length) := ⟨a2, by omega, by omega, by rw [a4]⟩
  have w2 : (Op.dw b.2 up.length).WF (dw.length * up.length) := ⟨b2, by omega, by omega, by rw [b4]⟩
  cases hJ : V.Jx with
  | none =>
    refine ⟨diag, [.up a.2 dw.length, .dw b.2 up.length], ?_, by simp, hdiag, ?_, a.2, b.2, a5, b5, a4, Or.inl ⟨rfl, rfl, rfl⟩⟩
    · unfold mbHamSpin
      rw [if_pos (show n > 1 by omega), hh, hJ, hV hJ]
      simp [bind, Except.bind, pure, Except.pure]
    · intro op hop
      simp only [List.mem_cons, List.not_mem_nil, or_false] at hop
      rcases hop with rfl | rfl
      · exact ⟨w1, rfl⟩
      · exact ⟨w2, rfl⟩
  | some Jx =>
    obtain ⟨m, v', e1, e2, e3, e4, e5, e6⟩ := C21_nonlocal_buffers h2 hn hnw hp hq hup hdw Jx V.Jp diag hdiag
    obtain ⟨m', v'', f1, f2, f3, f4, f5, f6, f7⟩ := buildNonLocal_core h2 hp hq hu hd jk bj Jx V.Jp diag hdiag
    have e1' := e1 jk bj
    rw [f1] at e1'
    simp only [Except.ok.injEq, Prod.mk.injEq, true_and] at e1'
    obtain ⟨rfl, rfl⟩ := e1'
    have hrl : (nlRows bj n up dw (some Jx) V.Jp).length = dw.length * up.length := nlRows_length _ _ _ _ _ _
    have w3 : (Op.non m').WF (dw.length * up.length) := by
      refine ⟨wf_of_isCsr f2 ?_, ?_, ?_⟩
      · rw [f3]; exact e6
      · rw [f3, f2.2.2.2, hrl]
      · rw [f2.2.2.2, hrl]
    refine ⟨v'', [.up a.2 dw.length, .dw b.2 up.length, .non m'], ?_, by simp, by rw [f6, hdiag], ?_, a.2, b.2, a5, b5, a4,
      Or.inr ⟨Jx, m', rfl, rfl, f1⟩⟩
    · unfold mbHamSpin
      rw [if_pos (show n > 1 by omega), hh, hJ]
      simp [bind, Except.bind, pure, Except.pure, f1]
    · intro op hop
      simp only [List.mem_cons, List.not_mem_nil, or_false] at hop
      rcases hop with rfl | rfl | rfl
      · exact ⟨w1, rfl⟩
      · exact ⟨w2, rfl⟩
      · exact ⟨w3, rfl⟩

end build
end Edpyt
