import Verif.Model.GfExact
import Verif.Props.Project
/-!
Lemmas for the exact Green function.
-/
namespace Edpyt
open Spec

/-- `‖x‖²`. -/
def normSq {ι : Type} [Fintype ι] (x : ι → ℝ) : ℝ := x ⬝ᵥ x

theorem ket_inner {n nup ndw : ℕ} {up dw : List ℕ} (hu : SectorList n nup up) (hd : SectorList n ndw dw) (x y : ℕ → ℝ) :
    ket n up dw x ⬝ᵥ ket n up dw y = ∑ r ∈ Finset.range (up.length * dw.length), x r * y r := by
  have h := ket_dot n up dw up dw x y 1
  rw [Matrix.one_mulVec] at h
  rw [h, mul_comm, sum_range_mul', Finset.sum_comm, Finset.sum_range]
  apply Finset.sum_congr rfl; intro jd _
  rw [Finset.sum_range]
  apply Finset.sum_congr rfl; intro ju _
  have bu : ∀ i : Fin up.length, up[i] < 2 ^ n := fun i => ((hu.mem _).mp (List.getElem_mem i.2)).1
  have bd : ∀ i : Fin dw.length, dw[i] < 2 ^ n := fun i => ((hd.mem _).mp (List.getElem_mem i.2)).1
  have he : ∀ (iu : Fin up.length) (id : Fin dw.length), (1 : Matrix (Finset (Fin (n + n))) (Finset (Fin (n + n))) ℝ) (occ2 n up[ju] dw[jd]) (occ2 n up[iu] dw[id])
      = if ju = iu ∧ jd = id then 1 else 0 := by
    intro iu id
    rw [Matrix.one_apply]
    congr 1
    rw [occ2_inj (bu ju) (bd jd) (bu iu) (bd id)]
    apply propext
    constructor
    · rintro ⟨h1, h2⟩
      exact ⟨Fin.ext ((hu.nodup.getElem_inj_iff).mp h1), Fin.ext ((hd.nodup.getElem_inj_iff).mp h2)⟩
    · rintro ⟨rfl, rfl⟩; exact ⟨rfl, rfl⟩
  simp only [he]
  rw [Finset.sum_eq_single ju, Finset.sum_eq_single jd]
  · simp only [and_self, if_true, mul_one]
    rw [mul_comm up.length, add_comm]
  · intro id _ h; rw [if_neg (by simp [h.symm])]; ring
  · simp
  · intro iu _ h
    apply Finset.sum_eq_zero; intro id _
    rw [if_neg (by simp [h.symm])]; ring
  · simp

theorem parseval {d : ℕ} {v : List (ℕ → ℝ)} (hv : Complete d v) (x : ℕ → ℝ) :
    ∑ j ∈ Finset.range d, (∑ r ∈ Finset.range d, (v[j]?.getD 0) r * x r) ^ 2 = ∑ r ∈ Finset.range d, x r * x r := by
  let U : Matrix (Fin d) (Fin d) ℝ := Matrix.of fun j r => (v[(j : ℕ)]?.getD 0) r
  have hU : U * U.transpose = 1 := by
    ext i j
    rw [Matrix.mul_apply, Matrix.one_apply]
    simp only [Matrix.transpose_apply, U, Matrix.of_apply]
    have := hv.orth i j i.2 j.2
    rw [Finset.sum_range] at this
    rw [this]; simp only [Fin.ext_iff]
  have hU' : U.transpose * U = 1 := _root_.mul_eq_one_comm.mp hU
  let y : Fin d → ℝ := fun r => x r
  have h1 : U.mulVec y ⬝ᵥ U.mulVec y = y ⬝ᵥ y := by
    rw [Matrix.dotProduct_mulVec, ← Matrix.mulVec_transpose, Matrix.mulVec_mulVec, hU', Matrix.one_mulVec]
  rw [Finset.sum_range, Finset.sum_range (f := fun r => x r * x r)]
  have h2 : ∀ j : Fin d, U.mulVec y j = ∑ r ∈ Finset.range d, (v[(j : ℕ)]?.getD 0) r * x r := by
    intro j; rw [Finset.sum_range]; rfl
  simp only [← h2, pow_two]
  exact h1

theorem norm_split {n : ℕ} (i : Fin (n + n)) (x : Finset (Fin (n + n)) → ℝ) :
    normSq ((cre ℝ i).mulVec x) + normSq ((ann ℝ i).mulVec x) = normSq x := by
  unfold normSq
  have h : ∀ A : Matrix (Finset (Fin (n + n))) (Finset (Fin (n + n))) ℝ, A.mulVec x ⬝ᵥ A.mulVec x = x ⬝ᵥ (A.transpose * A).mulVec x := by
    intro A
    rw [Matrix.dotProduct_mulVec, ← Matrix.mulVec_transpose, Matrix.mulVec_mulVec, dotProduct_comm]
  rw [h, h, ← dotProduct_add, ← Matrix.add_mulVec]
  have hc : (cre ℝ i).transpose = ann ℝ i := Matrix.transpose_transpose _
  have ha : (ann ℝ i).transpose = cre ℝ i := rfl
  rw [hc, ha]
  have := ann_cre_anticomm (R := ℝ) i i
  rw [if_pos rfl] at this
  rw [this, Matrix.one_mulVec]

theorem dictGet_mem {α β : Type} [DecidableEq α] {es : List (α × β)} (hnd : (es.map Prod.fst).Nodup) {q : α} {s : β}
    (h : (q, s) ∈ es) : dictGet es q = .ok s := by
  unfold dictGet
  induction es with
  | nil => cases h
  | cons p es ih =>
    rw [List.map_cons, List.nodup_cons] at hnd
    rw [List.find?_cons]
    rcases List.mem_cons.mp h with rfl | h'
    · simp
    · have : p.1 ≠ q := fun he => hnd.1 (he ▸ List.mem_map.mpr ⟨_, h', rfl⟩)
      simp only [this, decide_false]
      exact ih hnd.2 h'

theorem CompleteEspace.nodup {n : ℕ} {es : Espace (ℕ × ℕ)} (h : CompleteEspace n es) : (es.map Prod.fst).Nodup :=
  h.keys.nodup_iff.mpr (nodup_ndindex2 _ _)

theorem CompleteEspace.get {n : ℕ} {es : Espace (ℕ × ℕ)} (h : CompleteEspace n es) {u d : ℕ} (hu : u ≤ n) (hd : d ≤ n) :
    ∃ s, ((u, d), s) ∈ es ∧ dictGet es (u, d) = .ok s := by
  have : (u, d) ∈ es.map Prod.fst := h.keys.mem_iff.mpr (mem_ndindex2.mpr ⟨by simp only; omega, by simp only; omega⟩)
  obtain ⟨p, hp, he⟩ := List.mem_map.mp this
  have : ((u, d), p.2) ∈ es := by rw [← he]; exact hp
  exact ⟨p.2, this, dictGet_mem h.nodup this⟩

theorem SctOk.ket_eq {n nup ndw : ℕ} {s : Sct} {up dw : List ℕ} (h : SctOk n nup ndw s up dw) (k : ℕ) :
    s.ket n k = Spec.ket n up dw (s.eigvecs[k]?.getD 0) := by
  unfold Sct.ket; rw [h.states]; rfl

section
variable {n nup ndw pos junk : ℕ} {upI dwI upJ dwJ : List ℕ} {I J : Sct}

theorem sum_sq_project (hn : n ≤ 32) (hpos : pos < n) (op : Ladder) {p q : ℕ} (hsh : op.Shift p q)
    (hI : SctOk n p ndw I upI dwI) (hJ : SctOk n q ndw J upJ dwJ) (hc : Complete J.d J.eigvecs) {M : ℕ → ℕ → ℝ}
    (hM : projectExactUp junk pos n op I J = .ok M) (k : ℕ) (hk : k < I.eigvals.length) :
    ∑ j ∈ Finset.range J.eigvals.length, M j k ^ 2
      = normSq ((op.mat (orb false (⟨pos, hpos⟩ : Fin n))).mulVec (I.ket n k)) := by
  obtain ⟨M', h1, h2⟩ := C34_project_exact_up (junk := junk) hn hpos op hsh hI hJ
  rw [hM] at h1
  obtain rfl := Except.ok.inj h1
  obtain ⟨X, -, hX⟩ := C34_project_up (junk := junk) hn hpos op hsh hI hJ
  have hone : ((-1 : ℝ) ^ ndw) * (-1) ^ ndw = 1 := by rw [← mul_pow]; simp
  have hA : (op.mat (orb false (⟨pos, hpos⟩ : Fin n))).mulVec (I.ket n k) = (-1 : ℝ) ^ ndw • ket n upJ dwJ (X k) := by
    rw [hX k, smul_smul, hone, one_smul, hI.ket_eq]
  have hlen : J.eigvals.length = J.d := by rw [← hJ.len, hc.len]
  have hj : ∀ j ∈ Finset.range J.eigvals.length, M j k ^ 2 = (∑ r ∈ Finset.range J.d, (J.eigvecs[j]?.getD 0) r * X k r) ^ 2 := by
    intro j hj
    rw [h2 j k (Finset.mem_range.mp hj) hk, ← hI.ket_eq, hA, dotProduct_smul, smul_eq_mul, ← mul_assoc, hone, one_mul,
      ket_inner hJ.hup hJ.hdw, hJ.d]
  rw [Finset.sum_congr rfl hj, hlen, parseval hc, hA, normSq, smul_dotProduct, dotProduct_smul, smul_smul, hone, one_smul,
    ket_inner hJ.hup hJ.hdw, hJ.d]

/-- Boundary sectors: nothing can be added to full, nothing removed from empty spin-up shells. -/
theorem ladder_boundary (hn : n ≤ 32) (hpos : pos < n) (op : Ladder) {p : ℕ} (hI : SctOk n p ndw I upI dwI)
    (hb : op = .cdg ∧ p = n ∨ op = .c ∧ p = 0) (k : ℕ) :
    (op.mat (orb false (⟨pos, hpos⟩ : Fin n))).mulVec (I.ket n k) = 0 := by
  funext T
  rw [hI.ket_eq, ket_mulVec, Pi.zero_apply]
  apply Finset.sum_eq_zero; intro iu _
  apply Finset.sum_eq_zero; intro id _
  obtain ⟨tu, td, htu, htd, rfl⟩ := occ2_surj T
  have hs : InSector n p upI[iu] := (hI.hup.mem _).mp (List.getElem_mem iu.2)
  have hchk : ¬ op.check upI[iu] pos ≠ 0 := by
    have hcard := card_occF hs.1
    rw [hs.2] at hcard
    rcases hb with ⟨rfl, hp⟩ | ⟨rfl, hp⟩
    · have : occF n upI[iu] = Finset.univ := by
        rw [← Finset.card_eq_iff_eq_univ, hcard, hp]; simp
      have h1 : (⟨pos, hpos⟩ : Fin n) ∈ occF n upI[iu] := by rw [this]; simp
      rw [mem_occF] at h1
      simp only [Ladder.check, checkEmpty_eq, h1]; simp
    · have : occF n upI[iu] = ∅ := Finset.card_eq_zero.mp (by rw [hcard, hp])
      have h1 : ¬ (⟨pos, hpos⟩ : Fin n) ∈ occF n upI[iu] := by rw [this]; simp
      rw [mem_occF] at h1
      simp only [Ladder.check, checkFull_eq, Bool.not_eq_true _ |>.mp h1]; simp
  rw [ladder_up, lift2_occ2 _ _ htu hs.1, ladder_nocheck hpos hchk]; ring
end

end Edpyt
