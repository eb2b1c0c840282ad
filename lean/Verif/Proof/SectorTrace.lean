import Verif.Proof.FockResolvent
/-!
The coordinates of a sector inside the Fock space, and traces over one sector.
-/
namespace Edpyt
open Spec Matrix
variable {n : ℕ}

/-- The sector matrix acts as the Hamiltonian on the Fock space. -/
theorem sector_apply {a : HamArgs} {p q : ℕ} {up dw : List ℕ} (hu : SectorList a.n p up) (hd : SectorList a.n q dw) {D : Dense ℝ}
    (hD : IsSectorHam a up dw D) {v u : ℕ → ℝ} (he : ∀ r, r < D.size → ∑ c ∈ Finset.range D.size, D.val r c * v c = u r) :
    a.ham *ᵥ ket a.n up dw v = ket a.n up dw u := by
  funext T
  rw [ket_mulVec]
  by_cases hT : spinCount false T = p ∧ spinCount true T = q
  · obtain ⟨ju, jd, hTe⟩ := sector_exists hu hd hT.1 hT.2
    clear hT
    have hTe' : T = occ2 a.n up[ju] dw[jd] := hTe
    clear hTe
    subst hTe'
    rw [ket_at hu hd, ← he (ju + up.length * jd) ?_]
    · rw [hD.size, mul_comm, sum_range_mul', Finset.sum_comm, Finset.sum_range]
      apply Finset.sum_congr rfl; intro id _
      rw [Finset.sum_range]
      apply Finset.sum_congr rfl; intro iu _
      have := hD.val ju jd iu id ju.2 jd.2 iu.2 id.2
      have e1 : (id : ℕ) * up.length + iu = iu + id * up.length := add_comm _ _
      have e2 : (ju : ℕ) + up.length * jd = ju + jd * up.length := by rw [mul_comm up.length]
      have e3 : (iu : ℕ) + up.length * id = iu + id * up.length := by rw [mul_comm up.length]
      simp only [Fin.getElem_fin]
      rw [e1, e2, e3]
      rw [e2, e3] at this
      exact congrArg (· * _) this.symm
    · rw [hD.size]
      calc (ju : ℕ) + up.length * jd < up.length + up.length * jd := by have := ju.2; omega
        _ = up.length * (jd + 1) := by ring
        _ ≤ _ := Nat.mul_le_mul_left _ jd.2
  · have h0 : ket a.n up dw u T = 0 := by
      by_contra h
      exact hT (ket_support hu hd u h)
    rw [h0]
    apply Finset.sum_eq_zero; intro iu _
    apply Finset.sum_eq_zero; intro id _
    by_contra h
    have h1 := left_ne_zero_of_mul h
    have h2 := grade_ham a _ _ h1
    apply hT
    have h3 : ∀ s, spinCount s (occ2 a.n up[iu] dw[id]) = if s then (q : ℤ) else p := by
      intro s
      have b1 := (hu.mem _).mp (List.getElem_mem iu.2)
      have b2 := (hd.mem _).mp (List.getElem_mem id.2)
      cases s
      · have := upPart_occ2 (n := a.n) (sdw := dw[id]) b1.1
        simp only [spinCount, Fin.getElem_fin, Bool.false_eq_true, if_false] at this ⊢
        rw [this, card_occF b1.1]; exact_mod_cast b1.2
      · have := dwPart_occ2 (n := a.n) (sdw := dw[id]) b1.1
        simp only [spinCount, Fin.getElem_fin, if_true] at this ⊢
        rw [this, card_occF b2.1]; exact_mod_cast b2.2
    constructor
    · have := h2 false; rw [h3] at this; simpa using this
    · have := h2 true; rw [h3] at this; simpa using this


/-- The embedding of the coordinates of a sector into the Fock space. -/
def ketMat (n : ℕ) (up dw : List ℕ) : Matrix (Finset (Fin (n + n))) (Fin (up.length * dw.length)) ℝ :=
  Matrix.of fun S c => ket n up dw (fun r => if r = (c : ℕ) then 1 else 0) S

theorem ketMat_mulVec (up dw : List ℕ) (v : ℕ → ℝ) : ketMat n up dw *ᵥ (fun c => v c) = ket n up dw v := by
  funext S
  simp only [Matrix.mulVec, dotProduct, ketMat, Matrix.of_apply, ket, Finset.sum_mul]
  rw [Finset.sum_comm]
  apply Finset.sum_congr rfl; intro iu _
  rw [Finset.sum_comm]
  apply Finset.sum_congr rfl; intro id _
  have hlt : (iu : ℕ) + up.length * id < up.length * dw.length := by
    calc (iu : ℕ) + up.length * id < up.length + up.length * id := by have := iu.2; omega
      _ = up.length * (id + 1) := by ring
      _ ≤ _ := Nat.mul_le_mul_left _ id.2
  split
  · rw [Finset.sum_eq_single (⟨_, hlt⟩ : Fin (up.length * dw.length))]
    · simp
    · intro c _ hc
      rw [if_neg (fun h => hc (Fin.ext h.symm)), zero_mul]
    · simp
  · simp

theorem ketMat_isometry {p q : ℕ} {up dw : List ℕ} (hu : SectorList n p up) (hd : SectorList n q dw) : (ketMat n up dw)ᵀ * ketMat n up dw = 1 := by
  ext c c'
  rw [Matrix.mul_apply, Matrix.one_apply]
  have := ket_inner hu hd (fun r => if r = (c : ℕ) then 1 else 0) (fun r => if r = (c' : ℕ) then 1 else 0)
  simp only [dotProduct] at this
  simp only [Matrix.transpose_apply, ketMat, Matrix.of_apply]
  rw [this]
  simp only [ite_mul, one_mul, zero_mul, Finset.sum_ite_eq', Finset.mem_range, c.2, if_true, Fin.ext_iff]

/-- The matrix of a sector. -/
def secMat (D : Dense ℝ) (d : ℕ) : Matrix (Fin d) (Fin d) ℝ := Matrix.of fun i j => D.val i j

theorem ketMat_intertwine {a : HamArgs} {p q : ℕ} {up dw : List ℕ} (hu : SectorList a.n p up) (hd : SectorList a.n q dw) {D : Dense ℝ}
    (hD : IsSectorHam a up dw D) : a.ham * ketMat a.n up dw = ketMat a.n up dw * secMat D (up.length * dw.length) := by
  ext S c
  have h1 := congrFun (sector_apply hu hd hD (v := fun r => if r = (c : ℕ) then 1 else 0) (u := fun r => D.val r c) (fun r _ => by
    simp only [mul_ite, mul_one, mul_zero, Finset.sum_ite_eq', Finset.mem_range]
    rw [if_pos (by rw [hD.size]; exact c.2)])) S
  have h2 := congrFun (ketMat_mulVec (n := a.n) up dw (fun r => D.val r c)) S
  rw [Matrix.mul_apply, Matrix.mul_apply]
  exact h1.trans h2.symm

/-- **Sector resolvent** A resolvent element computed in the coordinates of a sector is the one of the Hamiltonian on the Fock space. -/
theorem sector_resElem {a : HamArgs} {p q : ℕ} {up dw : List ℕ} (hu : SectorList a.n p up) (hd : SectorList a.n q dw) {D : Dense ℝ}
    (hD : IsSectorHam a up dw D) (hH : a.ham.IsSymm) (hA : (secMat D (up.length * dw.length)).IsSymm) {z : ℂ} (hz : z.im ≠ 0) (s E : ℝ) (x y : ℕ → ℝ) :
    resElem z (s • (secMat D (up.length * dw.length) - E • (1 : Matrix _ _ ℝ))) (fun c : Fin (up.length * dw.length) => x c) (fun c => y c) =
      resElem z (s • (a.ham - E • (1 : Matrix _ _ ℝ))) (ket a.n up dw x) (ket a.n up dw y) := by
  rw [← ketMat_mulVec, ← ketMat_mulVec]
  exact (resElem_intertwine (symm_shift hH s E) (symm_shift hA s E) _ (ketMat_isometry hu hd) (intertwine_shift (ketMat_intertwine hu hd hD) s E) hz _ _).symm

/-! ### Traces over one sector -/

/-- The projection onto the states with given electron numbers. -/
def secProj (n : ℕ) (q : ℕ × ℕ) : Matrix (Finset (Fin (n + n))) (Finset (Fin (n + n))) ℝ :=
  diagonal fun S => if spinCount false S = q.1 ∧ spinCount true S = q.2 then 1 else 0

theorem secProj_ket {q : ℕ × ℕ} {p r : ℕ} {up dw : List ℕ} (hu : SectorList n p up) (hd : SectorList n r dw) (v : ℕ → ℝ) :
    secProj n q *ᵥ ket n up dw v = if (p, r) = q then ket n up dw v else 0 := by
  funext S
  unfold secProj
  rw [Matrix.mulVec_diagonal]
  by_cases h0 : ket n up dw v S = 0
  · rw [h0, mul_zero]; split <;> simp [h0]
  · obtain ⟨h1, h2⟩ := ket_support hu hd v h0
    rw [h1, h2]
    by_cases hq : (p, r) = q
    · subst hq; simp
    · rw [if_neg hq, if_neg, zero_mul]; rfl
      rintro ⟨a1, a2⟩
      exact hq (Prod.ext (by exact_mod_cast a1) (by exact_mod_cast a2))

/-- `tr (P_q e^{-βH} M)`. -/
noncomputable def secTrace (n : ℕ) (β : ℝ) (H : Matrix (Finset (Fin (n + n))) (Finset (Fin (n + n))) ℝ) (q : ℕ × ℕ)
    (M : Matrix (Finset (Fin (n + n))) (Finset (Fin (n + n))) ℂ) : ℂ := trace (cplx (secProj n q * gibbsOp β H) * M)

theorem cplx_form {ι : Type} [Fintype ι] [DecidableEq ι] (U : Matrix ι ι ℝ) (M : Matrix ι ι ℂ) (a : ι) :
    (cplx Uᵀ * M * cplx U) a a = cform (fun i => U i a) M := by
  rw [Matrix.mul_assoc, Matrix.mul_apply]
  unfold cform
  simp only [dotProduct, cplx, Matrix.map_apply, Matrix.transpose_apply]
  rfl

/-- The sum over the eigenstates of one sector does not depend on the choice of the eigenbasis. -/
theorem EigenEspace.secTrace {H : Matrix (Finset (Fin (n + n))) (Finset (Fin (n + n))) ℝ} {es : Espace (ℕ × ℕ)} (h : EigenEspace n H es) (β : ℝ)
    {q : ℕ × ℕ} (hq : q ∈ ndindex2 (n + 1) (n + 1)) (M : Matrix (Finset (Fin (n + n))) (Finset (Fin (n + n))) ℂ) :
    secTrace n β H q M = ∑ k ∈ Finset.range (n.choose q.1 * n.choose q.2),
      (Real.exp (-β * ((sctAt es q).eigvals[k]?.getD 0)) : ℂ) * cform ((sctAt es q).ket n k) M := by
  have hb := h.basis
  let e := Fintype.equivOfCardEq hb.card.symm
  have hd := hb.diag e
  have b := mem_ndindex2.mp hq
  have hP : secProj n q * (Matrix.of fun i a => esKet n es (e a) i) = (Matrix.of fun i a => esKet n es (e a) i) *
      diagonal (fun a => if (((e a).1.1 : ℕ), ((e a).1.2 : ℕ)) = q then (1 : ℝ) else 0) := by
    ext S a
    rw [Matrix.mul_diagonal]
    obtain ⟨up, dw, -, -, hok, -⟩ := h.toCompleteEspace.at (u := (e a).1.1) (d := (e a).1.2) (by have := (e a).1.1.2; omega) (by have := (e a).1.2.2; omega)
    have := congrFun (secProj_ket (q := q) hok.hup hok.hdw ((sctAt es (((e a).1.1 : ℕ), ((e a).1.2 : ℕ))).eigvecs[((e a).2 : ℕ)]?.getD 0)) S
    have e1 : esKet n es (e a) = ket n up dw ((sctAt es (((e a).1.1 : ℕ), ((e a).1.2 : ℕ))).eigvecs[((e a).2 : ℕ)]?.getD 0) := by
      simp only [esKet, hok.ket_eq]
    rw [← e1] at this
    rw [Matrix.mul_apply]
    simp only [Matrix.of_apply]
    refine Eq.trans this ?_
    split <;> simp
  have h1 : secProj n q * Spec.gibbsOp β H = (Matrix.of fun i a => esKet n es (e a) i) *
      diagonal (fun a => if (((e a).1.1 : ℕ), ((e a).1.2 : ℕ)) = q then Real.exp (-β * esVal n es (e a)) else 0) * (Matrix.of fun i a => esKet n es (e a) i)ᵀ := by
    rw [hd.gibbsOp β, ← Matrix.mul_assoc, ← Matrix.mul_assoc, hP, Matrix.mul_assoc _ (diagonal _) (diagonal _), Matrix.diagonal_mul_diagonal]
    congr 3
    funext a
    split <;> simp
  unfold Edpyt.secTrace
  rw [h1, trace_conj]
  have h2 : ∀ a, ((if (((e a).1.1 : ℕ), ((e a).1.2 : ℕ)) = q then Real.exp (-β * esVal n es (e a)) else 0 : ℝ) : ℂ) *
      (cplx (Matrix.of fun i a => esKet n es (e a) i)ᵀ * M * cplx (Matrix.of fun i a => esKet n es (e a) i)) a a =
      (fun b : EigIdx n => ((if ((b.1.1 : ℕ), (b.1.2 : ℕ)) = q then Real.exp (-β * esVal n es b) else 0 : ℝ) : ℂ) * cform (esKet n es b) M) (e a) := by
    intro a
    rw [cplx_form]; rfl
  rw [Finset.sum_congr rfl fun a _ => h2 a, e.sum_comp (fun b : EigIdx n => ((if ((b.1.1 : ℕ), (b.1.2 : ℕ)) = q then Real.exp (-β * esVal n es b) else 0 : ℝ) : ℂ) * cform (esKet n es b) M)]
  have := sum_one_sector (n := n) (fun q' k => ((if q' = q then Real.exp (-β * ((sctAt es q').eigvals[k]?.getD 0)) else 0 : ℝ) : ℂ) * cform ((sctAt es q').ket n k) M)
    (x := q) ⟨by omega, by omega⟩ (fun q' _ _ hne k => by rw [if_neg hne]; simp)
  simp only [if_true] at this
  exact this

end Edpyt
