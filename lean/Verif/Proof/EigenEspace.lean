import Verif.Proof.Sectors
/-!
The sectors of a complete espace give an orthonormal eigenbasis of the whole Fock space.
-/
namespace Edpyt
open Spec Matrix
variable {n : ℕ}

theorem sector_exists {p q : ℕ} {up dw : List ℕ} (hu : SectorList n p up) (hd : SectorList n q dw) {T : Finset (Fin (n + n))}
    (h1 : spinCount false T = p) (h2 : spinCount true T = q) :
    ∃ (ju : Fin up.length) (jd : Fin dw.length), T = occ2 n up[ju] dw[jd] := by
  obtain ⟨su, hsu, eu⟩ := occF_surj (upPart T)
  obtain ⟨sd, hsd, ed⟩ := occF_surj (dwPart T)
  have hT : T = occ2 n su sd := by
    rw [eq_iff_parts, upPart_occ2 hsu, dwPart_occ2 hsu]
    exact ⟨eu.symm, ed.symm⟩
  simp only [spinCount, Bool.false_eq_true, if_false, if_true] at h1 h2
  rw [← eu, card_occF hsu] at h1
  rw [← ed, card_occF hsd] at h2
  have m1 : su ∈ up := (hu.mem _).mpr ⟨hsu, by exact_mod_cast h1⟩
  have m2 : sd ∈ dw := (hd.mem _).mpr ⟨hsd, by exact_mod_cast h2⟩
  obtain ⟨i, hi, e1⟩ := List.getElem_of_mem m1
  obtain ⟨j, hj, e2⟩ := List.getElem_of_mem m2
  exact ⟨⟨i, hi⟩, ⟨j, hj⟩, by simp only [Fin.getElem_fin, e1, e2]; exact hT⟩

theorem ket_at {p q : ℕ} {up dw : List ℕ} (hu : SectorList n p up) (hd : SectorList n q dw) (v : ℕ → ℝ) (ju : Fin up.length) (jd : Fin dw.length) :
    ket n up dw v (occ2 n up[ju] dw[jd]) = v (ju + up.length * jd) := by
  have bu : ∀ i : Fin up.length, up[i] < 2 ^ n := fun i => ((hu.mem _).mp (List.getElem_mem i.2)).1
  have bd : ∀ i : Fin dw.length, dw[i] < 2 ^ n := fun i => ((hd.mem _).mp (List.getElem_mem i.2)).1
  unfold ket
  rw [Finset.sum_eq_single ju, Finset.sum_eq_single jd]
  · simp
  · intro id _ hne
    rw [if_neg]
    rw [occ2_inj (bu ju) (bd jd) (bu ju) (bd id)]
    rintro ⟨-, h⟩
    exact hne (Fin.ext ((hd.nodup.getElem_inj_iff).mp h)).symm
  · simp
  · intro iu _ hne
    apply Finset.sum_eq_zero; intro id _
    rw [if_neg]
    rw [occ2_inj (bu ju) (bd jd) (bu iu) (bd id)]
    rintro ⟨h, -⟩
    exact hne (Fin.ext ((hu.nodup.getElem_inj_iff).mp h)).symm
  · simp

/-- An eigenvector of the sector matrix is an eigenvector of the Hamiltonian on the Fock space. -/
theorem sector_eigen {a : HamArgs} {p q : ℕ} {up dw : List ℕ} (hu : SectorList a.n p up) (hd : SectorList a.n q dw) {D : Dense ℝ}
    (hD : IsSectorHam a up dw D) {v : ℕ → ℝ} {E : ℝ} (he : ∀ r, r < D.size → ∑ c ∈ Finset.range D.size, D.val r c * v c = E * v r) :
    a.ham *ᵥ ket a.n up dw v = E • ket a.n up dw v := by
  funext T
  rw [ket_mulVec, Pi.smul_apply, smul_eq_mul]
  by_cases hT : spinCount false T = p ∧ spinCount true T = q
  · obtain ⟨ju, jd, hTe⟩ := sector_exists hu hd hT.1 hT.2
    clear hT
    have hTe' : T = occ2 a.n up[ju] dw[jd] := hTe
    clear hTe
    subst hTe'
    rw [ket_at hu hd, ← he (ju + up.length * jd) ?_]
    · rw [hD.size, mul_comm, sum_range_mul', Finset.sum_comm, Finset.sum_range]
      apply Finset.sum_congr rfl; intro id _
      rw [Finset.sum_range]
      apply Finset.sum_congr rfl; intro iu _
      have := hD.val ju jd iu id ju.2 jd.2 iu.2 id.2
      have e1 : (id : ℕ) * up.length + iu = iu + id * up.length := add_comm _ _
      have e2 : (ju : ℕ) + up.length * jd = ju + jd * up.length := by rw [mul_comm up.length]
      have e3 : (iu : ℕ) + up.length * id = iu + id * up.length := by rw [mul_comm up.length]
      simp only [Fin.getElem_fin]
      rw [e1, e2, e3]
      rw [e2, e3] at this
      exact congrArg (· * _) this.symm
    · rw [hD.size]
      calc (ju : ℕ) + up.length * jd < up.length + up.length * jd := by have := ju.2; omega
        _ = up.length * (jd + 1) := by ring
        _ ≤ _ := Nat.mul_le_mul_left _ jd.2
  · have h0 : ket a.n up dw v T = 0 := by
      by_contra h
      exact hT (ket_support hu hd v h)
    rw [h0, mul_zero]
    apply Finset.sum_eq_zero; intro iu _
    apply Finset.sum_eq_zero; intro id _
    by_contra h
    have h1 := left_ne_zero_of_mul h
    have h2 := grade_ham a _ _ h1
    apply hT
    have h3 : ∀ s, spinCount s (occ2 a.n up[iu] dw[id]) = if s then (q : ℤ) else p := by
      intro s
      have b1 := (hu.mem _).mp (List.getElem_mem iu.2)
      have b2 := (hd.mem _).mp (List.getElem_mem id.2)
      cases s
      · have := upPart_occ2 (n := a.n) (sdw := dw[id]) b1.1
        simp only [spinCount, Fin.getElem_fin, Bool.false_eq_true, if_false] at this ⊢
        rw [this, card_occF b1.1]; exact_mod_cast b1.2
      · have := dwPart_occ2 (n := a.n) (sdw := dw[id]) b1.1
        simp only [spinCount, Fin.getElem_fin, if_true] at this ⊢
        rw [this, card_occF b2.1]; exact_mod_cast b2.2
    constructor
    · have := h2 false; rw [h3] at this; simpa using this
    · have := h2 true; rw [h3] at this; simpa using this

/-- The eigenstates of all sectors. -/
abbrev EigIdx (n : ℕ) := (q : Fin (n + 1) × Fin (n + 1)) × Fin (n.choose q.1 * n.choose q.2)

/-- The eigenvector `x` as a Fock space vector. -/
def esKet (n : ℕ) (es : Espace (ℕ × ℕ)) (x : EigIdx n) : Finset (Fin (n + n)) → ℝ := (sctAt es ((x.1.1 : ℕ), (x.1.2 : ℕ))).ket n x.2

/-- The eigenvalue `x`. -/
def esVal (n : ℕ) (es : Espace (ℕ × ℕ)) (x : EigIdx n) : ℝ := (sctAt es ((x.1.1 : ℕ), (x.1.2 : ℕ))).eigvals[(x.2 : ℕ)]?.getD 0

theorem CompleteEspace.at {es : Espace (ℕ × ℕ)} (h : CompleteEspace n es) {u d : ℕ} (hu : u ≤ n) (hd : d ≤ n) :
    ∃ up dw, ((u, d), sctAt es (u, d)) ∈ es ∧ dictGet es (u, d) = .ok (sctAt es (u, d)) ∧ SctOk n u d (sctAt es (u, d)) up dw ∧
      Complete (sctAt es (u, d)).d (sctAt es (u, d)).eigvecs ∧ (sctAt es (u, d)).d = n.choose u * n.choose d ∧
      (sctAt es (u, d)).eigvals.length = n.choose u * n.choose d := by
  obtain ⟨s, hs, hget⟩ := h.get hu hd
  obtain ⟨up, dw, hok, hc⟩ := h.ok _ hs
  have : sctAt es (u, d) = s := by unfold sctAt; rw [hget]
  rw [this]
  refine ⟨up, dw, hs, hget, hok, hc, ?_, ?_⟩
  · have := hok.d; simp only at this; rw [this, hok.hup.len, hok.hdw.len]
  · have := hok.d; simp only at this; rw [← hok.len, hc.len, this, hok.hup.len, hok.hdw.len]

theorem EigenEspace.basis {H : Matrix (Finset (Fin (n + n))) (Finset (Fin (n + n))) ℝ} {es : Espace (ℕ × ℕ)} (h : EigenEspace n H es) :
    EigBasis H (esKet n es) (esVal n es) := by
  refine ⟨?_, ?_, ?_⟩
  · rw [Fintype.card_sigma, Fintype.card_finset, Fintype.card_fin]
    simp only [Fintype.card_fin]
    rw [Fintype.sum_prod_type]
    simp only [← Finset.mul_sum]
    rw [← Finset.sum_mul]
    have : ∑ i : Fin (n + 1), n.choose i = 2 ^ n := by
      rw [← Finset.sum_range (fun i => n.choose i), Nat.sum_range_choose]
    rw [this, pow_add]
  · rintro ⟨⟨u, d⟩, k⟩ ⟨⟨u', d'⟩, k'⟩
    obtain ⟨up, dw, -, -, hok, hc, hd, -⟩ := h.toCompleteEspace.at (u := u) (d := d) (by have := u.2; omega) (by have := d.2; omega)
    obtain ⟨up', dw', -, -, hok', -⟩ := h.toCompleteEspace.at (u := u') (d := d') (by have := u'.2; omega) (by have := d'.2; omega)
    by_cases hq : u = u' ∧ d = d'
    · obtain ⟨rfl, rfl⟩ := hq
      simp only [esKet, hok.ket_eq]
      rw [ket_inner hok.hup hok.hdw, ← hok.d, hc.orth k k' (by rw [hd]; exact k.2) (by rw [hd]; exact k'.2)]
      congr 1
      simp [Fin.ext_iff]
    · rw [if_neg (by intro hh; apply hq; simp only [Sigma.mk.injEq, Prod.mk.injEq] at hh; exact hh.1)]
      simp only [esKet, hok.ket_eq, hok'.ket_eq]
      have := grade_one.elem_zero hok'.hup hok'.hdw hok.hup hok.hdw ((sctAt es (u', d')).eigvecs[(k' : ℕ)]?.getD 0)
        ((sctAt es (u, d)).eigvecs[(k : ℕ)]?.getD 0) (by
          rintro ⟨h1, h2⟩
          simp only [Pi.zero_apply, add_zero] at h1 h2
          exact hq ⟨Fin.ext (by exact_mod_cast h1), Fin.ext (by exact_mod_cast h2)⟩)
      rwa [Matrix.one_mulVec] at this
  · rintro ⟨⟨u, d⟩, k⟩
    obtain ⟨up, dw, hmem, -, hok, hc, hd, hl⟩ := h.toCompleteEspace.at (u := u) (d := d) (by have := u.2; omega) (by have := d.2; omega)
    exact h.eig _ hmem k (by simp only; rw [hl]; exact k.2)

/-- What `build_espace` returns without truncation is an eigenbasis of the Hamiltonian. -/
theorem buildEspace_eigen {a : HamArgs} (ha : a.Valid) {w : ℕ} (hw : a.n ≤ w) {es : Espace (ℕ × ℕ)} {egs : WithTop ℝ}
    (h : BuildEspace w a none (.ok (es, egs))) : EigenEspace a.n a.ham es := by
  refine ⟨buildEspace_complete ha hw h, fun p hp k hk => ?_⟩
  have hkeys := (buildEspace_complete' ha hw h).2
  have hl : neigOrDefault a.n none .sz = .ok ((ndindex2 (a.n + 1) (a.n + 1)).map fun p => a.n.choose p.1 * a.n.choose p.2) := by
    simp only [neigOrDefault]; rw [getEspaceDim_sz]; simp [clipDim]
  set l := (ndindex2 (a.n + 1) (a.n + 1)).map fun p => a.n.choose p.1 * a.n.choose p.2 with hldef
  have h' : BuildEspace w a (some l) (.ok (es, egs)) := by
    simp only [BuildEspace, hl] at h
    simpa only [BuildEspace, neigOrDefault] using h
  obtain ⟨-, c2, -⟩ := C28_build_espace ha hw l es egs h'
  obtain ⟨d1, d2, ⟨D, w', v', e1, e2, e3, e4⟩, d4, d5⟩ := c2 p hp
  have hpk : p.1 ∈ ndindex2 (a.n + 1) (a.n + 1) := hkeys ▸ List.mem_map.mpr ⟨p, hp, rfl⟩
  obtain ⟨b1, b2⟩ := mem_ndindex2.mp hpk
  have su := sectorList_of_generate ha.le hw (by omega) (generateStates_gs (w := w) (n := a.n) (p := p.1.1) (by omega))
  have sd := sectorList_of_generate ha.le hw (by omega) (generateStates_gs (w := w) (n := a.n) (p := p.1.2) (by omega))
  have hkt : p.2.ket a.n k = ket a.n (gs w a.n p.1.1) (gs w a.n p.1.2) (p.2.eigvecs[k]?.getD 0) := by
    unfold Sct.ket; rw [d1]; rfl
  rw [hkt]
  apply sector_eigen su sd e1
  intro r hr
  have hkv : k < p.2.eigvecs.length := by rw [d5]; exact hk
  have hw1 : k < w'.length := by rw [e3, List.length_take] at hk; omega
  have hv1 : k < v'.length := by rw [e4, List.length_take] at hkv; omega
  have := e2.eig k hv1 hw1 r hr
  rw [List.getElem?_eq_getElem hkv, List.getElem?_eq_getElem hk]
  simp only [e3, e4, List.getElem_take, Option.getD_some]
  exact this

end Edpyt
