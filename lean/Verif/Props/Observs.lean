import Verif.Proof.Observs
/-!
C43, C44, C47: occupations.
-/
namespace Edpyt
open Spec

/-- `A` is a two-dimensional contiguous array with one row per state of the sector and `nev` columns. -/
structure EvecArr (A : NdArr) (up dw : List ℕ) (nev : ℕ) : Prop where
  shape : A.shape = [up.length * dw.length, nev]
  lay : A.lay ≠ .strided

/-- The many-body vector of column `j`. -/
def EvecArr.psi (A : NdArr) (n : ℕ) (up dw : List ℕ) (nev j : ℕ) : Finset (Fin (n + n)) → ℝ :=
  ket n up dw fun r => A.elem (up.length * dw.length) nev r j

/-- The weight given by the argument `coeffs`, 1 if it is `None`. -/
noncomputable def coeff (coeffs : Option (List ℝ)) (j : ℕ) : ℝ := (coeffs.map fun c => c[j]?.getD 0).getD 1

theorem weight_coeff (coeffs : Option (List ℝ)) (j : ℕ) : weight coeffs j = coeff coeffs j := by
  cases coeffs <;> rfl

/-- C43: in both memory layouts the returned numbers are the weighted expectation values of the number operators of the
two spins in the vectors of the columns. -/
theorem C43_expectation {n nup ndw nev : ℕ} {up dw : List ℕ} (hu : SectorList n nup up) (hd : SectorList n ndw dw) {A : NdArr}
    (hA : EvecArr A up dw nev) (coeffs : Option (List ℝ)) :
    ∃ U D A', evecsOccupation A up dw n coeffs = .ok (U, D, A') ∧
      ∀ (k : Fin n) (j : ℕ),
        U k j = coeff coeffs j * (EvecArr.psi A n up dw nev j ⬝ᵥ (num ℝ (orb false k)).mulVec (EvecArr.psi A n up dw nev j)) ∧
        D k j = coeff coeffs j * (EvecArr.psi A n up dw nev j ⬝ᵥ (num ℝ (orb true k)).mulVec (EvecArr.psi A n up dw nev j)) := by
  refine ⟨_, _, _, evecsOccupation_eq A up dw n nev coeffs hA.shape hA.lay, fun k j => ?_⟩
  unfold EvecArr.psi
  rw [num_up_ket hu hd, num_dw_ket hu hd, if_pos k.2, if_pos k.2, weight_coeff, Finset.mul_sum, Finset.mul_sum]
  exact ⟨Finset.sum_congr rfl fun i _ => by ring, Finset.sum_congr rfl fun i _ => by ring⟩

theorem psi_norm {n nup ndw nev : ℕ} {up dw : List ℕ} (hu : SectorList n nup up) (hd : SectorList n ndw dw) (A : NdArr) (j : ℕ) :
    EvecArr.psi A n up dw nev j ⬝ᵥ EvecArr.psi A n up dw nev j = ∑ iu ∈ Finset.range up.length, ∑ id ∈ Finset.range dw.length,
      A.elem (up.length * dw.length) nev (iu + up.length * id) j * A.elem (up.length * dw.length) nev (iu + up.length * id) j := by
  unfold EvecArr.psi
  rw [ket_inner hu hd, mul_comm, sum_range_mul', Finset.sum_comm, mul_comm]
  refine Finset.sum_congr rfl fun i _ => Finset.sum_congr rfl fun d _ => ?_
  rw [show d * up.length + i = i + up.length * d by ring]

theorem occ_bounds {n nup ndw : ℕ} {up dw : List ℕ} (hu : SectorList n nup up) (hd : SectorList n ndw dw) (A : NdArr) (nev j : ℕ) (s : Bool)
    (k : Fin n) : 0 ≤ EvecArr.psi A n up dw nev j ⬝ᵥ (num ℝ (orb s k)).mulVec (EvecArr.psi A n up dw nev j) ∧
      EvecArr.psi A n up dw nev j ⬝ᵥ (num ℝ (orb s k)).mulVec (EvecArr.psi A n up dw nev j) ≤
        EvecArr.psi A n up dw nev j ⬝ᵥ EvecArr.psi A n up dw nev j := by
  have hb : ∀ b : Bool, (0 : ℝ) ≤ (b.toNat : ℝ) ∧ (b.toNat : ℝ) ≤ 1 := by intro b; cases b <;> simp
  have hpos : ∀ (m : ℕ) (f : ℕ → ℝ), 0 ≤ ∑ i ∈ Finset.range m, f i * f i := fun m f => Finset.sum_nonneg fun i _ => mul_self_nonneg _
  rw [psi_norm hu hd]
  unfold EvecArr.psi
  cases s
  · rw [num_up_ket hu hd]
    exact ⟨Finset.sum_nonneg fun i _ => mul_nonneg (hb _).1 (hpos _ _),
      Finset.sum_le_sum fun i _ => mul_le_of_le_one_left (hpos _ _) (hb _).2⟩
  · rw [num_dw_ket hu hd, Finset.sum_comm]
    exact ⟨Finset.sum_nonneg fun i _ => mul_nonneg (hb _).1 (hpos _ _),
      Finset.sum_le_sum fun i _ => mul_le_of_le_one_left (hpos _ _) (hb _).2⟩

theorem occ_total {n nup ndw : ℕ} {up dw : List ℕ} (hu : SectorList n nup up) (hd : SectorList n ndw dw) (A : NdArr) (nev j : ℕ) :
    ∑ k : Fin n, EvecArr.psi A n up dw nev j ⬝ᵥ (num ℝ (orb false k)).mulVec (EvecArr.psi A n up dw nev j) =
        nup * (EvecArr.psi A n up dw nev j ⬝ᵥ EvecArr.psi A n up dw nev j) ∧
      ∑ k : Fin n, EvecArr.psi A n up dw nev j ⬝ᵥ (num ℝ (orb true k)).mulVec (EvecArr.psi A n up dw nev j) =
        ndw * (EvecArr.psi A n up dw nev j ⬝ᵥ EvecArr.psi A n up dw nev j) := by
  rw [psi_norm hu hd]
  unfold EvecArr.psi
  simp only [num_up_ket hu hd, num_dw_ket hu hd]
  constructor
  · rw [Finset.sum_comm, Finset.mul_sum]
    refine Finset.sum_congr rfl fun i hi => ?_
    rw [← Finset.sum_mul, sum_bits hu i (Finset.mem_range.mp hi)]
  · rw [Finset.sum_comm]
    conv_rhs => rw [Finset.sum_comm]
    rw [Finset.mul_sum]
    refine Finset.sum_congr rfl fun i hi => ?_
    rw [← Finset.sum_mul, sum_bits hd i (Finset.mem_range.mp hi)]

/-- C43: for normalised vectors and no weights each occupation lies in `[0,1]` and they sum to the particle numbers of the
sector. -/
theorem C43_particle_number {n nup ndw nev : ℕ} {up dw : List ℕ} (hu : SectorList n nup up) (hd : SectorList n ndw dw) {A : NdArr}
    (hA : EvecArr A up dw nev)
    (hnorm : ∀ j < nev, ∑ r ∈ Finset.range (up.length * dw.length), A.elem (up.length * dw.length) nev r j ^ 2 = 1) :
    ∃ U D A', evecsOccupation A up dw n none = .ok (U, D, A') ∧ ∀ j < nev,
      (∀ k < n, 0 ≤ U k j ∧ U k j ≤ 1 ∧ 0 ≤ D k j ∧ D k j ≤ 1) ∧
        ∑ k ∈ Finset.range n, U k j = nup ∧ ∑ k ∈ Finset.range n, D k j = ndw := by
  obtain ⟨U, D, A', h, he⟩ := C43_expectation hu hd hA none
  refine ⟨U, D, A', h, fun j hj => ?_⟩
  have h1 : EvecArr.psi A n up dw nev j ⬝ᵥ EvecArr.psi A n up dw nev j = 1 := by
    unfold EvecArr.psi
    rw [ket_inner hu hd, ← hnorm j hj]
    exact Finset.sum_congr rfl fun r _ => by ring
  have hc : coeff none j = 1 := rfl
  refine ⟨fun k hk => ?_, ?_, ?_⟩
  · have hU := (he ⟨k, hk⟩ j).1
    have hD := (he ⟨k, hk⟩ j).2
    simp only [hc, one_mul] at hU hD
    rw [hU, hD]
    have b1 := occ_bounds hu hd A nev j false ⟨k, hk⟩
    have b2 := occ_bounds hu hd A nev j true ⟨k, hk⟩
    rw [h1] at b1 b2
    exact ⟨b1.1, b1.2, b2.1, b2.2⟩
  · rw [Finset.sum_range, Finset.sum_congr rfl fun k _ => (he k j).1]
    simp only [hc, one_mul]
    rw [(occ_total hu hd A nev j).1, h1, mul_one]
  · rw [Finset.sum_range, Finset.sum_congr rfl fun k _ => (he k j).2]
    simp only [hc, one_mul]
    rw [(occ_total hu hd A nev j).2, h1, mul_one]

/-- C43: two arrays with the same elements in different memory layouts give the same occupations. -/
theorem C43_layout {n nev : ℕ} {up dw : List ℕ} {A B : NdArr} (hA : EvecArr A up dw nev) (hB : EvecArr B up dw nev)
    (h : ∀ r < up.length * dw.length, ∀ j < nev,
      A.elem (up.length * dw.length) nev r j = B.elem (up.length * dw.length) nev r j) (coeffs : Option (List ℝ)) :
    ∃ U D A' U' D' B', evecsOccupation A up dw n coeffs = .ok (U, D, A') ∧ evecsOccupation B up dw n coeffs = .ok (U', D', B') ∧
      ∀ k, ∀ j < nev, U k j = U' k j ∧ D k j = D' k j := by
  refine ⟨_, _, _, _, _, _, evecsOccupation_eq A up dw n nev coeffs hA.shape hA.lay,
    evecsOccupation_eq B up dw n nev coeffs hB.shape hB.lay, fun k j hj => ?_⟩
  have hlt : ∀ {i d : ℕ}, i ∈ Finset.range up.length → d ∈ Finset.range dw.length → i + up.length * d < up.length * dw.length := by
    intro i d hi hd
    rw [Finset.mem_range] at hi hd
    nlinarith
  constructor
  · by_cases hk : k < n
    · rw [if_pos hk, if_pos hk]
      refine Finset.sum_congr rfl fun i hi => ?_
      congr 2
      exact Finset.sum_congr rfl fun d hd => by rw [h _ (hlt hi hd) j hj]
    · rw [if_neg hk, if_neg hk]
  · by_cases hk : k < n
    · rw [if_pos hk, if_pos hk]
      refine Finset.sum_congr rfl fun d hd => ?_
      congr 2
      exact Finset.sum_congr rfl fun i hi => by rw [h _ (hlt hi hd) j hj]
    · rw [if_neg hk, if_neg hk]

/-! ### The thermal average -/

/-- A sector of the espace with its eigenvector array. -/
structure OccOk (n nup ndw : ℕ) (s : OccSct) : Prop where
  up : SectorList n nup s.up
  dw : SectorList n ndw s.dw
  arr : EvecArr s.eigvecs s.up s.dw s.eigvals.length

/-- `Σ_j e^{-β(E_j - E_gs)} ⟨ψ_j| n_{k,s} |ψ_j⟩` over the eigenstates of a sector. -/
noncomputable def boltzOcc (egs beta : ℝ) (n : ℕ) (b : Bool) (k : Fin n) (s : OccSct) : ℝ :=
  ∑ j : Fin s.eigvals.length, Real.exp (-beta * (s.eigvals[j] - egs)) *
    (EvecArr.psi s.eigvecs n s.up s.dw s.eigvals.length j ⬝ᵥ
      (num ℝ (orb b k)).mulVec (EvecArr.psi s.eigvecs n s.up s.dw s.eigvals.length j))

/-- `Σ_j e^{-β(E_j - E_gs)}` over the eigenstates of a sector. -/
noncomputable def boltzZ (egs beta : ℝ) (s : OccSct) : ℝ := ∑ j : Fin s.eigvals.length, Real.exp (-beta * (s.eigvals[j] - egs))

theorem occupationStep_eq {n nup ndw : ℕ} {s : OccSct} (h : OccOk n nup ndw s) (egs beta : ℝ)
    (st : (ℕ → ℝ) × (ℕ → ℝ) × ℝ × List NdArr) :
    ∃ st', occupationStep egs beta n st s = .ok st' ∧
      (∀ k : Fin n, st'.1 k = st.1 k + boltzOcc egs beta n false k s ∧ st'.2.1 k = st.2.1 k + boltzOcc egs beta n true k s) ∧
      st'.2.2.1 = st.2.2.1 + boltzZ egs beta s ∧
      st'.2.2.2 = st.2.2.2 ++ [afterCall s.eigvecs s.eigvals.length s.dw.length s.up.length] := by
  have hnev : getItem s.eigvecs.shape 1 = .ok s.eigvals.length := by rw [h.arr.shape]; rfl
  set exps := s.eigvals.map fun E => Real.exp (-beta * (E - egs)) with hexps
  obtain ⟨U, D, A', hev, he⟩ := C43_expectation h.up h.dw h.arr (some exps)
  have hA' : A' = afterCall s.eigvecs s.eigvals.length s.dw.length s.up.length := by
    have := evecsOccupation_eq s.eigvecs s.up s.dw n s.eigvals.length (some exps) h.arr.shape h.arr.lay
    rw [this] at hev
    simp only [Except.ok.injEq, Prod.mk.injEq] at hev
    exact hev.2.2.symm
  refine ⟨_, by unfold occupationStep; simp only [hnev, bind, Except.bind, pure, Except.pure]; rw [← hexps, hev], ?_⟩
  have hco : ∀ j : Fin s.eigvals.length, coeff (some exps) j = Real.exp (-beta * (s.eigvals[j] - egs)) := by
    intro j
    simp [coeff, hexps]
  refine ⟨fun k => ⟨?_, ?_⟩, ?_, by rw [hA']⟩
  · simp only [sum_map_range, boltzOcc]
    rw [Finset.sum_range]
    congr 1
    exact Finset.sum_congr rfl fun j _ => by rw [(he k j).1, hco]
  · simp only [sum_map_range, boltzOcc]
    rw [Finset.sum_range]
    congr 1
    exact Finset.sum_congr rfl fun j _ => by rw [(he k j).2, hco]
  · simp only [boltzZ, hexps]
    rw [← List.sum_ofFn]
    congr 2
    apply List.ext_getElem <;> simp

theorem occupation_loop {n : ℕ} (egs beta : ℝ) (es : List OccSct) (h : ∀ s ∈ es, ∃ nup ndw, OccOk n nup ndw s)
    (st : (ℕ → ℝ) × (ℕ → ℝ) × ℝ × List NdArr) :
    ∃ st', forM' (occupationStep egs beta n) es st = .ok st' ∧
      (∀ k : Fin n, st'.1 k = st.1 k + (es.map (boltzOcc egs beta n false k)).sum ∧
        st'.2.1 k = st.2.1 k + (es.map (boltzOcc egs beta n true k)).sum) ∧
      st'.2.2.1 = st.2.2.1 + (es.map (boltzZ egs beta)).sum ∧
      st'.2.2.2 = st.2.2.2 ++ es.map fun s => afterCall s.eigvecs s.eigvals.length s.dw.length s.up.length := by
  induction es generalizing st with
  | nil => exact ⟨st, rfl, by simp, by simp, by simp⟩
  | cons s es ih =>
    obtain ⟨nup, ndw, hs⟩ := h s (by simp)
    obtain ⟨st1, h1, hk, hz, ha⟩ := occupationStep_eq hs egs beta st
    obtain ⟨st2, h2, hk2, hz2, ha2⟩ := ih (fun s' hs' => h s' (by simp [hs'])) st1
    refine ⟨st2, by simp only [forM', h1, h2], fun k => ⟨?_, ?_⟩, ?_, ?_⟩
    · rw [(hk2 k).1, (hk k).1, List.map_cons, List.sum_cons, add_assoc]
    · rw [(hk2 k).2, (hk k).2, List.map_cons, List.sum_cons, add_assoc]
    · rw [hz2, hz, List.map_cons, List.sum_cons, add_assoc]
    · rw [ha2, ha, List.map_cons, List.append_assoc]; rfl

/-- C43: `get_occupation` returns the Boltzmann averages of the number operators over all eigenstates of the espace. -/
theorem C43_thermal {n : ℕ} (egs beta : ℝ) (es : List OccSct) (h : ∀ s ∈ es, ∃ nup ndw, OccOk n nup ndw s) :
    ∃ U D As, getOccupation es egs beta n = .ok (U, D, As) ∧ ∀ k : Fin n,
      U k = (es.map (boltzOcc egs beta n false k)).sum / (es.map (boltzZ egs beta)).sum ∧
      D k = (es.map (boltzOcc egs beta n true k)).sum / (es.map (boltzZ egs beta)).sum := by
  obtain ⟨st, h1, hk, hz, ha⟩ := occupation_loop egs beta es h ((fun _ => 0), (fun _ => 0), 0, [])
  refine ⟨fun k => st.1 k / st.2.2.1, fun k => st.2.1 k / st.2.2.1, st.2.2.2, by
    unfold getOccupation; simp only [h1, bind, Except.bind, pure, Except.pure], fun k => ?_⟩
  simp only
  simp only [zero_add] at hk hz
  rw [(hk k).1, (hk k).2, hz]
  exact ⟨rfl, rfl⟩

theorem boltz_bounds {n nup ndw : ℕ} {s : OccSct} (h : OccOk n nup ndw s) (egs beta : ℝ) (b : Bool) (k : Fin n)
    (hnorm : ∀ j < s.eigvals.length, ∑ r ∈ Finset.range (s.up.length * s.dw.length),
      s.eigvecs.elem (s.up.length * s.dw.length) s.eigvals.length r j ^ 2 = 1) :
    0 ≤ boltzOcc egs beta n b k s ∧ boltzOcc egs beta n b k s ≤ boltzZ egs beta s := by
  have hb : ∀ j : Fin s.eigvals.length, EvecArr.psi s.eigvecs n s.up s.dw s.eigvals.length j ⬝ᵥ
      EvecArr.psi s.eigvecs n s.up s.dw s.eigvals.length j = 1 := by
    intro j
    unfold EvecArr.psi
    rw [ket_inner h.up h.dw, ← hnorm j j.2]
    exact Finset.sum_congr rfl fun r _ => by ring
  constructor
  · exact Finset.sum_nonneg fun j _ => mul_nonneg (Real.exp_pos _).le (occ_bounds h.up h.dw _ _ _ _ _).1
  · refine Finset.sum_le_sum fun j _ => mul_le_of_le_one_right (Real.exp_pos _).le ?_
    have := (occ_bounds h.up h.dw s.eigvecs s.eigvals.length j b k).2
    rwa [hb j] at this

/-- C43: the thermal occupations of normalised eigenvectors lie between 0 and 1. -/
theorem C43_thermal_bounds {n : ℕ} (egs beta : ℝ) (es : List OccSct) (h : ∀ s ∈ es, ∃ nup ndw, OccOk n nup ndw s)
    (hnorm : ∀ s ∈ es, ∀ j < s.eigvals.length, ∑ r ∈ Finset.range (s.up.length * s.dw.length),
      s.eigvecs.elem (s.up.length * s.dw.length) s.eigvals.length r j ^ 2 = 1) :
    ∃ U D As, getOccupation es egs beta n = .ok (U, D, As) ∧ ∀ k < n, 0 ≤ U k ∧ U k ≤ 1 ∧ 0 ≤ D k ∧ D k ≤ 1 := by
  obtain ⟨U, D, As, hr, hv⟩ := C43_thermal egs beta es h
  refine ⟨U, D, As, hr, fun k hk => ?_⟩
  have key : ∀ b : Bool, 0 ≤ (es.map (boltzOcc egs beta n b ⟨k, hk⟩)).sum ∧
      (es.map (boltzOcc egs beta n b ⟨k, hk⟩)).sum ≤ (es.map (boltzZ egs beta)).sum := by
    intro b
    constructor
    · apply List.sum_nonneg
      intro x hx
      obtain ⟨s, hs, rfl⟩ := List.mem_map.mp hx
      obtain ⟨nup, ndw, hok⟩ := h s hs
      exact (boltz_bounds hok egs beta b ⟨k, hk⟩ (hnorm s hs)).1
    · apply List.sum_le_sum
      intro s hs
      obtain ⟨nup, ndw, hok⟩ := h s hs
      exact (boltz_bounds hok egs beta b ⟨k, hk⟩ (hnorm s hs)).2
  have hU := (hv ⟨k, hk⟩).1
  have hD := (hv ⟨k, hk⟩).2
  simp only at hU hD
  rw [hU, hD]
  exact ⟨div_nonneg (key _).1 ((key false).1.trans (key false).2), div_le_one_of_le₀ (key _).2 ((key false).1.trans (key false).2),
    div_nonneg (key _).1 ((key false).1.trans (key false).2), div_le_one_of_le₀ (key _).2 ((key false).1.trans (key false).2)⟩

/-! ### What the call does to the arrays -/

/-- C44: with Fortran ordered eigenvectors the arrays of the espace are left as they were. The full statement, for every
memory layout, is refuted by `C44_refuted`. -/
theorem C44_fortran_partial {n : ℕ} (egs beta : ℝ) (es : List OccSct) (h : ∀ s ∈ es, ∃ nup ndw, OccOk n nup ndw s)
    (hF : ∀ s ∈ es, s.eigvecs.lay = .F) :
    ∃ U D, getOccupation es egs beta n = .ok (U, D, es.map OccSct.eigvecs) := by
  obtain ⟨st, h1, hk, hz, ha⟩ := occupation_loop egs beta es h ((fun _ => 0), (fun _ => 0), 0, [])
  refine ⟨_, _, by
    unfold getOccupation; simp only [h1, bind, Except.bind, pure, Except.pure]
    rw [ha, List.nil_append, List.map_congr_left (g := OccSct.eigvecs)]
    intro s hs
    simp only [afterCall, hF s hs]⟩

/-- For every C ordered sector: the call replaces the shape of the caller's array, and unless the number of eigenvectors
happens to be the number of up states, the same call on the espace left behind raises `ValueError`. -/
theorem C44_c_order {n nup ndw : ℕ} {s : OccSct} (h : OccOk n nup ndw s) (hC : s.eigvecs.lay = .C) (egs beta : ℝ) :
    ∃ U D A, getOccupation [s] egs beta n = .ok (U, D, [A]) ∧ A.shape ≠ s.eigvecs.shape ∧
      (0 < s.up.length → 0 < s.dw.length → s.eigvals.length ≠ s.up.length →
        getOccupation [{ s with eigvecs := A }] egs beta n = .error .valueError) := by
  obtain ⟨st, h1, hk, hz, ha⟩ := occupation_loop (n := n) egs beta [s] (by simpa using ⟨nup, ndw, h⟩) ((fun _ => 0), (fun _ => 0), 0, [])
  refine ⟨fun k => st.1 k / st.2.2.1, fun k => st.2.1 k / st.2.2.1, ⟨[s.dw.length, s.up.length, s.eigvals.length], s.eigvecs.lay, s.eigvecs.data⟩, by
    unfold getOccupation; simp only [h1, bind, Except.bind, pure, Except.pure]
    rw [ha]; simp [afterCall, hC], ?_, ?_⟩
  · rw [h.arr.shape]; simp
  · intro hu hd hne
    have hg : getItem [s.dw.length, s.up.length, s.eigvals.length] 1 = Except.ok (ε := PyErr) s.up.length := rfl
    have hr : reshapeEvecs ⟨[s.dw.length, s.up.length, s.eigvals.length], s.eigvecs.lay, s.eigvecs.data⟩ s.up.length s.dw.length s.up.length
        = .error .valueError := by
      unfold reshapeEvecs
      rw [if_pos]
      simp only [List.prod_cons, List.prod_nil, mul_one]
      intro hh
      apply hne
      have : (s.dw.length * s.up.length) * s.eigvals.length = (s.dw.length * s.up.length) * s.up.length := by
        rw [mul_assoc, hh]; ring
      exact Nat.eq_of_mul_eq_mul_left (Nat.mul_pos hd hu) this
    unfold getOccupation
    simp only [forM', occupationStep, hg, bind, Except.bind, evecsOccupation, hr]

/-- One electron of each spin on two sites, the unit vectors stored in C order. -/
noncomputable def cSector : OccSct :=
  ⟨[0, 1, 2, 3], ⟨[4, 4], .C, fun r => if r % 5 = 0 then 1 else 0⟩, [1, 2], [1, 2]⟩

theorem cSector_ok : OccOk 2 1 1 cSector :=
  ⟨sectorList_of_generate (w := 32) (by decide) (by decide) (by decide) (by rfl),
    sectorList_of_generate (w := 32) (by decide) (by decide) (by decide) (by rfl), ⟨rfl, by simp [cSector]⟩⟩

/-- C44 is false: there is a valid espace on which a second, identical call of `get_occupation` raises `ValueError`. -/
theorem C44_refuted : ∃ (n nup ndw : ℕ) (s : OccSct), OccOk n nup ndw s ∧ ∀ egs beta, ∃ U D A,
    getOccupation [s] egs beta n = .ok (U, D, [A]) ∧ A.shape ≠ s.eigvecs.shape ∧
      getOccupation [{ s with eigvecs := A }] egs beta n = .error .valueError := by
  refine ⟨2, 1, 1, cSector, cSector_ok, fun egs beta => ?_⟩
  obtain ⟨U, D, A, h1, h2, h3⟩ := C44_c_order cSector_ok rfl egs beta
  exact ⟨U, D, A, h1, h2, h3 (by decide) (by decide) (by simp [cSector])⟩

/-- The hypotheses of C43 hold for this sector: its columns are normalised. -/
example : OccOk 2 1 1 cSector ∧ ∀ j < 4, ∑ r ∈ Finset.range 4, cSector.eigvecs.elem 4 4 r j ^ 2 = 1 := by
  refine ⟨cSector_ok, fun j hj => ?_⟩
  have : ∀ r, cSector.eigvecs.elem 4 4 r j = if (r * 4 + j) % 5 = 0 then 1 else 0 := fun r => rfl
  simp only [this]
  interval_cases j <;> simp only [ite_pow, one_pow, Finset.sum_range_succ, Finset.sum_range_zero] <;> norm_num

/-! ### Distributed vectors -/

/-- C47: if the number of down states is a multiple of the number of ranks and rank `r` holds its block of rows of the
eigenvectors (in either layout), the reduced result is that of the serial call on the whole array. -/
theorem C47_mpi_eq_serial {n nev size : ℕ} {up dw : List ℕ} (hsize : 0 < size) (hdiv : size ∣ dw.length) {A : NdArr}
    (hA : EvecArr A up dw nev) (loc : ℕ → NdArr)
    (hshape : ∀ r < size, (loc r).shape = [up.length * (dw.length / size), nev] ∧ (loc r).lay ≠ .strided)
    (hrows : ∀ r < size, ∀ i < up.length * (dw.length / size), ∀ j < nev,
      (loc r).elem (up.length * (dw.length / size)) nev i j =
        A.elem (up.length * dw.length) nev (r * (up.length * (dw.length / size)) + i) j) (coeffs : Option (List ℝ)) :
    ∃ U D U' D' A', evecsOccupationMpi size loc up dw n coeffs = .ok (U, D) ∧ evecsOccupation A up dw n coeffs = .ok (U', D', A') ∧
      ∀ k, ∀ j < nev, U k j = U' k j ∧ D k j = D' k j := by
  obtain ⟨dl, hdl⟩ := hdiv
  have hdl' : dw.length / size = dl := by rw [hdl, Nat.mul_div_cancel_left _ hsize]
  rw [hdl'] at hshape hrows
  set X : ℕ → ℕ → ℕ → ℝ := fun iu id j => A.elem (up.length * dw.length) nev (iu + up.length * id) j *
    A.elem (up.length * dw.length) nev (iu + up.length * id) j with hX
  set bu : ℕ → ℕ → ℝ := fun i k => (((up[i]?.getD 0).testBit k).toNat : ℝ) with hbu
  set bd : ℕ → ℕ → ℝ := fun i k => (((dw[i]?.getD 0).testBit k).toNat : ℝ) with hbd
  have hloc : ∀ r < size, ∃ u w A', evecsOccupation (loc r) up ((dw.drop (r * dl)).take dl) n coeffs = .ok (u, w, A') ∧
      ∀ k, ∀ j < nev,
        u k j = (if k < n then ∑ iu ∈ Finset.range up.length, bu iu k * (weight coeffs j * ∑ id ∈ Finset.range dl, X iu (r * dl + id) j) else 0) ∧
        w k j = (if k < n then ∑ id ∈ Finset.range dl, bd (r * dl + id) k * (weight coeffs j * ∑ iu ∈ Finset.range up.length, X iu (r * dl + id) j) else 0) := by
    intro r hr
    have hrl : r * dl + dl ≤ dw.length := by rw [hdl]; nlinarith
    have hlen : ((dw.drop (r * dl)).take dl).length = dl := by rw [List.length_take, List.length_drop]; omega
    have hev := evecsOccupation_eq (loc r) up ((dw.drop (r * dl)).take dl) n nev coeffs (by rw [hlen]; exact (hshape r hr).1) (hshape r hr).2
    rw [hlen] at hev
    refine ⟨_, _, _, hev, fun k j hj => ?_⟩
    have hel : ∀ iu ∈ Finset.range up.length, ∀ id ∈ Finset.range dl,
        (loc r).elem (up.length * dl) nev (iu + up.length * id) j * (loc r).elem (up.length * dl) nev (iu + up.length * id) j
          = X iu (r * dl + id) j := by
      intro iu hiu id hid
      rw [Finset.mem_range] at hiu hid
      rw [hrows r hr _ (by nlinarith) j hj, hX]
      simp only
      rw [show r * (up.length * dl) + (iu + up.length * id) = iu + up.length * (r * dl + id) by ring]
    have hbit : ∀ id ∈ Finset.range dl, (((((dw.drop (r * dl)).take dl)[id]?.getD 0).testBit k).toNat : ℝ) = bd (r * dl + id) k := by
      intro id hid
      rw [Finset.mem_range] at hid
      rw [hbd]
      simp only
      rw [List.getElem?_take_of_lt hid, List.getElem?_drop]
    by_cases hk : k < n
    · simp only [if_pos hk]
      constructor
      · refine Finset.sum_congr rfl fun iu hiu => ?_
        congr 2
        exact Finset.sum_congr rfl fun id hid => hel iu hiu id hid
      · refine Finset.sum_congr rfl fun id hid => ?_
        rw [hbit id hid]
        congr 2
        exact Finset.sum_congr rfl fun iu hiu => hel iu hiu id hid
    · simp [if_neg hk]
  have hloop : ∀ m, m ≤ size → ∃ U D, forM' (fun (st : (ℕ → ℕ → ℝ) × (ℕ → ℕ → ℝ)) r => do
      let (u, w, _) ← evecsOccupation (loc r) up ((dw.drop (r * dl)).take dl) n coeffs
      pure ((fun k j => st.1 k j + u k j), (fun k j => st.2 k j + w k j))) (List.range m) ((fun _ _ => 0), (fun _ _ => 0)) = .ok (U, D) ∧
      ∀ k, ∀ j < nev,
        U k j = (if k < n then ∑ iu ∈ Finset.range up.length, bu iu k * (weight coeffs j * ∑ id ∈ Finset.range (m * dl), X iu id j) else 0) ∧
        D k j = (if k < n then ∑ id ∈ Finset.range (m * dl), bd id k * (weight coeffs j * ∑ iu ∈ Finset.range up.length, X iu id j) else 0) := by
    intro m hm
    induction m with
    | zero => exact ⟨_, _, rfl, by simp⟩
    | succ m ih =>
      obtain ⟨U, D, h1, h2⟩ := ih (by omega)
      obtain ⟨u, w, A', h3, h4⟩ := hloc m (by omega)
      refine ⟨fun k j => U k j + u k j, fun k j => D k j + w k j, by
        rw [List.range_succ, forM'_append, h1]; simp only [forM', h3, bind, Except.bind, pure, Except.pure], fun k j hj => ?_⟩
      simp only
      rw [(h2 k j hj).1, (h2 k j hj).2, (h4 k j hj).1, (h4 k j hj).2]
      by_cases hk : k < n
      · simp only [if_pos hk]
        constructor
        · rw [← Finset.sum_add_distrib]
          refine Finset.sum_congr rfl fun iu _ => ?_
          rw [Nat.succ_mul, Finset.sum_range_add]; ring
        · rw [Nat.succ_mul, Finset.sum_range_add]
      · simp [if_neg hk]
  obtain ⟨U, D, h1, h2⟩ := hloop size le_rfl
  refine ⟨U, D, _, _, _, by unfold evecsOccupationMpi; rw [hdl']; exact h1,
    evecsOccupation_eq A up dw n nev coeffs hA.shape hA.lay, fun k j hj => ?_⟩
  rw [(h2 k j hj).1, (h2 k j hj).2, ← hdl]
  exact ⟨rfl, rfl⟩

/-- The arrays the ranks may hold: if the call succeeds, they have together `size * ⌊dwn/size⌋ * dup` rows, so a
distribution that covers all rows exists only if `size` divides the number of down states (the MPI matrix-vector product
refuses any other size). -/
theorem C47_rows {n size : ℕ} {up dw : List ℕ} (loc : ℕ → NdArr) (coeffs : Option (List ℝ)) (r : ℕ) {U D A'}
    (nev rows : ℕ) (hs : (loc r).shape = [rows, nev]) (hnev : 0 < nev)
    (h : evecsOccupation (loc r) up ((dw.drop (r * (dw.length / size))).take (dw.length / size)) n coeffs = .ok (U, D, A')) (hr : r < size) :
    rows = dw.length / size * up.length := by
  have hrl : r * (dw.length / size) + dw.length / size ≤ dw.length := by
    have := Nat.div_mul_le_self dw.length size
    have h2 : (r + 1) * (dw.length / size) ≤ size * (dw.length / size) := Nat.mul_le_mul_right _ hr
    nlinarith
  have hlen : ((dw.drop (r * (dw.length / size))).take (dw.length / size)).length = dw.length / size := by
    rw [List.length_take, List.length_drop]; omega
  have hg : getItem (loc r).shape 1 = .ok nev := by rw [hs]; rfl
  unfold evecsOccupation at h
  simp only [hg, bind, Except.bind, hlen] at h
  unfold reshapeEvecs at h
  by_cases hp : (loc r).shape.prod ≠ nev * (dw.length / size) * up.length
  · rw [if_pos hp] at h; simp at h
  · push Not at hp
    rw [hs] at hp
    simp only [List.prod_cons, List.prod_nil, mul_one] at hp
    exact Nat.eq_of_mul_eq_mul_right hnev (by rw [hp]; ring)

end Edpyt
