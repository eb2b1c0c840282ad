import Verif.Proof.LanczosRows
import Verif.Props.SqBuild
import Verif.Props.ThermalGf
/-!
The contribution of one sector to a Lanczos Green function.
-/
namespace Edpyt
open Spec Matrix

theorem SectorList.eq {n p : ℕ} {L L' : List ℕ} (h : SectorList n p L) (h' : SectorList n p L') : L = L' := by
  apply List.Perm.eq_of_pairwise (le := (· < ·)) (fun a b _ _ h1 h2 => absurd h1 (lt_asymm h2)) h.sorted h'.sorted
  rw [List.perm_ext_iff_of_nodup h.nodup h'.nodup]
  intro s
  rw [h.mem, h'.mem]

/-- The basis of a sector is the one `generate_states` gives. -/
theorem SctOk.gen {n p q : ℕ} {s : Sct} {up dw : List ℕ} (h : SctOk n p q s up dw) {w : ℕ} (hn : n ≤ 32) (hw : n ≤ w) (hp : p ≤ n) (hq : q ≤ n) :
    generateStates w n (p : ℤ) = .ok up ∧ generateStates w n (q : ℤ) = .ok dw := by
  have h1 := generateStates_gs (w := w) (n := n) (p := p) hp
  have h2 := generateStates_gs (w := w) (n := n) (p := q) hq
  rw [h.hup.eq (sectorList_of_generate hn hw hp h1), h.hdw.eq (sectorList_of_generate hn hw hq h2)]
  exact ⟨h1, h2⟩

/-- A sector, possibly truncated, with eigenpairs of `H`. -/
structure EigSct (n : ℕ) (H : Matrix (Finset (Fin (n + n))) (Finset (Fin (n + n))) ℝ) (q : ℕ × ℕ) (s : Sct) : Prop where
  ok : ∃ up dw, SctOk n q.1 q.2 s up dw
  eig : ∀ k, k < s.eigvals.length → H *ᵥ s.ket n k = (s.eigvals[k]?.getD 0) • s.ket n k

/-- The exact contribution of the states of a sector. -/
noncomputable def halfExact (n : ℕ) (H B : Matrix (Finset (Fin (n + n))) (Finset (Fin (n + n))) ℝ) (σ β egs : ℝ) (I : Sct) (z : ℂ) : ℂ :=
  ∑ k ∈ Finset.range I.eigvals.length, ((Real.exp (-β * ((I.eigvals[k]?.getD 0) - egs)) : ℝ) : ℂ) *
    resElem z (σ • (H - (I.eigvals[k]?.getD 0) • (1 : Matrix _ _ ℝ))) (B *ᵥ I.ket n k) (B *ᵥ I.ket n k)

/-- Bound on the error of the Lanczos evaluation of it. -/
noncomputable def halfErr (n : ℕ) (B : Matrix (Finset (Fin (n + n))) (Finset (Fin (n + n))) ℝ) (β egs : ℝ) (I : Sct) (δ ε η : ℝ) : ℝ :=
  ∑ k ∈ Finset.range I.eigvals.length, Real.exp (-β * ((I.eigvals[k]?.getD 0) - egs)) *
    ((B *ᵥ I.ket n k) ⬝ᵥ (B *ᵥ I.ket n k) * ε / η ^ 2 + δ ^ 2 / |η|)

theorem resElem_smul_smul {ι : Type} [Fintype ι] [DecidableEq ι] (A : Matrix ι ι ℝ) (z : ℂ) (s : ℝ) (x : ι → ℝ) :
    resElem z A (s • x) (s • x) = ((s ^ 2 : ℝ) : ℂ) * resElem z A x x := by
  unfold resElem
  have : (fun i => ((s • x) i : ℂ)) = (s : ℂ) • fun i => (x i : ℂ) := by
    funext i; simp
  rw [this, Matrix.mulVec_smul, dotProduct_smul, smul_dotProduct]
  simp only [smul_eq_mul]
  push_cast; ring

section
variable {a : HamArgs} {w : ℕ}

theorem isMatvec_eq (ha : a.Valid) (hw : a.n ≤ w) {p q : ℕ} (hp : p ≤ a.n) (hq : q ≤ a.n) {up dw : List ℕ}
    (hup : generateStates w a.n (p : ℤ) = .ok up) (hdw : generateStates w a.n (q : ℤ) = .ok dw) {ops : List (Op ℝ)}
    (h : a.Build (.spin up dw) (.ok ops)) :
    ∃ D, IsSectorHam a up dw D ∧ (secMat D (up.length * dw.length)).IsSymm ∧
      ∀ mv, IsMatvec ops (up.length * dw.length) mv ↔ mv = (secMat D (up.length * dw.length) *ᵥ ·) := by
  obtain ⟨D, hD, hDs⟩ := build_todense ha hw hp hq hup hdw h
  obtain ⟨D2, g1, g2, g3⟩ := C24_matvec_eq_todense (spinBuild_of_build ha hw hp hq hup hdw h)
  obtain rfl : D2 = D := by rw [g1] at hD; exact Except.ok.inj hD
  obtain ⟨D3, s1, s2, s3⟩ := C17_symmetric (spinBuild_of_build ha hw hp hq hup hdw h) ha.symmH ha.symmX ha.symmP
  obtain rfl : D2 = D3 := by rw [g1] at s1; exact Except.ok.inj s1
  have hmv : ∀ (x : Fin (up.length * dw.length) → ℝ) result, MatvecOperator ops (List.ofFn x) result → result = List.ofFn (secMat D2 (up.length * dw.length) *ᵥ x) := by
    intro x result hm
    obtain ⟨h1, h2⟩ := g3 (List.ofFn x) result (by rw [List.length_ofFn, g2]) hm
    apply List.ext_getElem
    · rw [h1, g2, List.length_ofFn]
    · intro i hi1 hi2
      rw [List.length_ofFn] at hi2
      have := h2 i (by rw [g2]; exact hi2)
      rw [List.getElem?_eq_getElem hi1, Option.some.injEq] at this
      rw [this, List.getElem_ofFn, g2, Finset.sum_range]
      simp only [Matrix.mulVec, dotProduct, secMat, Matrix.of_apply]
      apply Finset.sum_congr rfl; intro j _
      rw [List.getElem?_eq_getElem (by rw [List.length_ofFn]; exact j.2), List.getElem_ofFn]
      rfl
  refine ⟨D2, hDs, ?_, fun mv => ⟨fun hm => ?_, ?_⟩⟩
  · ext i j
    simp only [Matrix.transpose_apply, secMat, Matrix.of_apply]
    exact s3 _ _ (by rw [g2]; exact j.2) (by rw [g2]; exact i.2)
  · funext x
    exact List.ofFn_injective (hmv x _ (hm x))
  · rintro rfl x
    obtain ⟨res, hres⟩ := C24_matvec_exists ops (List.ofFn x)
    rw [hmv x res hres] at hres
    exact hres

/-- The numerical range of the matrix of a sector lies within that of the Hamiltonian. -/
theorem sector_range {p q : ℕ} {up dw : List ℕ} (hu : SectorList a.n p up) (hd : SectorList a.n q dw) {D : Dense ℝ} (hD : IsSectorHam a up dw D) (lo hi : ℝ)
    (h : NumRange a.ham lo hi) : NumRange (secMat D (up.length * dw.length)) lo hi := by
  intro x
  have h1 := h (ketMat a.n up dw *ᵥ x)
  have e1 : ∀ y z : Fin (up.length * dw.length) → ℝ, (ketMat a.n up dw *ᵥ y) ⬝ᵥ (ketMat a.n up dw *ᵥ z) = y ⬝ᵥ z := by
    intro y z
    rw [Matrix.dotProduct_mulVec, Matrix.vecMul_mulVec, ketMat_isometry hu hd, Matrix.vecMul_one]
  rw [Matrix.mulVec_mulVec, ketMat_intertwine hu hd hD, ← Matrix.mulVec_mulVec, e1, e1] at h1
  exact h1

/-- The Lanczos loop over the states of a sector. -/
theorem lanczosHalf_out {rep : GfRepr} {catch_ : Bool} {cfg : LancCfg} (jk : ℝ) (hc : cfg.Ok) (ha : a.Valid) (hH : a.ham.IsSymm) (hw : a.n ≤ w) {p q : ℕ} (hp : p ≤ a.n) (hq : q ≤ a.n)
    {I J : Sct} {up dw : List ℕ} (hJ : SctOk a.n p q J up dw) {B : Matrix (Finset (Fin (a.n + a.n))) (Finset (Fin (a.n + a.n))) ℝ} {v0 : ℕ → ℕ → ℝ} {s : ℝ} (hs : s ^ 2 = 1)
    (hv : ∀ k, ket a.n up dw (v0 k) = s • (B *ᵥ I.ket a.n k)) {ops : List (Op ℝ)} (hb : a.Build J.states (.ok ops)) {mv : (Fin J.d → ℝ) → Fin J.d → ℝ} (hm : IsMatvec ops J.d mv)
    (op : Ladder) (β egs : ℝ) {r : Except PyErr (List GfFn × List LancRun)}
    (h : ForR (LanczosRow cfg rep catch_ J.d mv v0 I.eigvals (fun E => Real.exp (-β * (E - egs))) op.sign) (List.range I.eigvals.length) ([], []) r) :
    (catch_ = false ∧ r = .error .zeroNorm ∧ ∃ k < I.eigvals.length, (B *ᵥ I.ket a.n k) ⬝ᵥ (B *ᵥ I.ket a.n k) < cfg.delta ^ 2) ∨
    ∃ fs log, r = .ok (fs, log) ∧ (∀ run ∈ log, run.d = J.d ∧ run.Of cfg) ∧
      ∀ (e eta ε : ℝ), eta ≠ 0 → 0 ≤ ε → (∀ run ∈ log, run.AccLe a.ham e eta ε) →
      ‖(fs.map fun f => f.eval jk e eta).sum - halfExact a.n a.ham B op.sign β egs I (e + Complex.I * eta)‖ ≤ halfErr a.n B β egs I cfg.delta ε eta := by
  obtain ⟨hup, hdw⟩ := hJ.gen ha.le hw hp hq
  obtain ⟨Jst, Jd, Jv, Jw⟩ := J
  obtain rfl : Jst = .spin up dw := hJ.states
  obtain rfl : Jd = up.length * dw.length := hJ.d
  simp only at hm h hb
  obtain ⟨D, hD, hDs, hmv⟩ := isMatvec_eq ha hw hp hq hup hdw hb
  obtain rfl := (hmv mv).mp hm
  have hnorm : ∀ k, (fun c : Fin (up.length * dw.length) => v0 k c) ⬝ᵥ (fun c : Fin (up.length * dw.length) => v0 k c) = (B *ᵥ I.ket a.n k) ⬝ᵥ (B *ᵥ I.ket a.n k) := by
    intro k
    have h1 := ket_inner hJ.hup hJ.hdw (v0 k) (v0 k)
    rw [hv, smul_dotProduct, dotProduct_smul, smul_smul, ← pow_two, hs, one_smul, Finset.sum_range] at h1
    exact h1.symm
  rcases lanczosRows_out jk hc hDs (fun x => (Real.exp_pos _).le) (sector_range hJ.hup hJ.hdw hD) _ h with ⟨h1, h2, k, hk, h3⟩ | ⟨fs, log, h1, h2, h3⟩
  · exact .inl ⟨h1, h2, k, List.mem_range.mp hk, by rw [← hnorm]; exact h3⟩
  · refine .inr ⟨fs, log, by simpa using h1, h2, fun e eta ε he hε hlog => ?_⟩
    have hb := h3 e eta ε he hε hlog
    have him : (e + Complex.I * eta : ℂ).im ≠ 0 := by simpa using he
    have g : ∀ k, resElem (e + Complex.I * eta) (op.sign • (secMat D (up.length * dw.length) - (I.eigvals[k]?.getD 0) • (1 : Matrix _ _ ℝ)))
        (fun c : Fin (up.length * dw.length) => v0 k c) (fun c : Fin (up.length * dw.length) => v0 k c) =
        resElem (e + Complex.I * eta) (op.sign • (a.ham - (I.eigvals[k]?.getD 0) • (1 : Matrix _ _ ℝ))) (B *ᵥ I.ket a.n k) (B *ᵥ I.ket a.n k) := by
      intro k
      rw [sector_resElem hJ.hup hJ.hdw hD hH hDs him, hv, resElem_smul_smul, hs]
      simp
    simp only [hnorm, g] at hb
    unfold halfExact halfErr
    rw [← sum_map_range, ← sum_map_range]
    exact hb

/-- `q'` is the sector that `op` for spin `s` leads to from `q`. -/
def SectorShift (s : Bool) (op : Ladder) (q q' : ℕ × ℕ) : Prop :=
  if s then q'.1 = q.1 ∧ op.Shift q.2 q'.2 else op.Shift q.1 q'.1 ∧ q'.2 = q.2

theorem projectPickL_ok {n junk pos : ℕ} (hn : n ≤ 32) (hpos : pos < n) (s : Bool) (op : Ladder) {q q' : ℕ × ℕ} (hsh : SectorShift s op q q')
    {I J : Sct} {upI dwI upJ dwJ : List ℕ} (hI : SctOk n q.1 q.2 I upI dwI) (hJ : SctOk n q'.1 q'.2 J upJ dwJ) :
    ∃ M, projectPickL junk n s pos op I J = .ok M ∧
      ∀ k, ket n upJ dwJ (M k) = (if s then 1 else (-1) ^ q.2 : ℝ) • (op.mat (orb s (⟨pos, hpos⟩ : Fin n)) *ᵥ I.ket n k) := by
  obtain ⟨p, r⟩ := q
  obtain ⟨p', r'⟩ := q'
  cases s with
  | false =>
    simp only [SectorShift, Bool.false_eq_true, if_false] at hsh hI hJ ⊢
    obtain ⟨h1, rfl⟩ := hsh
    obtain ⟨M, hM, hv⟩ := C34_project_up (junk := junk) hn hpos op h1 hI hJ
    refine ⟨M, by simpa [projectPickL] using hM, fun k => ?_⟩
    rw [hv, hI.ket_eq]
  | true =>
    simp only [SectorShift, if_true] at hsh hI hJ ⊢
    obtain ⟨rfl, h1⟩ := hsh
    obtain ⟨M, hM, hv⟩ := C34_project_dw (junk := junk) hn hpos op h1 hI hJ
    refine ⟨M, by simpa [projectPickL] using hM, fun k => ?_⟩
    rw [hv, hI.ket_eq, one_smul]

theorem projectPick_ok {n junk pos : ℕ} (hn : n ≤ 32) (hpos : pos < n) (s : Bool) (op : Ladder) {q q' : ℕ × ℕ} (hsh : SectorShift s op q q')
    {I J : Sct} {upI dwI upJ dwJ : List ℕ} (hI : SctOk n q.1 q.2 I upI dwI) (hJ : SctOk n q'.1 q'.2 J upJ dwJ) :
    ∃ M, projectPick junk n s pos op I J = .ok M ∧ ∀ j k, j < J.eigvals.length → k < I.eigvals.length →
      M j k ^ 2 = (J.ket n j ⬝ᵥ (op.mat (orb s (⟨pos, hpos⟩ : Fin n)) *ᵥ I.ket n k)) ^ 2 := by
  obtain ⟨p, r⟩ := q
  obtain ⟨p', r'⟩ := q'
  cases s with
  | false =>
    simp only [SectorShift, Bool.false_eq_true, if_false] at hsh hI hJ ⊢
    obtain ⟨h1, rfl⟩ := hsh
    obtain ⟨M, hM, hv⟩ := C34_project_exact_up (junk := junk) hn hpos op h1 hI hJ
    refine ⟨M, by simpa [projectPick] using hM, fun j k hj hk => ?_⟩
    rw [hv j k hj hk, hI.ket_eq, hJ.ket_eq, mul_pow, ← pow_mul, mul_comm _ 2, pow_mul]
    simp
  | true =>
    simp only [SectorShift, if_true] at hsh hI hJ ⊢
    obtain ⟨rfl, h1⟩ := hsh
    obtain ⟨M, hM, hv⟩ := C34_project_exact_dw (junk := junk) hn hpos op h1 hI hJ
    refine ⟨M, by simpa [projectPick] using hM, fun j k hj hk => ?_⟩
    rw [hv j k hj hk, hI.ket_eq, hJ.ket_eq]

/-- The arrival sector. -/
theorem arrivalSector_ok {n : ℕ} (hn : n ≤ 32) (hw : n ≤ w) {H : Matrix (Finset (Fin (n + n))) (Finset (Fin (n + n))) ℝ} {es : Espace (ℕ × ℕ)} (hes : ∀ p ∈ es, EigSct n H p.1 p.2)
    {q : ℕ × ℕ} (hq : q.1 ≤ n ∧ q.2 ≤ n) :
    ∃ J b up dw, arrivalSector w n es q = .ok (J, b) ∧ SctOk n q.1 q.2 J up dw ∧ (b = true ↔ q ∈ es.map Prod.fst) := by
  unfold arrivalSector
  cases hg : dictGet es q with
  | ok s =>
    obtain ⟨up, dw, h⟩ := (hes _ (dictGet_mem_of_ok hg)).ok
    exact ⟨s, true, up, dw, rfl, h, by simpa using ⟨_, dictGet_mem_of_ok hg⟩⟩
  | error e =>
    have h1 := generateStates_gs (w := w) (n := n) (p := q.1) hq.1
    have h2 := generateStates_gs (w := w) (n := n) (p := q.2) hq.2
    refine ⟨⟨.spin (gs w n q.1) (gs w n q.2), (gs w n q.1).length * (gs w n q.2).length, [], []⟩, false, gs w n q.1, gs w n q.2, ?_, ⟨rfl, sectorList_of_generate hn hw hq.1 h1, sectorList_of_generate hn hw hq.2 h2, rfl, rfl⟩, ?_⟩
    · simp only [buildEmptySector, h1, h2, bind, Except.bind, pure, Except.pure, Except.map]
    · simp only [Bool.false_eq_true, false_iff]
      intro hmem
      obtain ⟨s, hs⟩ := dictGet_of_key hmem
      rw [hs] at hg; cases hg

/-- A complete diagonalisation of a sector. -/
theorem solveFull_out (ha : a.Valid) (hw : a.n ≤ w) {q : ℕ × ℕ} (hq : q.1 ≤ a.n ∧ q.2 ≤ a.n) {s : Sct} {up dw : List ℕ} (hs : SctOk a.n q.1 q.2 s up dw)
    {r : Except PyErr EigRes} (h : SolveSector a s.states s.d none r) :
    ∃ ev vec, r = .ok (ev, vec) ∧ SctOk a.n q.1 q.2 ⟨s.states, s.d, ev, vec⟩ up dw ∧ ev.length = s.d ∧ Complete s.d vec ∧
      ∃ D, IsSectorHam a up dw D ∧ (secMat D s.d).IsSymm ∧ ∀ j, j < s.d → secMat D s.d *ᵥ (fun c : Fin s.d => (vec[j]?.getD 0) c) =
        (ev[j]?.getD 0) • (fun c : Fin s.d => (vec[j]?.getD 0) c) := by
  obtain ⟨hup, hdw⟩ := hs.gen ha.le hw hq.1 hq.2
  obtain ⟨st, d, ev0, vec0⟩ := s
  obtain rfl : st = .spin up dw := hs.states
  obtain rfl : d = up.length * dw.length := hs.d
  simp only at h ⊢
  have hpos : 0 < up.length * dw.length := by
    rw [hs.hup.len, hs.hdw.len]
    exact Nat.mul_pos (Nat.choose_pos hq.1) (Nat.choose_pos hq.2)
  rcases solveSector_spec ha hw hq.1 hq.2 hup hdw (k := up.length * dw.length) hpos (by simpa [SolveSector] using h) with ⟨ev, vec, ⟨D, w', v', h1, h2, rfl, rfl⟩, rfl⟩ | ⟨h1, -⟩
  · have hw' := h2.wlen
    have hv' := h2.vlen
    rw [h1.size] at hw' hv'
    rw [List.take_of_length_le hw'.le, List.take_of_length_le hv'.le]
    obtain ⟨D2, g1, g2⟩ := isSectorHam_symm ha hw hq.1 hq.2 hup hdw
    obtain ⟨a1, a2⟩ := h1.agree g1
    refine ⟨w', v', rfl, ⟨rfl, hs.hup, hs.hdw, rfl, by simp only; rw [hw', hv']⟩, hw', ⟨hv', fun i j hi hj => ?_⟩, D, h1, ?_, fun j hj => ?_⟩
    · have := h2.orth i j (by rw [hv']; exact hi) (by rw [hv']; exact hj)
      rw [List.getElem?_eq_getElem (by rw [hv']; exact hi), List.getElem?_eq_getElem (by rw [hv']; exact hj), ← this, h1.size]
      rfl
    · ext i j
      simp only [Matrix.transpose_apply, secMat, Matrix.of_apply]
      have hi : (i : ℕ) < D.size := by rw [h1.size]; exact i.2
      have hj : (j : ℕ) < D.size := by rw [h1.size]; exact j.2
      rw [a2 _ _ hj hi, a2 _ _ hi hj]
      exact g2 _ _ (a1 ▸ hj) (a1 ▸ hi)
    · funext r
      have := h2.eig j (by rw [hv']; exact hj) (by rw [hw']; exact hj) r (by rw [h1.size]; exact r.2)
      rw [List.getElem?_eq_getElem (by rw [hv']; exact hj), List.getElem?_eq_getElem (by rw [hw']; exact hj)]
      simp only [Matrix.mulVec, dotProduct, secMat, Matrix.of_apply, Option.getD_some, Pi.smul_apply, smul_eq_mul]
      rw [← this, h1.size, Finset.sum_range]
  · omega

theorem halfErr_nonneg {n : ℕ} (B : Matrix (Finset (Fin (n + n))) (Finset (Fin (n + n))) ℝ) (β egs : ℝ) (I : Sct) {δ ε η : ℝ} (hε : 0 ≤ ε) : 0 ≤ halfErr n B β egs I δ ε η := by
  unfold halfErr
  apply Finset.sum_nonneg; intro k _
  have : 0 ≤ (B *ᵥ I.ket n k) ⬝ᵥ (B *ᵥ I.ket n k) := by
    simp only [dotProduct]; exact Finset.sum_nonneg fun i _ => mul_self_nonneg _
  positivity

/-- The contribution computed from a diagonalised arrival sector is exact. -/
theorem smallHalf_value (ha : a.Valid) (hH : a.ham.IsSymm) {p q : ℕ} {I J : Sct} {up dw : List ℕ} (hJ : SctOk a.n p q J up dw)
    (hl : J.eigvals.length = J.d) (hJc : Complete J.d J.eigvecs) {D : Dense ℝ} (hD : IsSectorHam a up dw D) (hDs : (secMat D J.d).IsSymm)
    (hE : ∀ j, j < J.d → secMat D J.d *ᵥ (fun c : Fin J.d => (J.eigvecs[j]?.getD 0) c) = (J.eigvals[j]?.getD 0) • (fun c : Fin J.d => (J.eigvecs[j]?.getD 0) c))
    {B : Matrix (Finset (Fin (a.n + a.n))) (Finset (Fin (a.n + a.n))) ℝ} {v0 : ℕ → ℕ → ℝ} {s : ℝ} (hs : s ^ 2 = 1)
    (hv : ∀ k, ket a.n up dw (v0 k) = s • (B *ᵥ I.ket a.n k)) {M : ℕ → ℕ → ℝ}
    (hM : ∀ j k, j < J.eigvals.length → k < I.eigvals.length → M j k ^ 2 = (J.ket a.n j ⬝ᵥ (B *ᵥ I.ket a.n k)) ^ 2) (σ β egs e eta : ℝ) (he : eta ≠ 0) :
    spEval ((ndindex2 J.eigvals.length I.eigvals.length).map fun jk => σ * ((J.eigvals[jk.1]?.getD 0) - (I.eigvals[jk.2]?.getD 0)))
      ((ndindex2 J.eigvals.length I.eigvals.length).map fun jk => M jk.1 jk.2 ^ 2 * Real.exp (-β * ((I.eigvals[jk.2]?.getD 0) - egs))) e eta =
      halfExact a.n a.ham B σ β egs I (e + Complex.I * eta) := by
  obtain ⟨Jst, Jd, Jv, Jw⟩ := J
  obtain rfl : Jd = up.length * dw.length := hJ.d
  simp only at hl hJc hDs hE hM ⊢
  set d := up.length * dw.length with hd
  have him : (e + Complex.I * eta : ℂ).im ≠ 0 := by simpa using he
  have hbas : EigBasis (secMat D d) (fun (j : Fin d) (c : Fin d) => (Jw[(j : ℕ)]?.getD 0) c) (fun j : Fin d => Jv[(j : ℕ)]?.getD 0) := by
    refine ⟨rfl, fun i j => ?_, fun j => hE j j.2⟩
    have := hJc.orth i j i.2 j.2
    simp only [dotProduct]
    rw [Finset.sum_range] at this
    rw [this]; simp [Fin.ext_iff]
  have hterm : ∀ k < I.eigvals.length, resElem (e + Complex.I * eta) (σ • (a.ham - (I.eigvals[k]?.getD 0) • (1 : Matrix _ _ ℝ))) (B *ᵥ I.ket a.n k) (B *ᵥ I.ket a.n k) =
      ∑ j ∈ Finset.range d, ((e + Complex.I * eta : ℂ) - ((σ * ((Jv[j]?.getD 0) - (I.eigvals[k]?.getD 0)) : ℝ) : ℂ))⁻¹ * ((M j k ^ 2 : ℝ) : ℂ) := by
    intro k hk
    have h1 := sector_resElem hJ.hup hJ.hdw hD hH hDs him σ (I.eigvals[k]?.getD 0) (v0 k) (v0 k)
    rw [hv, resElem_smul_smul, hs, Complex.ofReal_one, one_mul] at h1
    rw [← h1]
    have hb2 : EigBasis (σ • (secMat D d - (I.eigvals[k]?.getD 0) • (1 : Matrix _ _ ℝ))) (fun (j : Fin d) (c : Fin d) => (Jw[(j : ℕ)]?.getD 0) c)
        (fun j : Fin d => σ * ((Jv[(j : ℕ)]?.getD 0) - (I.eigvals[k]?.getD 0))) := by
      refine ⟨hbas.card, hbas.orth, fun j => ?_⟩
      rw [Matrix.smul_mulVec, Matrix.sub_mulVec, hbas.eig j, Matrix.smul_mulVec, Matrix.one_mulVec, ← sub_smul, smul_smul]
    rw [hb2.resElem him, Finset.sum_range]
    apply Finset.sum_congr rfl; intro j _
    congr 2
    have h2 : (fun c : Fin d => (Jw[(j : ℕ)]?.getD 0) c) ⬝ᵥ (fun c : Fin d => v0 k c) = s * (ket a.n up dw (Jw[(j : ℕ)]?.getD 0) ⬝ᵥ (B *ᵥ I.ket a.n k)) := by
      rw [← smul_eq_mul, ← dotProduct_smul, ← hv, ket_inner hJ.hup hJ.hdw, Finset.sum_range]
      rfl
    rw [hM j k (by rw [hl]; exact j.2) hk, hJ.ket_eq, ← one_mul ((ket a.n up dw _ ⬝ᵥ _) ^ 2), ← hs, ← mul_pow]
    refine Eq.trans ?_ (pow_two _).symm
    exact congrArg₂ (· * ·) h2 h2
  unfold spEval
  rw [List.zipWith_map, List.zipWith_self, sum_ndindex2, hl, Finset.sum_comm]
  unfold halfExact
  apply Finset.sum_congr rfl; intro k hk
  rw [hterm k (Finset.mem_range.mp hk), Finset.mul_sum]
  apply Finset.sum_congr rfl; intro j _
  push_cast; ring

/-- Outcome of one half of the loop body of `build_gf_lanczos`. -/
theorem gfHalf_out {g : GfLArgs} (jk : ℝ) (hc : g.cfg.Ok) (ha : g.ham.Valid) (hH : g.ham.ham.IsSymm) (hw : g.ham.n ≤ g.w) {pos : ℕ} (hpos : pos < g.ham.n)
    {op : Ladder} {qI qJ : ℕ × ℕ} (hsh : SectorShift g.ispin op qI qJ) (hqJ : qJ.1 ≤ g.ham.n ∧ qJ.2 ≤ g.ham.n) {I : Sct} (hI : EigSct g.ham.n g.ham.ham qI I)
    {es : Espace (ℕ × ℕ)} (hes : ∀ p ∈ es, EigSct g.ham.n g.ham.ham p.1 p.2) {r : Except PyErr (Espace (ℕ × ℕ) × List GfFn × List LancRun)}
    (h : GfHalf g pos op I qJ es r) :
    ∃ es' fs log, r = .ok (es', fs, log) ∧
      (es' = es ∨ ∃ J, qJ ∈ es.map Prod.fst ∧ es' = dictSet es qJ J ∧ EigSct g.ham.n g.ham.ham qJ J ∧ Complete J.d J.eigvecs) ∧
      (∀ run ∈ log, run.d = g.ham.n.choose qJ.1 * g.ham.n.choose qJ.2 ∧ run.Of g.cfg) ∧
      ∀ (e eta ε : ℝ), eta ≠ 0 → 0 ≤ ε → (∀ run ∈ log, run.AccLe g.ham.ham e eta ε) →
        ‖(fs.map fun f => f.eval jk e eta).sum - halfExact g.ham.n g.ham.ham (op.mat (orb g.ispin (⟨pos, hpos⟩ : Fin g.ham.n))) op.sign g.beta g.egs I (e + Complex.I * eta)‖ ≤
          halfErr g.ham.n (op.mat (orb g.ispin (⟨pos, hpos⟩ : Fin g.ham.n))) g.beta g.egs I g.cfg.delta ε eta := by
  obtain ⟨upI, dwI, hIok⟩ := hI.ok
  obtain ⟨J, b, up, dw, hJ, hJok, hb⟩ := arrivalSector_ok ha.le hw hes hqJ
  have hs1 : (if g.ispin then 1 else (-1) ^ qI.2 : ℝ) ^ 2 = 1 := by
    split
    · simp
    · rw [← pow_mul, mul_comm, pow_mul]; simp
  unfold GfHalf at h
  rw [bindR_ok hJ] at h
  simp only at h
  obtain ⟨M0, hM0, hv⟩ := projectPickL_ok (junk := g.junk) ha.le hpos g.ispin op hsh hIok hJok
  split at h
  · rename_i hd
    obtain ⟨⟨ev, vec⟩, -, hP, h⟩ := bindR_of (P := fun y => SctOk g.ham.n qJ.1 qJ.2 ⟨J.states, J.d, y.1, y.2⟩ up dw ∧ y.1.length = J.d ∧ Complete J.d y.2 ∧
      ∃ D, IsSectorHam g.ham up dw D ∧ (secMat D J.d).IsSymm ∧ ∀ j, j < J.d → secMat D J.d *ᵥ (fun c : Fin J.d => (y.2[j]?.getD 0) c) =
        (y.1[j]?.getD 0) • (fun c : Fin J.d => (y.2[j]?.getD 0) c)) (fun x hx => by
          obtain ⟨ev, vec, rfl, h⟩ := solveFull_out ha hw hqJ hJok hx
          exact ⟨_, rfl, h⟩) h
    obtain ⟨hJ', hl, hcp, D, hD, hDs, hE⟩ := hP
    simp only at hJ' hl hcp hE h
    obtain ⟨M, hM, hMv⟩ := projectPick_ok (junk := g.junk) ha.le hpos g.ispin op hsh hIok hJ'
    rw [bindR_ok hM] at h
    simp only [DetR] at h
    have hJe : EigSct g.ham.n g.ham.ham qJ ⟨J.states, J.d, ev, vec⟩ := by
      refine ⟨⟨up, dw, hJ'⟩, fun k hk => ?_⟩
      rw [hJ'.ket_eq]
      apply sector_eigen hJ'.hup hJ'.hdw hD
      intro r hr
      have hsz : D.size = J.d := by rw [hD.size, hJok.d]
      have := congrFun (hE k (by rw [← hl]; exact hk)) ⟨r, by rw [← hsz]; exact hr⟩
      simp only [Matrix.mulVec, dotProduct, secMat, Matrix.of_apply, Pi.smul_apply, smul_eq_mul] at this
      rw [hsz, Finset.sum_range]
      exact this
    refine ⟨_, _, _, h, ?_, by simp, fun e eta ε he hε _ => ?_⟩
    · cases b with
      | false => left; simp
      | true => right; exact ⟨_, hb.mp rfl, by simp, hJe, hcp⟩
    · have := smallHalf_value ha hH hJ' hl hcp hD hDs hE hs1 hv hMv op.sign g.beta g.egs e eta he
      simp only at this
      simp only [List.map_cons, List.map_nil, List.sum_cons, List.sum_nil, add_zero, GfFn.eval, this, sub_self, norm_zero]
      exact halfErr_nonneg _ _ _ _ hε
  · rw [bindR_ok hM0] at h
    have hgen := hJok.gen ha.le hw hqJ.1 hqJ.2
    obtain ⟨ops, hops, -, h⟩ := bindR_of (P := fun _ => True) (fun x hx => by
      cases x with
      | ok y => exact ⟨y, rfl, trivial⟩
      | error e =>
        rw [hJok.states] at hx
        exact absurd hx (build_no_error ha hw hqJ.1 hqJ.2 hgen.1 hgen.2)) h
    obtain ⟨mv, hmv, h⟩ := h
    obtain ⟨⟨fs, log⟩, hrun, hP, h⟩ := bindR_of (P := fun y => (∀ run ∈ y.2, run.d = J.d ∧ run.Of g.cfg) ∧
      ∀ (e eta ε : ℝ), eta ≠ 0 → 0 ≤ ε → (∀ run ∈ y.2, run.AccLe g.ham.ham e eta ε) →
        ‖(y.1.map fun f => f.eval jk e eta).sum - halfExact g.ham.n g.ham.ham (op.mat (orb g.ispin (⟨pos, hpos⟩ : Fin g.ham.n))) op.sign g.beta g.egs I (e + Complex.I * eta)‖ ≤
          halfErr g.ham.n (op.mat (orb g.ispin (⟨pos, hpos⟩ : Fin g.ham.n))) g.beta g.egs I g.cfg.delta ε eta) (fun x hx => by
        rcases lanczosHalf_out jk hc ha hH hw hqJ.1 hqJ.2 hJok hs1 hv hops hmv op g.beta g.egs hx with ⟨h, -⟩ | ⟨fs, log, rfl, h1, h2⟩
        · cases h
        · exact ⟨_, rfl, h1, h2⟩) h
    refine ⟨es, fs, log, h, .inl rfl, fun run hr => ⟨?_, (hP.1 run hr).2⟩, hP.2⟩
    rw [(hP.1 run hr).1, hJok.d, hJok.hup.len, hJok.hdw.len]

/-- It has an outcome. -/
theorem gfHalf_exists {g : GfLArgs} (hc : g.cfg.Ok) (ha : g.ham.Valid) (hw : g.ham.n ≤ g.w) {pos : ℕ}
    {op : Ladder} {qJ : ℕ × ℕ} (hqJ : qJ.1 ≤ g.ham.n ∧ qJ.2 ≤ g.ham.n) {I : Sct}
    {es : Espace (ℕ × ℕ)} (hes : ∀ p ∈ es, EigSct g.ham.n g.ham.ham p.1 p.2) : ∃ r, GfHalf g pos op I qJ es r := by
  unfold GfHalf
  obtain ⟨J, b, up, dw, hJ, hJok, hb⟩ := arrivalSector_ok ha.le hw hes hqJ
  have hgen := hJok.gen ha.le hw hqJ.1 hqJ.2
  refine bindR_exists ⟨_, rfl⟩ fun x hx => ?_
  have hx' : Except.ok x = arrivalSector g.w g.ham.n es qJ := hx
  rw [hJ] at hx'
  injection hx' with hx'; subst hx'
  simp only
  split
  · refine bindR_exists ?_ fun y _ => bindR_exists ⟨_, rfl⟩ fun z _ => ⟨_, rfl⟩
    obtain ⟨r, hr⟩ := solveSector_exists ha hw hqJ.1 hqJ.2 hgen.1 hgen.2 (up.length * dw.length)
    refine ⟨r, ?_⟩
    rw [hJok.states, hJok.d]
    simpa [SolveSector] using hr
  · refine bindR_exists ⟨_, rfl⟩ fun y _ => bindR_exists ?_ fun ops hops => ?_
    · rw [hJok.states]
      obtain ⟨ops, h⟩ := build_exists ha hw hqJ.1 hqJ.2 hgen.1 hgen.2
      exact ⟨_, h⟩
    · obtain ⟨Jst, Jd, Jv, Jw⟩ := J
      obtain rfl : Jst = .spin up dw := hJok.states
      obtain rfl : Jd = up.length * dw.length := hJok.d
      obtain ⟨D, -, -, hmv⟩ := isMatvec_eq ha hw hqJ.1 hqJ.2 hgen.1 hgen.2 hops
      obtain ⟨r, hr⟩ := bindR_exists (f := fun st : List GfFn × List LancRun => DetR (.ok (es, st.1, st.2)))
        (forR_exists (body := LanczosRow g.cfg g.rep true (up.length * dw.length) (secMat D (up.length * dw.length) *ᵥ ·) y I.eigvals
          (fun E => Real.exp (-g.beta * (E - g.egs))) op.sign) (xs := List.range I.eigvals.length) (fun st k _ => lanczosRow_exists hc _ st k) ([], [])) (fun x _ => ⟨_, rfl⟩)
      exact ⟨r, _, (hmv _).mpr rfl, hr⟩

end
end Edpyt
