import Verif.Proof.BandLanczos
import Mathlib.Tactic.NormNum
import Mathlib.Tactic.FinCases
import Mathlib.Data.Fin.VecNotation
import Mathlib.LinearAlgebra.Matrix.Notation
import Mathlib.LinearAlgebra.Dimension.Constructions
import Mathlib.LinearAlgebra.FiniteDimensional.Basic
/-!
# C126: the band Lanczos method (`build_bd_tridiag`)

For a symmetric `matvec` and any list of start vectors, `T[:n,:n]` is the matrix of the operator in an orthonormal family.
-/
namespace Edpyt
open Matrix

variable {ι : Type} [Fintype ι]

/-- `T` is, entry by entry, the matrix of `H` in the orthonormal family `V`. -/
structure ProjectedBy (H : Matrix ι ι ℝ) {n : ℕ} (V : Fin n → ι → ℝ) (T : ℕ → ℕ → ℝ) : Prop where
  orthonormal : ∀ i j, V i ⬝ᵥ V j = if i = j then 1 else 0
  entry : ∀ i j : Fin n, T i j = V i ⬝ᵥ H *ᵥ V j

/-- `x` is a combination of the vectors `V` up to a vector of norm below `δ`. -/
def SpannedBy {n : ℕ} (V : Fin n → ι → ℝ) (δ : ℝ) (x : ι → ℝ) : Prop :=
  ∃ a : Fin n → ℝ, Real.sqrt ((x - ∑ i, a i • V i) ⬝ᵥ (x - ∑ i, a i • V i)) < δ

theorem bdRes_fin (V : ℕ → ι → ℝ) (n : ℕ) (x : ι → ℝ) : bdRes V n x = x - ∑ i : Fin n, (V i ⬝ᵥ x) • V i := by
  unfold bdRes
  rw [← Fin.sum_univ_eq_sum_range (fun i => (V i ⬝ᵥ x) • V i) n]

/-- The matrix of the lower triangle of `T`, as `np.linalg.eigvalsh` and `eigh` read it (`UPLO='L'`). -/
def lowerSym (T : ℕ → ℕ → ℝ) (i j : ℕ) : ℝ := if j ≤ i then T i j else T j i

/-- **C126** (partial) `build_bd_tridiag` for a symmetric operator and a non-empty list of start vectors never raises, and ends by itself: the lower triangle of the returned block is that of
the matrix of the operator in an orthonormal family `V`; so is the whole block if it leaves room for the start vectors, `n + L ≤ maxn`. If it is not empty-handed (`Lc ≤ n`), the start vectors are
combinations of `V` up to `delta`, and if all candidates are exhausted, so are the images of `V`. Missing: the upper triangle of a block of more than `maxn - L` rows, which may be
wrong (`C126_refuted`). -/
theorem C126_projection_partial {c : BdCfg} {H : Matrix ι ι ℝ} (hH : H.IsSymm) (hd : 0 < c.delta) (hND : 0 < c.ND) {phi0 : List (ι → ℝ)} (h0 : phi0 ≠ []) :
    ∃ st, buildBdTridiag c (H *ᵥ ·) phi0 = .ok st ∧ (st.converged = true ∨ c.maxn ≤ st.n + st.Lc) ∧ ∃ V : Fin st.n → ι → ℝ, ProjectedBy H V (lowerSym st.T) ∧
      (st.n + phi0.length ≤ c.maxn → ProjectedBy H V st.T) ∧ (st.Lc ≤ st.n → ∀ x ∈ phi0, SpannedBy V c.delta x) ∧ (st.Lc = 0 → ∀ k, SpannedBy V c.delta (H *ᵥ V k)) := by
  obtain ⟨st, V, h1, h2, h3⟩ := (BdInv.init c H h0).loop hH hd hND (c.maxn + phi0.length) (by simp [bdInit])
  have hon : ∀ i j : Fin st.n, V i ⬝ᵥ V j = if i = j then 1 else 0 := fun i j => by
    rw [h2.on i i.2 j j.2]
    simp only [Fin.val_inj]
  have hsp : ∀ q, q + st.Lc < phi0.length + st.n → SpannedBy (fun i : Fin st.n => V i) c.delta (bdSrc H phi0 V q) := fun q hq => by
    refine ⟨fun i => V i ⬝ᵥ bdSrc H phi0 V q, ?_⟩
    rw [← bdRes_fin, Real.sqrt_lt' hd]
    exact h2.small q hq
  refine ⟨st, h1, h3, fun i => V i, ⟨hon, fun i j => ?_⟩, fun hr => ⟨hon, fun i j => ?_⟩, fun hl x hx => ?_, fun hl k => ?_⟩
  · unfold lowerSym
    split_ifs with hij
    · exact (h2.mat i j (.inl hij)).1 ⟨i.2, j.2⟩
    · rw [bd_symm hH]
      exact (h2.mat j i (.inl (by omega))).1 ⟨j.2, i.2⟩
  · exact (h2.mat i j (.inr (by have := j.2; omega))).1 ⟨i.2, j.2⟩
  · obtain ⟨q, hq, rfl⟩ := List.getElem_of_mem hx
    have := hsp q (by omega)
    unfold bdSrc at this
    rw [if_pos hq, List.getElem?_eq_getElem hq] at this
    exact this
  · have := hsp (phi0.length + k) (by have := k.2; omega)
    rw [bdSrc_H] at this
    exact this

theorem bdLoop_more {c : BdCfg} {mv : (ι → ℝ) → (ι → ℝ)} (k fuel : ℕ) {st st' : BdSt ι} (h : bdLoop c mv fuel st = .ok st') (he : st'.converged = true ∨ c.maxn ≤ st'.n + st'.Lc) :
    bdLoop c mv (fuel + k) st = .ok st' := by
  have hstop : ∀ (k : ℕ) (s : BdSt ι), ¬ (s.converged = false ∧ s.n + s.Lc < c.maxn) → bdLoop c mv k s = .ok s := fun k s hs => by
    cases k with
    | zero => rfl
    | succ k => rw [bdLoop, if_neg hs]
  induction fuel generalizing st with
  | zero =>
    simp only [bdLoop, Except.ok.injEq] at h
    subst h
    exact hstop _ _ (by rintro ⟨a, b⟩; rcases he with he | he <;> simp_all; omega)
  | succ fuel ih =>
    rw [show fuel + 1 + k = (fuel + k) + 1 by omega, bdLoop]
    rw [bdLoop] at h
    split_ifs at h ⊢ with hc
    · cases hs : bdStep c mv st with
      | error e => rw [hs] at h; simp [bind, Except.bind] at h
      | ok s1 =>
        rw [hs] at h
        exact ih h
    · exact h

/-- **C126** The bound on the number of passes in the model is not a restriction: any larger one gives the same result. -/
theorem C126_ends {c : BdCfg} {H : Matrix ι ι ℝ} (hH : H.IsSymm) (hd : 0 < c.delta) (hND : 0 < c.ND) {phi0 : List (ι → ℝ)} (h0 : phi0 ≠ []) (k : ℕ) :
    bdLoop c (H *ᵥ ·) (c.maxn + phi0.length + k) (bdInit phi0) = buildBdTridiag c (H *ᵥ ·) phi0 := by
  obtain ⟨st, h1, h2, -⟩ := C126_projection_partial hH hd hND h0
  rw [h1]
  exact bdLoop_more k _ h1 h2

/-- The chain of three sites. -/
def bdChain : Matrix (Fin 3) (Fin 3) ℝ := !![0, 1, 0; 1, 0, 1; 0, 1, 0]

/-- The default arguments but for `maxn = 4` (and `delta`, which plays no role). -/
noncomputable def bdCfg4 : BdCfg := ⟨4, 1 / 2, 10, fun _ _ => 0, fun _ _ => false⟩

theorem bd_run : ∃ st, buildBdTridiag bdCfg4 (bdChain *ᵥ ·) [![1, 0, 0], ![1, 0, 0]] = .ok st ∧ st.n = 3 ∧ st.T 0 2 = 1 ∧ st.T 2 0 = 0 := by
  have e0 : bdChain *ᵥ ![1, 0, 0] = ![0, 1, 0] := by
    funext i; fin_cases i <;> simp [bdChain, Matrix.mulVec, dotProduct, Fin.sum_univ_three]
  have e1 : bdChain *ᵥ ![0, 1, 0] = ![1, 0, 1] := by
    funext i; fin_cases i <;> simp [bdChain, Matrix.mulVec, dotProduct, Fin.sum_univ_three]
  have e2 : bdChain *ᵥ ![0, 0, 1] = ![0, 1, 0] := by
    funext i; fin_cases i <;> simp [bdChain, Matrix.mulVec, dotProduct, Fin.sum_univ_three]
  have s1 : bdStep bdCfg4 (bdChain *ᵥ ·) (bdInit [![1, 0, 0], ![1, 0, 0]]) =
      .ok ⟨fun i j => if i = 0 ∧ j = 0 then 0 else if i = 0 ∧ j = 3 then 1 else if i = 0 ∧ j = 2 then 1 else 0, false, none, [], [![0, 0, 0], ![0, 1, 0]], [![1, 0, 0]], [], 1, 2⟩ := by
    simp [bdStep, bdInit, getItem, pyIndex, bdCfg4, bdGrow, bdSet, bdGet, bind, Except.bind, pure, Except.pure, forM', bdNext, setItem, bdCheck, e0, List.range_succ]
    norm_num
    funext i; fin_cases i <;> simp
  have s2 : ∀ T : BdMat, bdStep bdCfg4 (bdChain *ᵥ ·) ⟨T, false, none, [], [![0, 0, 0], ![0, 1, 0]], [![1, 0, 0]], [], 1, 2⟩ = .ok ⟨T, false, none, [], [![0, 1, 0]], [![1, 0, 0]], [], 1, 1⟩ := fun T => by
    simp [bdStep, getItem, pyIndex, bdCfg4, bdRecord, bind, Except.bind, pure, Except.pure]
  have s3 : ∀ T : BdMat, ∃ T', bdStep bdCfg4 (bdChain *ᵥ ·) ⟨T, false, none, [], [![0, 1, 0]], [![1, 0, 0]], [], 1, 1⟩ =
      .ok ⟨T', false, none, [], [![0, 0, 1]], [![0, 1, 0]], [], 2, 1⟩ ∧ T' 0 2 = T 0 2 ∧ T' 2 0 = T 2 0 := fun T => by
    simp [bdStep, getItem, pyIndex, bdCfg4, bdGrow, bdSet, bdGet, bind, Except.bind, pure, Except.pure, forM', bdPrev, bdCheck, e1, List.range_succ]
    norm_num
  have s4 : ∀ T : BdMat, ∃ T' vk, bdStep bdCfg4 (bdChain *ᵥ ·) ⟨T, false, none, [], [![0, 0, 1]], [![0, 1, 0]], [], 2, 1⟩ =
      .ok ⟨T', false, none, [], vk, [![0, 0, 1]], [], 3, 1⟩ ∧ T' 0 2 = T 0 2 ∧ T' 2 0 = T 2 0 := fun T => by
    simp [bdStep, getItem, pyIndex, bdCfg4, bdGrow, bdSet, bdGet, bind, Except.bind, pure, Except.pure, forM', bdPrev, bdCheck, e2, List.range_succ]
    norm_num
  obtain ⟨T3, s3, a1, a2⟩ := s3 fun i j => if i = 0 ∧ j = 0 then 0 else if i = 0 ∧ j = 3 then 1 else if i = 0 ∧ j = 2 then 1 else 0
  obtain ⟨T4, vk, s4, b1, b2⟩ := s4 T3
  refine ⟨⟨T4, false, none, [], vk, [![0, 0, 1]], [], 3, 1⟩, ?_, rfl, ?_, ?_⟩
  · change bdLoop bdCfg4 (bdChain *ᵥ ·) 6 _ = _
    rw [bdLoop, if_pos (by simp [bdInit, bdCfg4]), s1]
    simp only [bind, Except.bind]
    rw [bdLoop, if_pos (by simp [bdCfg4]), s2]
    simp only [bind, Except.bind]
    rw [bdLoop, if_pos (by simp [bdCfg4]), s3]
    simp only [bind, Except.bind]
    rw [bdLoop, if_pos (by simp [bdCfg4]), s4]
    simp only [bind, Except.bind]
    rw [bdLoop, if_neg (by simp [bdCfg4])]
  · simp [b1, a1]
  · simp [b2, a2]

theorem bdChain_symm : bdChain.IsSymm := by
  unfold bdChain Matrix.IsSymm
  ext i j
  fin_cases i <;> fin_cases j <;> rfl

/-- **C126** refuted: with `maxn = 4` and a start vector given twice, the chain of three sites, the returned matrix is not symmetric (`T[0,2] = 1`, `T[2,0] = 0`), hence not the matrix of a
symmetric operator in any orthonormal family: `T[0, 0-2] = b` was stored in column `maxn-2`. -/
theorem C126_refuted : ∃ (c : BdCfg) (H : Matrix (Fin 3) (Fin 3) ℝ) (phi0 : List (Fin 3 → ℝ)), H.IsSymm ∧ 0 < c.delta ∧ 0 < c.ND ∧ phi0 ≠ [] ∧
    ∃ st, buildBdTridiag c (H *ᵥ ·) phi0 = .ok st ∧ ¬ ∃ V : Fin st.n → Fin 3 → ℝ, ProjectedBy H V st.T := by
  obtain ⟨st, h1, h2, h3, h4⟩ := bd_run
  refine ⟨bdCfg4, bdChain, _, bdChain_symm, by norm_num [bdCfg4], by norm_num [bdCfg4], by simp, st, h1, ?_⟩
  rintro ⟨V, hV⟩
  have a := hV.entry ⟨0, by omega⟩ ⟨2, by omega⟩
  have b := hV.entry ⟨2, by omega⟩ ⟨0, by omega⟩
  rw [bd_symm bdChain_symm] at b
  simp only [h3, h4] at a b
  rw [← a] at b
  norm_num at b

/-- An orthonormal family has at most as many members as there are coordinates. -/
theorem orthonormal_le {n : ℕ} {V : Fin n → ι → ℝ} (h : ∀ i j, V i ⬝ᵥ V j = if i = j then 1 else 0) : n ≤ Fintype.card ι := by
  have hli : LinearIndependent ℝ V := by
    rw [Fintype.linearIndependent_iff]
    intro a ha i
    have : V i ⬝ᵥ ∑ j, a j • V j = a i := by
      rw [dotProduct_sum, Finset.sum_eq_single i]
      · rw [dotProduct_smul, h, if_pos rfl]; simp
      · intro j _ hj
        rw [dotProduct_smul, h, if_neg (Ne.symm hj)]; simp
      · simp
    rw [← this, ha, dotProduct_zero]
  have := hli.fintype_card_le_finrank
  simpa using this

/-- **C126** With `maxn` above the dimension plus the number of start vectors and without the convergence test, the whole block is the matrix of the operator in an orthonormal family
whose span contains the start vectors and is invariant, both up to `delta`. -/
theorem C126_exhausted {c : BdCfg} {H : Matrix ι ι ℝ} (hH : H.IsSymm) (hd : 0 < c.delta) (hND : 0 < c.ND) {phi0 : List (ι → ℝ)} (h0 : phi0 ≠ [])
    (hm : Fintype.card ι + phi0.length < c.maxn) (hclose : ∀ e p, c.close e p = false) :
    ∃ st, buildBdTridiag c (H *ᵥ ·) phi0 = .ok st ∧ ∃ V : Fin st.n → ι → ℝ, ProjectedBy H V st.T ∧ (∀ x ∈ phi0, SpannedBy V c.delta x) ∧ ∀ k, SpannedBy V c.delta (H *ᵥ V k) := by
  obtain ⟨st, V, h1, h2, h3⟩ := (BdInv.init c H h0).loop hH hd hND (c.maxn + phi0.length) (by simp [bdInit])
  obtain ⟨st', e1, -, V', hl, hfull, hs, hi⟩ := C126_projection_partial hH hd hND h0
  have : st' = st := by
    have := h1.symm.trans e1
    injection this with this
    exact this.symm
  subst this
  have hn := orthonormal_le hl.orthonormal
  have hLc : st'.Lc = 0 := by
    rcases h3 with h3 | h3
    · rcases h2.conv h3 with h | ⟨e, p, h⟩
      · exact h
      · rw [hclose] at h; cases h
    · have := h2.lc; omega
  exact ⟨st', e1, V', hfull (by omega), hs (by omega), hi hLc⟩

/-- The hypotheses are met: the chain of three sites, one start vector given twice and another one. -/
example : ∃ st, buildBdTridiag ⟨300, 1 / 10 ^ 15, 10, fun _ _ => 0, fun _ _ => false⟩ (bdChain *ᵥ ·) [![1, 0, 0], ![1, 0, 0], ![0, 0, 1]] = .ok st ∧
    ∃ V : Fin st.n → Fin 3 → ℝ, ProjectedBy bdChain V st.T ∧ SpannedBy V (1 / 10 ^ 15) ![0, 0, 1] := by
  obtain ⟨st, h1, V, h2, h3, -⟩ := C126_exhausted (c := ⟨300, 1 / 10 ^ 15, 10, fun _ _ => 0, fun _ _ => false⟩) bdChain_symm (by norm_num) (by norm_num)
    (phi0 := [![1, 0, 0], ![1, 0, 0], ![0, 0, 1]]) (by simp) (by simp) (fun _ _ => rfl)
  exact ⟨st, h1, V, h2, h3 _ (by simp)⟩

end Edpyt
