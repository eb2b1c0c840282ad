import Verif.Model.Gf2
import Verif.Proof.Py
import Verif.Proof.LanczosGf
/-!
C41 (off-diagonal Green functions by polarisation) and C42 (symmetric item access; refuted).
-/
namespace Edpyt
open Matrix Spec

variable {n : ℕ} {gf : GArr} {f : ℕ → ℕ → ℝ → ℝ → ℂ} {e eta : ℝ}

/-- **C41** (evaluation): if the diagonal and upper-triangle entries hold the functions `f i j`, `evaluate` succeeds for
any number of sites; the diagonal is `f i i`, and both `G[i,j]` and `G[j,i]` are half the polarisation combination. -/
theorem C41_evaluate (junk : ℕ → ℕ → ℂ) (hgf : ∀ i j, i ≤ j → j < n → gf i j = some (f i j)) :
    ∃ G, gf2Evaluate junk n gf e eta = .ok G ∧ (∀ i < n, G i i = f i i e eta) ∧
      (∀ i j, i < j → j < n → G i j = 1 / 2 * (f i j e eta - f i i e eta - f j j e eta)) ∧
      (∀ i j, i < n → j < n → G i j = G j i) := by
  obtain ⟨G1, h1, h2⟩ := forM'_range_inv (gf2DiagStep gf e eta) (fun k G => ∀ i < k, G i i = f i i e eta) n junk (by simp)
    (by
      intro k G hk hG
      refine ⟨upd2 G k k (f k k e eta), ?_, ?_⟩
      · simp [gf2DiagStep, hgf k k le_rfl hk, callG, bind, Except.bind, pure, Except.pure]
      · intro i hi
        by_cases h : i = k
        · simp [upd2, h]
        · simp [upd2, h, hG i (by omega)])
  obtain ⟨G2, h3, h4, h5⟩ := forM'_range_inv (fun G i => forM' (gf2OffStep gf e eta i) (List.range' (i + 1) (n - (i + 1))) G)
    (fun k G => (∀ i < n, G i i = f i i e eta) ∧ ∀ i j, i < k → i < j → j < n →
      G i j = 1 / 2 * (f i j e eta - f i i e eta - f j j e eta) ∧ G j i = G i j) n G1 ⟨h2, by omega⟩
    (by
      intro k G hk hG
      obtain ⟨G', g1, g2, g3⟩ := forM'_range'_inv (gf2OffStep gf e eta k)
        (fun l G => (∀ i < n, G i i = f i i e eta) ∧ ∀ i j, (i < k ∨ i = k ∧ j < l) → i < j → j < n →
          G i j = 1 / 2 * (f i j e eta - f i i e eta - f j j e eta) ∧ G j i = G i j) (n - (k + 1)) (k + 1) G
        ⟨hG.1, fun i j h hij hj => hG.2 i j (by omega) hij hj⟩
        (by
          intro l G' hl1 hl2 hG'
          refine ⟨upd2 (upd2 G' k l (1 / 2 * (f k l e eta - G' k k - G' l l))) l k
            ((upd2 G' k l (1 / 2 * (f k l e eta - G' k k - G' l l))) k l), ?_, ?_, ?_⟩
          · simp only [gf2OffStep, hgf k l (by omega) (by omega), callG, bind, Except.bind, pure, Except.pure]
          · intro i hi
            have e1 : ¬ (i = l ∧ i = k) := by omega
            have e2 : ¬ (i = k ∧ i = l) := by omega
            simp only [upd2, if_neg e1, if_neg e2]
            exact hG'.1 i hi
          · intro i j h hij hj
            by_cases hc : i = k ∧ j = l
            · obtain ⟨rfl, rfl⟩ := hc
              have e1 : ¬ (i = j ∧ j = i) := by omega
              simp only [upd2, if_neg e1, and_self, if_true]
              rw [hG'.1 i (by omega), hG'.1 j (by omega)]
              simp
            · have e1 : ¬ (i = l ∧ j = k) := by omega
              have e2 : ¬ (j = l ∧ i = k) := by omega
              have e3 : ¬ (j = k ∧ i = l) := by omega
              simp only [upd2, if_neg e1, if_neg hc, if_neg e2, if_neg e3]
              exact hG'.2 i j (by omega) hij hj)
      refine ⟨G', g1, g2, fun i j h hij hj => g3 i j (by omega) hij hj⟩)
  refine ⟨G2, ?_, h4, fun i j hij hj => (h5 i j (by omega) hij hj).1, fun i j hi hj => ?_⟩
  · simp only [gf2Evaluate, h1, bind, Except.bind]
    exact h3
  · rcases lt_trichotomy i j with h | h | h
    · exact ((h5 i j hi h hj).2).symm
    · rw [h]
    · exact (h5 j i hj h hi).2

/-- One channel of a Green function: a thermal weight, a symmetric matrix and a start vector per site. -/
structure Channel where
  dim : ℕ
  weight : ℝ
  H : Matrix (Fin dim) (Fin dim) ℝ
  symm : H.IsSymm
  v : ℕ → Fin dim → ℝ

/-- Sum over channels of `weight * ⟨x|(z-H)⁻¹|y⟩`. -/
noncomputable def chanSum (cs : List Channel) (z : ℂ) (x y : (c : Channel) → Fin c.dim → ℝ) : ℂ :=
  (cs.map fun c => (c.weight : ℂ) * resElem z c.H (x c) (y c)).sum

theorem resElem_symm {ι : Type} [Fintype ι] [DecidableEq ι] {H : Matrix ι ι ℝ} (hH : H.IsSymm) (z : ℂ) (x y : ι → ℝ) :
    resElem z H x y = resElem z H y x := by
  unfold resElem
  have ht : (Spec.resolvent z H)ᵀ = Spec.resolvent z H := by
    unfold Spec.resolvent
    rw [Matrix.transpose_nonsing_inv]
    congr 1
    rw [Matrix.transpose_sub, Matrix.transpose_smul, Matrix.transpose_one, ← Matrix.transpose_map, hH.eq]
  rw [Matrix.dotProduct_mulVec, dotProduct_comm, ← Matrix.mulVec_transpose, ht]

theorem resElem_add {ι : Type} [Fintype ι] [DecidableEq ι] {H : Matrix ι ι ℝ} (hH : H.IsSymm) (z : ℂ) (x y : ι → ℝ) :
    resElem z H (x + y) (x + y) = resElem z H x x + 2 * resElem z H x y + resElem z H y y := by
  have hs := resElem_symm hH z x y
  unfold resElem at hs ⊢
  have e : (fun i => (((x + y) i : ℝ) : ℂ)) = (fun i => (x i : ℂ)) + fun i => (y i : ℂ) := by funext i; simp
  rw [e, Matrix.mulVec_add, dotProduct_add, add_dotProduct, add_dotProduct, ← hs]
  ring

/-- **C41** (polarisation): if the diagonal functions are resolvent elements of the vectors `v i` and the pair functions
those of `v i + v j`, as `build_gf_offdiag` builds them, then `evaluate` returns the bilinear element
`Σ weight ⟨v i|(z-H)⁻¹|v j⟩` for every pair, in either order. -/
theorem C41_polarisation (junk : ℕ → ℕ → ℂ) (cs : List Channel) (hgf : ∀ i j, i ≤ j → j < n → gf i j = some (f i j))
    (hdiag : ∀ i < n, f i i e eta = chanSum cs (e + Complex.I * eta) (fun c => c.v i) (fun c => c.v i))
    (hoff : ∀ i j, i < j → j < n → f i j e eta = chanSum cs (e + Complex.I * eta) (fun c => c.v i + c.v j) (fun c => c.v i + c.v j)) :
    ∃ G, gf2Evaluate junk n gf e eta = .ok G ∧
      ∀ i j, i < n → j < n → G i j = chanSum cs (e + Complex.I * eta) (fun c => c.v i) (fun c => c.v j) := by
  obtain ⟨G, h1, h2, h3, h4⟩ := C41_evaluate (e := e) (eta := eta) junk hgf
  have key : ∀ i j, chanSum cs (e + Complex.I * eta) (fun c => c.v i + c.v j) (fun c => c.v i + c.v j)
      = chanSum cs (e + Complex.I * eta) (fun c => c.v i) (fun c => c.v i)
        + 2 * chanSum cs (e + Complex.I * eta) (fun c => c.v i) (fun c => c.v j)
        + chanSum cs (e + Complex.I * eta) (fun c => c.v j) (fun c => c.v j) := by
    intro i j
    clear hdiag hoff
    unfold chanSum
    induction cs with
    | nil => simp
    | cons c cs ih =>
      simp only [List.map_cons, List.sum_cons]
      rw [ih, resElem_add c.symm]
      ring
  have hsym : ∀ i j, chanSum cs (e + Complex.I * eta) (fun c => c.v i) (fun c => c.v j)
      = chanSum cs (e + Complex.I * eta) (fun c => c.v j) (fun c => c.v i) := by
    intro i j
    unfold chanSum
    congr 1
    exact List.map_congr_left fun c _ => by rw [resElem_symm c.symm]
  have hlt : ∀ i j, i < j → j < n → G i j = chanSum cs (e + Complex.I * eta) (fun c => c.v i) (fun c => c.v j) := by
    intro i j hij hj
    rw [h3 i j hij hj, hoff i j hij hj, hdiag i (by omega), hdiag j hj, key]
    ring
  refine ⟨G, h1, fun i j hi hj => ?_⟩
  rcases lt_trichotomy i j with h | h | h
  · exact hlt i j h hj
  · rw [h, h2 j hj, hdiag j hj]
  · rw [h4 i j hi hj, hlt j i h hi, hsym]

/-- The array that `build_gf2_lanczos` fills: diagonal and upper triangle set, lower triangle `None`. -/
theorem buildGf2_eq {diag : ℕ → Except PyErr (ℝ → ℝ → ℂ)} {off : ℕ → ℕ → Except PyErr (ℝ → ℝ → ℂ)}
    (hd : ∀ i < n, diag i = .ok (f i i)) (ho : ∀ i j, i < j → j < n → off i j = .ok (f i j)) :
    ∃ gf, buildGf2 n diag off = .ok gf ∧ (∀ i j, i ≤ j → j < n → gf i j = some (f i j)) ∧ ∀ i j, j < i → gf i j = none := by
  obtain ⟨g1, h1, h2, h3⟩ := forM'_range_inv (fun (gf : GArr) i => do let g ← diag i; pure (upd2 gf i i (some g)))
    (fun k gf => (∀ i < k, gf i i = some (f i i)) ∧ ∀ i j, i ≠ j → gf i j = none) n (fun _ _ => none) ⟨by simp, by simp⟩
    (by
      intro k g hk hg
      refine ⟨upd2 g k k (some (f k k)), by simp [hd k hk, bind, Except.bind, pure, Except.pure], ?_, ?_⟩
      · intro i hi
        by_cases h : i = k
        · simp [upd2, h]
        · simp [upd2, h, hg.1 i (by omega)]
      · intro i j hij
        have e1 : ¬ (i = k ∧ j = k) := by omega
        simp only [upd2, if_neg e1]
        exact hg.2 i j hij)
  obtain ⟨g2, h4, h5, h6, h7⟩ := forM'_range_inv (fun gf i => forM' (fun (gf : GArr) j => do let g ← off i j; pure (upd2 gf i j (some g)))
      (List.range' (i + 1) (n - (i + 1))) gf)
    (fun k gf => (∀ i < n, gf i i = some (f i i)) ∧ (∀ i j, i < k → i < j → j < n → gf i j = some (f i j)) ∧ ∀ i j, j < i → gf i j = none) n g1
    ⟨h2, by omega, fun i j h => h3 i j (by omega)⟩
    (by
      intro k g hk hg
      obtain ⟨g', e1, e2, e3, e4⟩ := forM'_range'_inv (fun (gf : GArr) j => do let g ← off k j; pure (upd2 gf k j (some g)))
        (fun l gf => (∀ i < n, gf i i = some (f i i)) ∧ (∀ i j, (i < k ∨ i = k ∧ j < l) → i < j → j < n → gf i j = some (f i j)) ∧ ∀ i j, j < i → gf i j = none)
        (n - (k + 1)) (k + 1) g ⟨hg.1, fun i j h hij hj => hg.2.1 i j (by omega) hij hj, hg.2.2⟩
        (by
          intro l g hl1 hl2 hg
          refine ⟨upd2 g k l (some (f k l)), by simp [ho k l (by omega) (by omega), bind, Except.bind, pure, Except.pure], ?_, ?_, ?_⟩
          · intro i hi
            have e1 : ¬ (i = k ∧ i = l) := by omega
            simp only [upd2, if_neg e1]; exact hg.1 i hi
          · intro i j h hij hj
            by_cases hc : i = k ∧ j = l
            · obtain ⟨rfl, rfl⟩ := hc; simp [upd2]
            · simp only [upd2, if_neg hc]; exact hg.2.1 i j (by omega) hij hj
          · intro i j hij
            have e1 : ¬ (i = k ∧ j = l) := by omega
            simp only [upd2, if_neg e1]; exact hg.2.2 i j hij)
      exact ⟨g', e1, e2, fun i j h hij hj => e3 i j (by omega) hij hj, e4⟩)
  refine ⟨g2, ?_, fun i j hij hj => ?_, h7⟩
  · unfold buildGf2
    simp only
    rw [h1]
    exact h4
  · rcases hij.eq_or_lt with rfl | h
    · exact h5 i hj
    · exact h6 i j (by omega) h hj

/-- **C42 is false**: on every array `build_gf2_lanczos` builds, `gf2[i, j](e, eta)` works for `i < j` while
`gf2[j, i](e, eta)` raises `TypeError` (the lower triangle is never filled). -/
theorem C42_refuted {diag : ℕ → Except PyErr (ℝ → ℝ → ℂ)} {off : ℕ → ℕ → Except PyErr (ℝ → ℝ → ℂ)}
    (hd : ∀ i < n, diag i = .ok (f i i)) (ho : ∀ i j, i < j → j < n → off i j = .ok (f i j)) {i j : ℕ} (hij : i < j) (hj : j < n) :
    ∃ gf, buildGf2 n diag off = .ok gf ∧ (∃ x, gf2Item gf i j e eta = .ok x) ∧ gf2Item gf j i e eta = .error .typeError := by
  obtain ⟨gf, h1, h2, h3⟩ := buildGf2_eq hd ho
  refine ⟨gf, h1, ⟨1 / 2 * (f i j e eta - f i i e eta - f j j e eta), ?_⟩, ?_⟩
  · have : i ≠ j := by omega
    simp [gf2Item, this, h2 i j (by omega) hj, h2 i i le_rfl (by omega), h2 j j le_rfl hj, callG, bind, Except.bind, pure, Except.pure]
  · have : j ≠ i := by omega
    simp [gf2Item, this, h3 j i hij, callG, bind, Except.bind]

/-- **C42**, the part that holds: on and above the diagonal, item access agrees with the evaluated matrix. -/
theorem C42_upper_partial (junk : ℕ → ℕ → ℂ) {diag : ℕ → Except PyErr (ℝ → ℝ → ℂ)} {off : ℕ → ℕ → Except PyErr (ℝ → ℝ → ℂ)}
    (hd : ∀ i < n, diag i = .ok (f i i)) (ho : ∀ i j, i < j → j < n → off i j = .ok (f i j)) :
    ∃ gf G, buildGf2 n diag off = .ok gf ∧ gf2Evaluate junk n gf e eta = .ok G ∧
      ∀ i j, i ≤ j → j < n → gf2Item gf i j e eta = .ok (G i j) := by
  obtain ⟨gf, h1, h2, h3⟩ := buildGf2_eq hd ho
  obtain ⟨G, g1, g2, g3, -⟩ := C41_evaluate (e := e) (eta := eta) junk h2
  refine ⟨gf, G, h1, g1, fun i j hij hj => ?_⟩
  by_cases h : i = j
  · subst h
    simp [gf2Item, h2 i i le_rfl hj, callG, g2 i hj]
  · rw [g3 i j (by omega) hj]
    simp [gf2Item, h, h2 i j (by omega) hj, h2 i i le_rfl (by omega), h2 j j le_rfl hj, callG, bind, Except.bind, pure, Except.pure]

/-- With separate electron and hole parts, item access on and above the diagonal is the sum of the elements of both evaluated matrices, below the diagonal it raises. -/
theorem C42_separate_partial (junk : ℕ → ℕ → ℂ) {fe fh : ℕ → ℕ → ℝ → ℝ → ℂ} {diag : ℕ → Except PyErr ((ℝ → ℝ → ℂ) × (ℝ → ℝ → ℂ))} {off : ℕ → ℕ → Except PyErr ((ℝ → ℝ → ℂ) × (ℝ → ℝ → ℂ))}
    (hd : ∀ i < n, diag i = .ok (fe i i, fh i i)) (ho : ∀ i j, i < j → j < n → off i j = .ok (fe i j, fh i j)) :
    ∃ gfe gfh Ge Gh, buildGf2 n (fun i => (diag i).map Prod.fst) (fun i j => (off i j).map Prod.fst) = .ok gfe ∧
      buildGf2 n (fun i => (diag i).map Prod.snd) (fun i j => (off i j).map Prod.snd) = .ok gfh ∧
      gf2Evaluate junk n gfe e eta = .ok Ge ∧ gf2Evaluate junk n gfh e eta = .ok Gh ∧
      (∀ i j, i ≤ j → j < n → gf2ItemSep gfe gfh i j e eta = .ok (Ge i j + Gh i j)) ∧
      ∀ i j, i < j → j < n → gf2ItemSep gfe gfh j i e eta = .error .typeError := by
  have hde : ∀ i < n, (fun i => (diag i).map Prod.fst) i = .ok (fe i i) := fun i hi => by simp only [hd i hi, Except.map]
  have hdh : ∀ i < n, (fun i => (diag i).map Prod.snd) i = .ok (fh i i) := fun i hi => by simp only [hd i hi, Except.map]
  have hoe : ∀ i j, i < j → j < n → (fun i j => (off i j).map Prod.fst) i j = .ok (fe i j) := fun i j hi hj => by simp only [ho i j hi hj, Except.map]
  have hoh : ∀ i j, i < j → j < n → (fun i j => (off i j).map Prod.snd) i j = .ok (fh i j) := fun i j hi hj => by simp only [ho i j hi hj, Except.map]
  obtain ⟨gfe, Ge, a1, a2, a3⟩ := C42_upper_partial (e := e) (eta := eta) junk hde hoe
  obtain ⟨gfh, Gh, b1, b2, b3⟩ := C42_upper_partial (e := e) (eta := eta) junk hdh hoh
  refine ⟨gfe, gfh, Ge, Gh, a1, b1, a2, b2, fun i j hij hj => ?_, fun i j hij hj => ?_⟩
  · simp [gf2ItemSep, a3 i j hij hj, b3 i j hij hj, bind, Except.bind, pure, Except.pure]
  · obtain ⟨gf, c1, -, c2⟩ := C42_refuted (e := e) (eta := eta) hde hoe hij hj
    rw [a1] at c1
    injection c1 with c1
    subst c1
    simp [gf2ItemSep, c2, bind, Except.bind]

/-- Non-vacuity: builders that return the bilinear functions of a one-channel problem with three sites. -/
example : ∃ (diag : ℕ → Except PyErr (ℝ → ℝ → ℂ)) (off : ℕ → ℕ → Except PyErr (ℝ → ℝ → ℂ)) (f : ℕ → ℕ → ℝ → ℝ → ℂ),
    (∀ i < 3, diag i = .ok (f i i)) ∧ (∀ i j, i < j → j < 3 → off i j = .ok (f i j)) ∧
    (∀ i < 3, f i i 0 1 = chanSum [⟨1, 1, 1, Matrix.isSymm_one, fun i _ => i⟩] ((0 : ℝ) + Complex.I * (1 : ℝ)) (fun c => c.v i) (fun c => c.v i)) :=
  ⟨fun i => .ok fun e eta => chanSum [⟨1, 1, 1, Matrix.isSymm_one, fun i _ => i⟩] (e + Complex.I * eta) (fun c => c.v i) (fun c => c.v i),
    fun i j => .ok fun e eta => chanSum [⟨1, 1, 1, Matrix.isSymm_one, fun i _ => i⟩] (e + Complex.I * eta) (fun c => c.v i + c.v j) (fun c => c.v i + c.v j),
    fun i j e eta => if i = j then chanSum [⟨1, 1, 1, Matrix.isSymm_one, fun i _ => i⟩] (e + Complex.I * eta) (fun c => c.v i) (fun c => c.v i)
      else chanSum [⟨1, 1, 1, Matrix.isSymm_one, fun i _ => i⟩] (e + Complex.I * eta) (fun c => c.v i + c.v j) (fun c => c.v i + c.v j),
    fun i _ => by simp, fun i j h _ => by simp [show i ≠ j by omega], fun i _ => by simp⟩

end Edpyt
