import Verif.Props.Gf2Lanczos

/-! # A model for which `build_gf2_lanczos` does return (`edpyt/gf2_lanczos.py`) -/

namespace Edpyt
open Edpyt.Spec
open Matrix

/-- Two sites, no hopping, no interaction, spin-dependent levels 1, 2 (up) and 4, 8 (down). -/
def splitArgs : HamArgs :=
  ⟨2, fun s i j => if i = j then (if s = 0 then (if i = 0 then 1 else 2) else (if i = 0 then 4 else 8)) else 0, .array fun _ _ => 0, none, false, 0⟩

theorem splitArgs_valid : splitArgs.Valid := by
  refine ⟨le_refl 2, by simp [splitArgs], rfl, ?_, by simp [splitArgs, VArg.array], by simp [splitArgs, VArg.array], by simp [splitArgs, VArg.array]⟩
  intro s i j _ _
  simp only [splitArgs]
  by_cases h : i = j
  · subst h; rfl
  · simp [h, Ne.symm h]

/-- The energies. -/
def splitN (T : Finset (Fin (2 + 2))) : ℕ := (if 0 ∈ T then 1 else 0) + (if 1 ∈ T then 2 else 0) + (if 2 ∈ T then 4 else 0) + (if 3 ∈ T then 8 else 0)

theorem splitN_inj : ∀ S T : Finset (Fin (2 + 2)), splitN S = splitN T → S = T := by decide

theorem split_kin (z : Fin 2 → ℝ) : hubbard false (fun s (i j : Fin 2) => if i = j then (if s then (if i = 0 then 4 else 8) else (if i = 0 then 1 else 2)) else 0) z (fun _ _ => 0) =
    (Matrix.diagonal fun T => (splitN T : ℝ) : Matrix (Finset (Fin (2 + 2))) (Finset (Fin (2 + 2))) ℝ) := by
  have h2 : (kinetic (fun s (i j : Fin 2) => if i = j then (if s then (if i = 0 then 4 else 8) else (if i = 0 then 1 else 2)) else 0) : Matrix (Finset (Fin (2 + 2))) (Finset (Fin (2 + 2))) ℝ) =
      (4 : ℝ) • num ℝ (2 : Fin (2 + 2)) + (8 : ℝ) • num ℝ (3 : Fin (2 + 2)) + ((1 : ℝ) • num ℝ (0 : Fin (2 + 2)) + (2 : ℝ) • num ℝ (1 : Fin (2 + 2))) := by
    unfold kinetic
    simp [Fin.sum_univ_two]
    rfl
  unfold hubbard onsiteU interSite
  rw [h2]
  ext S T
  by_cases hST : S = T
  · subst hST
    simp [num_apply, splitN]
    ring
  · simp [num_apply, Matrix.diagonal_apply, hST]

theorem split_ham : splitArgs.ham = (Matrix.diagonal fun T => (splitN T : ℝ) : Matrix (Finset (Fin (2 + 2))) (Finset (Fin (2 + 2))) ℝ) := by
  have h1 : (codeExchange splitArgs.V.Jx splitArgs.V.Jp : Matrix (Finset (Fin (2 + 2))) (Finset (Fin (2 + 2))) ℝ) = 0 := by
    rw [show splitArgs.V.Jx = none from rfl, show splitArgs.V.Jp = none from rfl]
    simp [codeExchange, optMat, exchangeSame, exchangeFlip, pairHopping, offdiag]
  rw [← split_kin (fun _ => 0)]
  unfold HamArgs.ham
  refine (congrArg₂ (· + ·) (?_ : _ = hubbard false (fun s (i j : Fin 2) => if i = j then (if s then (if i = 0 then 4 else 8) else (if i = 0 then 1 else 2)) else 0) (fun _ => (0 : ℝ)) (fun _ _ => 0)) h1).trans (add_zero _)
  have e1 : ∀ (s : Bool) (i j : Fin 2), kept (n := 2) splitArgs.mu (splitArgs.H (if s then 1 else 0)) i j =
      if i = j then (if s then (if i = 0 then 4 else 8) else (if i = 0 then 1 else 2)) else 0 := by
    intro s i j
    rw [kept_apply]
    by_cases h : i = j
    · subst h
      cases s <;> fin_cases i <;> simp [splitArgs] <;> norm_num
    · have : ((i : ℕ) = j) = False := by simpa [Fin.ext_iff] using h
      simp only [h, splitArgs, this, if_false]
      norm_num
  congr 1
  funext s i j
  exact e1 _ i j

/-- An eigenvector of a diagonal matrix with distinct entries is a multiple of a basis vector. -/
theorem split_eig {ψ : Finset (Fin (2 + 2)) → ℝ} {E : ℝ} (h1 : ψ ⬝ᵥ ψ = 1) (h2 : (Matrix.diagonal fun T => (splitN T : ℝ)) *ᵥ ψ = E • ψ) :
    ∃ T c, c ^ 2 = 1 ∧ ψ = Pi.single T c := by
  obtain ⟨T, hT⟩ : ∃ T, ψ T ≠ 0 := by
    by_contra hno
    push Not at hno
    simp [dotProduct, hno] at h1
  have hE : ∀ S, ψ S ≠ 0 → (splitN S : ℝ) = E := by
    intro S hS
    have := congrFun h2 S
    rw [Matrix.mulVec_diagonal, Pi.smul_apply, smul_eq_mul] at this
    exact mul_right_cancel₀ hS this
  have hψ : ψ = Pi.single T (ψ T) := by
    funext S
    by_cases hS : S = T
    · subst hS; simp
    · rw [Pi.single_eq_of_ne hS]
      by_contra h0
      exact hS (splitN_inj S T (by exact_mod_cast (hE S h0).trans (hE T hT).symm))
  refine ⟨T, ψ T, ?_, hψ⟩
  rw [hψ] at h1
  simp at h1
  rw [sq]; exact h1

theorem ladder_apply {a b : Fin (2 + 2)} (hab : a ≠ b) (op : Ladder) (T : Finset (Fin (2 + 2))) (h : op.Fits a T) : ∃ T', (op.mat a T' T) ^ 2 = 1 ∧ op.mat b T' T = 0 := by
  have hs : ∀ (i : Fin (2 + 2)) (S : Finset (Fin (2 + 2))), ((sgn i S : ℤ) : ℝ) ^ 2 = 1 := by
    intro i S
    unfold sgn
    push_cast
    rw [← pow_mul, mul_comm, pow_mul]; simp
  cases op
  all_goals simp only [Ladder.Fits] at h
  · refine ⟨T.erase a, ?_, ?_⟩
    · simp only [Ladder.mat, ann_apply, h, if_true]; exact hs _ _
    · simp only [Ladder.mat, ann_apply]
      split_ifs with h1 h2
      · have : b ∈ T.erase a := Finset.mem_erase.mpr ⟨hab.symm, h1⟩
        rw [h2] at this; simp at this
      · rfl
      · rfl
  · refine ⟨insert a T, ?_, ?_⟩
    · simp only [Ladder.mat, cre_apply, h, not_false_eq_true, if_true]; exact hs _ _
    · simp only [Ladder.mat, cre_apply]
      by_cases h1 : b ∈ T
      · simp [h1]
      by_cases h2 : insert a T = insert b T
      · have : a ∈ insert b T := by rw [← h2]; simp
        simp [hab, h] at this
      · simp [h2]

theorem split_norm (s : Bool) (op : Ladder) (T : Finset (Fin (2 + 2))) (c : ℝ) (hc : c ^ 2 = 1) {i j : Fin 2} (hij : i ≠ j) (h : ∃ k : Fin 2, op.Fits (orb s k) T) :
    1 ≤ ((op.mat (orb s i) + op.mat (orb s j)) *ᵥ Pi.single T c) ⬝ᵥ ((op.mat (orb s i) + op.mat (orb s j)) *ᵥ (Pi.single T c : Finset (Fin (2 + 2)) → ℝ)) := by
  have hor : ∀ a b : Fin 2, a ≠ b → (orb s a : Fin (2 + 2)) ≠ orb s b := by cases s <;> decide
  have hk : ∀ k : Fin 2, k = i ∨ k = j := by omega
  have key : ∃ T', ((op.mat (orb s i) + op.mat (orb s j)) T' T) ^ 2 = 1 := by
    have h1 : op.Fits (orb s i) T ∨ op.Fits (orb s j) T := by
      obtain ⟨k, hk'⟩ := h
      rcases hk k with rfl | rfl
      · exact .inl hk'
      · exact .inr hk'
    rcases h1 with h1 | h1
    · obtain ⟨T', a1, a2⟩ := ladder_apply (hor i j hij) op T h1
      exact ⟨T', by rw [Matrix.add_apply, a2, add_zero, a1]⟩
    · obtain ⟨T', a1, a2⟩ := ladder_apply (hor j i hij.symm) op T h1
      exact ⟨T', by rw [Matrix.add_apply, a2, zero_add, a1]⟩
  obtain ⟨T', hT'⟩ := key
  rw [dotProduct]
  refine le_trans ?_ (Finset.single_le_sum (f := fun S => ((op.mat (orb s i) + op.mat (orb s j)) *ᵥ (Pi.single T c : Finset (Fin (2 + 2)) → ℝ)) S * ((op.mat (orb s i) + op.mat (orb s j)) *ᵥ Pi.single T c) S)
    (fun S _ => mul_self_nonneg _) (Finset.mem_univ T'))
  have : ((op.mat (orb s i) + op.mat (orb s j)) *ᵥ (Pi.single T c : Finset (Fin (2 + 2)) → ℝ)) T' = (op.mat (orb s i) + op.mat (orb s j)) T' T * c := by
    rw [Matrix.mulVec_single]; simp; ring
  simp only [this]
  rw [mul_mul_mul_comm, ← sq, ← sq, hT', hc, one_mul]

/-- No eigenstate of `splitArgs` is annihilated. -/
theorem split_not_killed {g : GfLArgs} (hg : g.ham = splitArgs) (hd : g.cfg.delta ^ 2 ≤ 1) {i j : Fin g.ham.n} (hij : i ≠ j) : ¬ NearlyKilled g i j := by
  obtain ⟨cfg, rep, w, junk, ham, beta, egs, ispin⟩ := g
  simp only at hg hd
  subst hg
  rintro ⟨ψ, E, h1, h2, op, h3, h4⟩
  simp only at h1 h2 h3 h4
  rw [split_ham] at h2
  obtain ⟨T, c, hc, rfl⟩ := split_eig h1 h2
  have hc0 : c ≠ 0 := by rintro rfl; norm_num at hc
  have h5 := h3 T (by simpa using hc0)
  have h6 := split_norm ispin op T c hc (i := i) (j := j) hij h5
  have h7 : _ < cfg.delta ^ 2 := h4
  exact absurd h6 (not_le.mpr (lt_of_lt_of_le h7 hd))

/-- Non-vacuity of the second case of `C99_gf2_lanczos_partial`: with the default parameters the array is returned for this model. -/
example : ∃ es st, EigenEspace 2 splitArgs.ham es ∧
    BuildGf2Lanczos ⟨⟨500, 10, 1 / 10 ^ 13, fun _ _ => 0, fun _ _ => false⟩, .cf, 32, 0, splitArgs, 10, 0, false⟩ false es (.ok st) := by
  obtain ⟨es, hes⟩ : ∃ es, EigenEspace 2 splitArgs.ham es := by
    obtain ⟨l, hl, hlb⟩ := C25_default_neig splitArgs.n
    obtain ⟨⟨⟨es, e0⟩, h⟩, -⟩ := C25_build_espace_partial splitArgs_valid (w := 64) (by simp [splitArgs]) l hlb
    have h' : BuildEspace 64 splitArgs none (.ok (es, e0)) := by
      simp only [BuildEspace, hl]
      simpa only [BuildEspace, neigOrDefault] using h
    exact ⟨es, buildEspace_eigen splitArgs_valid (by simp [splitArgs]) h'⟩
  obtain ⟨⟨r, hr⟩, h2⟩ := C99_gf2_lanczos_partial (g := ⟨⟨500, 10, 1 / 10 ^ 13, fun _ _ => 0, fun _ _ => false⟩, .cf, 32, 0, splitArgs, 10, 0, false⟩) (es := es) 0
    splitArgs_valid (by decide) ⟨by norm_num, by norm_num, by norm_num⟩ hes false
  rcases h2 r hr with ⟨-, i, j, hij, hk⟩ | ⟨st, rfl, -⟩
  · exact absurd hk (split_not_killed rfl (by norm_num) hij.ne)
  · exact ⟨es, st, hes, hr⟩

end Edpyt
