import Verif.Model.SlSolve
import Verif.Props.Lanczos
import Verif.Proof.Thermal
import Verif.Proof.Eigen
import Verif.Proof.Amplitude
/-!
# C120: eigenpairs from the second Lanczos pass
-/

namespace Edpyt
open Spec Matrix

variable {ι : Type} [Fintype ι] {A : Matrix ι ι ℝ} {phi : ι → ℝ}

/-- Scaling the start vector does not change the Lanczos vectors. -/
theorem lancIter_smul (A : Matrix ι ι ℝ) (phi : ι → ℝ) {c : ℝ} (hc : 0 < c) (k : ℕ) : lancIter A (c • phi) (k + 1) = lancIter A phi (k + 1) := by
  induction k with
  | zero =>
    have hb : Real.sqrt ((c • phi) ⬝ᵥ (c • phi)) = c * Real.sqrt (phi ⬝ᵥ phi) := by
      rw [smul_dotProduct, dotProduct_smul, smul_eq_mul, smul_eq_mul, ← mul_assoc, Real.sqrt_mul (by positivity), Real.sqrt_mul_self hc.le]
    have hv : (1 / (c * Real.sqrt (phi ⬝ᵥ phi))) • (c • phi) = (1 / Real.sqrt (phi ⬝ᵥ phi)) • phi := by
      rw [smul_smul]
      congr 1
      by_cases h0 : Real.sqrt (phi ⬝ᵥ phi) = 0
      · simp [h0]
      · field_simp
    simp only [lancIter, slStep, hb, hv, smul_zero, add_zero]
  | succ k ih => rw [lancIter, ih]; rfl

theorem lancQ_smul (A : Matrix ι ι ℝ) (phi : ι → ℝ) {c : ℝ} (hc : 0 < c) (k : ℕ) : lancQ A (c • phi) k = lancQ A phi k :=
  congrArg Prod.snd (lancIter_smul A phi hc k)

/-- The rows of `r` after `m` steps. -/
theorem slSecond_eq (A : Matrix ι ι ℝ) (U : List (ℕ → ℝ)) (m : ℕ) (v0 : ι → ℝ) :
    slSecond (A *ᵥ ·) U m v0 = ((lancIter A v0 m).1, (lancIter A v0 m).2, U.map fun u => ∑ n ∈ Finset.range m, u n • lancQ A v0 n) := by
  induction m with
  | zero => simp [slSecond, lancIter]
  | succ m ih =>
    unfold slSecond at ih ⊢
    rw [List.range_succ, List.foldl_append, ih]
    simp only [List.foldl_cons, List.foldl_nil, lancIter]
    congr 2
    rw [List.zipWith_map_right, List.zipWith_self]
    apply List.map_congr_left
    intro u _
    rw [Finset.sum_range_succ]
    rfl

theorem tridiagDense_val (a b : List ℝ) (i j : Fin a.length) :
    (tridiagDense a (b.drop 1)).val i j = tridiag a.length (fun k => a[k]?.getD 0) (fun k => b[k]?.getD 0) i j := by
  have e : ∀ k : ℕ, (b.drop 1)[k]? = b[k + 1]? := fun k => by rw [List.getElem?_drop, Nat.add_comm]
  simp only [tridiagDense, tridiag, Matrix.of_apply, e, Fin.ext_iff]
  split_ifs with h1 h2 h3
  · rfl
  · rw [h2]
  · rw [h3]
  · rfl

/-- The combination of the Lanczos vectors with an eigenvector of the tridiagonal matrix. -/
theorem ritz_vector {a b : List ℝ} (hl : 1 ≤ a.length) {q : Fin a.length → ι → ℝ} {res : ι → ℝ} (hK : KrylovBasis A phi a b q res) {u : ℕ → ℝ} {w : ℝ}
    (hu : ∀ r < a.length, ∑ c ∈ Finset.range a.length, (tridiagDense a (b.drop 1)).val r c * u c = w * u r) :
    A *ᵥ (∑ i : Fin a.length, u i • q i) = w • (∑ i : Fin a.length, u i • q i) + u (a.length - 1) • res := by
  have h1 : A *ᵥ (∑ i : Fin a.length, u i • q i) = ∑ i : Fin a.length, u i • (A *ᵥ q i) := by
    rw [Matrix.mulVec_sum]
    exact Finset.sum_congr rfl fun i _ => Matrix.mulVec_smul _ _ _
  rw [h1]
  have h2 : ∀ i : Fin a.length, u i • (A *ᵥ q i) = ∑ j, (u i * tridiag a.length (fun k => a[k]?.getD 0) (fun k => b[k]?.getD 0) i j) • q j +
      (if (i : ℕ) + 1 = a.length then u i • res else 0) := by
    intro i
    rw [hK.map i, smul_add, Finset.smul_sum]
    congr 1
    · exact Finset.sum_congr rfl fun j _ => smul_smul _ _ _
    · split_ifs
      · rfl
      · exact smul_zero _
  rw [Finset.sum_congr rfl fun i _ => h2 i, Finset.sum_add_distrib, Finset.sum_comm]
  congr 1
  · rw [Finset.smul_sum]
    refine Finset.sum_congr rfl fun j _ => ?_
    rw [← Finset.sum_smul, smul_smul]
    congr 1
    rw [← hu j j.2, Finset.sum_range]
    refine Finset.sum_congr rfl fun i _ => ?_
    rw [tridiagDense_val, mul_comm, (tridiag_symm _ _ _).apply]
  · rw [Finset.sum_eq_single ⟨a.length - 1, by omega⟩]
    · rw [if_pos (by simp only; omega)]
    · intro i _ hi
      rw [if_neg]
      intro h
      apply hi
      ext
      simp only
      omega
    · simp

/-- Part of a complete diagonalisation. -/
structure PartEig (D : Dense ℝ) (w : List ℝ) (U : List (ℕ → ℝ)) : Prop where
  len : U.length = w.length
  sorted : w.Pairwise (· ≤ ·)
  orth : ∀ (i j : ℕ) (hi : i < U.length) (hj : j < U.length), ∑ r ∈ Finset.range D.size, U[i] r * U[j] r = if i = j then 1 else 0
  eig : ∀ (i : ℕ) (hi : i < U.length) (hi' : i < w.length) (r : ℕ), r < D.size → ∑ c ∈ Finset.range D.size, D.val r c * U[i] c = w[i] * U[i] r

theorem EighTridiagonal.part {a b : List ℝ} {select lo hi : ℕ} {w : List ℝ} {U : List (ℕ → ℝ)} (h : EighTridiagonal a b select lo hi (.ok (w, U))) :
    PartEig (tridiagDense a b) w U ∧ ((select = 0 ∧ w.length = a.length) ∨ (select = 2 ∧ w.length = min (hi + 1) a.length - lo)) := by
  unfold EighTridiagonal at h
  split_ifs at h with h1 h2
  · obtain ⟨W, V, hE, e⟩ := h
    injection e with e
    injection e with e1 e2
    subst e1; subst e2
    exact ⟨⟨by rw [hE.vlen, hE.wlen], hE.sorted, hE.orth, hE.eig⟩, Or.inl ⟨h1, hE.wlen⟩⟩
  · obtain ⟨W, V, hE, e⟩ := h
    injection e with e
    injection e with e1 e2
    subst e1; subst e2
    refine ⟨⟨?_, ?_, ?_, ?_⟩, Or.inr ⟨h2, ?_⟩⟩
    · simp only [List.length_drop, List.length_take, hE.vlen, hE.wlen]
    · exact (hE.sorted.sublist (List.take_sublist _ _)).sublist (List.drop_sublist _ _)
    · intro i j hi hj
      simp only [List.getElem_drop, List.getElem_take]
      rw [hE.orth]
      simp
    · intro i hi hi' r hr
      simp only [List.getElem_drop, List.getElem_take]
      exact hE.eig _ _ _ r hr
    · simp only [List.length_drop, List.length_take, hE.wlen, tridiagDense]

theorem EighTridiagonal.total (a b : List ℝ) (lo hi : ℕ) {select : ℕ} (hs : select = 0 ∨ select = 2) : ∃ w U, EighTridiagonal a b select lo hi (.ok (w, U)) := by
  have : ∃ W V, Eigh (tridiagDense a b) W V := by
    refine eigh_exists _ fun i j _ _ => ?_
    simp only [tridiagDense]
    by_cases h1 : i = j
    · rw [h1]
    · rw [if_neg h1, if_neg (Ne.symm h1)]
      by_cases h2 : i + 1 = j
      · rw [if_pos h2, if_neg (by omega), if_pos h2]
      · rw [if_neg h2]
        by_cases h3 : j + 1 = i
        · rw [if_pos h3, if_pos h3]
        · rw [if_neg h3, if_neg h3, if_neg h2]
  obtain ⟨W, V, h⟩ := this
  rcases hs with rfl | rfl
  · exact ⟨W, V, by simp only [EighTridiagonal, if_true]; exact ⟨W, V, h, rfl⟩⟩
  · exact ⟨_, _, by simp only [EighTridiagonal, if_true]; exact ⟨W, V, h, rfl⟩⟩

variable {delta : ℝ} {eg : List ℝ → List ℝ → ℝ} {close : ℝ → Option ℝ → Bool} {maxn ND : ℕ}

/-- **C120** `sl_solve(matvec, a, b, v0, select, select_range)` after `a, b = build_sl_tridiag(matvec, v0)`, in exact arithmetic and for a symmetric matrix: the
values are ascending, the vectors orthonormal, and each pair misses the eigenvalue equation by at most the remainder `res` that the first pass neglected. The start
vector may have been scaled in between (the first pass normalises it in place). -/
theorem C120_pairs (hA : A.IsSymm) (hdelta : 0 < delta) (hmaxn : 2 ≤ maxn) (hND : 1 ≤ ND) {junk a b : List ℝ} (hjunk : junk.length = maxn)
    (h : BuildSlTridiag (slStep (A *ᵥ ·)) (tinyB delta) eg close maxn ND junk 0 phi (.ok (a, b))) {c : ℝ} (hc : 0 < c) {select lo hi : ℕ} (hs : select = 0 ∨ select = 2)
    (hr : lo ≤ hi) (hhi : hi < a.length) :
    (∃ r, SlSolve (A *ᵥ ·) a b (some (c • phi)) select lo hi false r) ∧ ∀ r, SlSolve (A *ᵥ ·) a b (some (c • phi)) select lo hi false r →
      ∃ (w : List ℝ) (x : List (ι → ℝ)) (q : Fin a.length → ι → ℝ) (res : ι → ℝ), r = .ok (.pair w x) ∧ KrylovBasis A phi a b q res ∧
        x.length = w.length ∧ w.length = (if select = 0 then a.length else hi + 1 - lo) ∧ w.Pairwise (· ≤ ·) ∧
        (∀ (i j : ℕ) (hi : i < x.length) (hj : j < x.length), x[i] ⬝ᵥ x[j] = if i = j then 1 else 0) ∧
        ∀ (i : ℕ) (hi : i < x.length) (hi' : i < w.length), x[i] ⬝ᵥ (A *ᵥ x[i]) = w[i] ∧ ∃ t : ℝ, |t| ≤ 1 ∧ A *ᵥ x[i] - w[i] • x[i] = t • res := by
  have hl := (lanczos_coeffs hdelta hmaxn hND hjunk h).1
  have hK := lanczos_vectors hA hdelta hmaxn hND hjunk h
  constructor
  · obtain ⟨w, U, hwU⟩ := EighTridiagonal.total a (b.drop 1) lo hi hs
    exact ⟨_, Or.inr ⟨w, U, hwU, rfl⟩⟩
  rintro r (⟨e, he, -⟩ | ⟨w, U, hwU, hr'⟩)
  · exfalso
    unfold EighTridiagonal at he
    rcases hs with rfl | rfl <;> simp at he
  obtain ⟨hp, hlen⟩ := hwU.part
  simp only [Bool.false_eq_true, if_false] at hr'
  rw [slSecond_eq] at hr'
  have hx : ∀ u : ℕ → ℝ, ∑ n ∈ Finset.range a.length, u n • lancQ A (c • phi) n = ∑ i : Fin a.length, u i • lancQ A phi i := fun u => by
    rw [Finset.sum_range]
    exact Finset.sum_congr rfl fun i _ => by rw [lancQ_smul A phi hc]
  simp only [hx] at hr'
  have hdot : ∀ u v : ℕ → ℝ, (∑ i : Fin a.length, u i • lancQ A phi i) ⬝ᵥ (∑ i : Fin a.length, v i • lancQ A phi i) = ∑ r ∈ Finset.range a.length, u r * v r := by
    intro u v
    rw [sum_dotProduct, Finset.sum_range]
    refine Finset.sum_congr rfl fun i _ => ?_
    rw [dotProduct_sum]
    simp only [smul_dotProduct, dotProduct_smul, hK.orth, smul_eq_mul, mul_ite, mul_one, mul_zero, Finset.sum_ite_eq, Finset.mem_univ, if_true]
    exact mul_comm _ _
  refine ⟨w, _, fun i => lancQ A phi i, _, hr', hK, by rw [List.length_map, hp.len], ?_, hp.sorted, ?_, ?_⟩
  · rcases hlen with ⟨rfl, h2⟩ | ⟨rfl, h2⟩
    · simpa using h2
    · simp only [OfNat.ofNat_ne_zero, if_false]
      omega
  · intro i j hi hj
    simp only [List.getElem_map]
    rw [hdot]
    exact hp.orth i j _ _
  · intro i hi hi'
    have hiU : i < U.length := by simpa using hi
    have hone : ∑ r ∈ Finset.range a.length, U[i] r * U[i] r = 1 := by
      have := hp.orth i i hiU hiU
      rwa [if_pos rfl] at this
    have hv := ritz_vector hl hK (u := U[i]) (w := w[i]) fun r hr => hp.eig i hiU hi' r hr
    simp only [List.getElem_map]
    refine ⟨?_, U[i] (a.length - 1), ?_, ?_⟩
    · rw [hv, dotProduct_add, dotProduct_smul, hdot, hone, dotProduct_smul, sum_dotProduct]
      have : ∀ j : Fin a.length, (U[i] j • lancQ A phi j) ⬝ᵥ (lancIter A phi a.length).1 = 0 := fun j => by
        rw [smul_dotProduct]
        rw [show lancQ A phi j ⬝ᵥ (lancIter A phi a.length).1 = 0 from hK.rem j, smul_zero]
      simp [this]
    · have : U[i] (a.length - 1) * U[i] (a.length - 1) ≤ 1 := by
        rw [← hone]
        exact Finset.single_le_sum (f := fun r => U[i] r * U[i] r) (fun r _ => mul_self_nonneg _) (Finset.mem_range.mpr (by omega))
      exact abs_le_one_iff_mul_self_le_one.mpr this
    · rw [hv, add_sub_cancel_left]

/-- **C120** Every value returned is within the neglected remainder of an exact eigenvalue. -/
theorem C120_close (hA : A.IsSymm) (hdelta : 0 < delta) (hmaxn : 2 ≤ maxn) (hND : 1 ≤ ND) {junk a b : List ℝ} (hjunk : junk.length = maxn)
    (h : BuildSlTridiag (slStep (A *ᵥ ·)) (tinyB delta) eg close maxn ND junk 0 phi (.ok (a, b))) {c : ℝ} (hc : 0 < c) {select lo hi : ℕ} (hs : select = 0 ∨ select = 2)
    (hr : lo ≤ hi) (hhi : hi < a.length) {κ : Type} [Fintype κ] [DecidableEq κ] [DecidableEq ι] {u : κ → ι → ℝ} {E : κ → ℝ} (hE : EigBasis A u E)
    {w : List ℝ} {x : List (ι → ℝ)} (hr' : SlSolve (A *ᵥ ·) a b (some (c • phi)) select lo hi false (.ok (.pair w x))) {ε : ℝ} (hε : 0 ≤ ε)
    (hres : ∀ q res, KrylovBasis A phi a b q res → res ⬝ᵥ res ≤ ε ^ 2) : ∀ v ∈ w, ∃ k, |E k - v| ≤ ε := by
  obtain ⟨w', x', q, res, e, hK, hx, -, -, horth, hpair⟩ := (C120_pairs hA hdelta hmaxn hND hjunk h hc hs hr hhi).2 _ hr'
  injection e with e
  injection e with e1 e2
  subst e1; subst e2
  intro v hv
  obtain ⟨i, hi, rfl⟩ := List.getElem_of_mem hv
  have hix : i < x.length := by omega
  obtain ⟨-, t, ht, hres'⟩ := hpair i hix hi
  by_contra hcon
  push Not at hcon
  -- the coefficients of the vector in the eigenbasis
  have hnorm : ∀ y : ι → ℝ, ∑ k, (u k ⬝ᵥ y) ^ 2 = y ⬝ᵥ y := fun y => by
    conv_rhs => rw [← hE.expand y]
    rw [sum_dotProduct]
    exact Finset.sum_congr rfl fun k _ => by rw [smul_dotProduct, hE.expand, smul_eq_mul, pow_two]
  have h1 : ∀ k, u k ⬝ᵥ (t • res) = (E k - w[i]) * (u k ⬝ᵥ x[i]) := fun k => by
    rw [← hres', dotProduct_sub, dotProduct_smul, Matrix.dotProduct_mulVec, ← Matrix.mulVec_transpose, hA.eq, hE.eig, smul_dotProduct, smul_eq_mul, smul_eq_mul]
    ring
  have h2 : ∑ k, (u k ⬝ᵥ x[i]) ^ 2 = 1 := by
    rw [hnorm, horth i i hix hix, if_pos rfl]
  have h3 : ∑ k, ((E k - w[i]) * (u k ⬝ᵥ x[i])) ^ 2 ≤ ε ^ 2 := by
    have e : ∑ k, ((E k - w[i]) * (u k ⬝ᵥ x[i])) ^ 2 = ∑ k, (u k ⬝ᵥ (t • res)) ^ 2 := Finset.sum_congr rfl fun k _ => by rw [h1 k]
    rw [e, hnorm, smul_dotProduct, dotProduct_smul, smul_eq_mul, smul_eq_mul]
    have h4 := hres q res hK
    have h5 : t * t ≤ 1 := abs_le_one_iff_mul_self_le_one.mp ht
    have h6 := dot_self_nonneg res
    nlinarith
  have h4 : ε ^ 2 < ∑ k, ((E k - w[i]) * (u k ⬝ᵥ x[i])) ^ 2 := by
    have : ε ^ 2 = ∑ k, ε ^ 2 * (u k ⬝ᵥ x[i]) ^ 2 := by rw [← Finset.mul_sum, h2, mul_one]
    rw [this]
    have hle : ∀ k, ε ^ 2 < (E k - w[i]) ^ 2 := fun k => by
      rw [← sq_abs (E k - w[i])]
      exact pow_lt_pow_left₀ (hcon k) hε two_ne_zero
    apply Finset.sum_lt_sum
    · intro k _
      rw [mul_pow]
      exact mul_le_mul_of_nonneg_right (hle k).le (sq_nonneg _)
    · by_contra hall
      push Not at hall
      have : ∀ k, (u k ⬝ᵥ x[i]) ^ 2 = 0 := fun k => by
        have h7 := hall k (Finset.mem_univ _)
        rw [mul_pow] at h7
        have := hle k
        have h8 := sq_nonneg (u k ⬝ᵥ x[i])
        nlinarith
      simp [this] at h2
  linarith

/-- **C120** (refuted for `eigvals_only=True`) The eigenvalues alone cannot be obtained: whatever the matrix, `sl_solve(..., eigvals_only=True)` raises a `ValueError`
unless exactly two eigenvalues are selected, and then it returns only the first of them. -/
theorem C120_refuted_eigvals_only (matvec : (ι → ℝ) → (ι → ℝ)) (a b : List ℝ) (v0 : Option (ι → ℝ)) {select lo hi : ℕ} (hs : select = 0 ∨ select = 2) :
    (∃ r, SlSolve matvec a b v0 select lo hi true r) ∧ ∀ r, SlSolve matvec a b v0 select lo hi true r →
      ((if select = 0 then a.length else min (hi + 1) a.length - lo) ≠ 2 ∧ r = .error .valueError) ∨
      ((if select = 0 then a.length else min (hi + 1) a.length - lo) = 2 ∧ ∃ w, r = .ok (.number w)) := by
  constructor
  · obtain ⟨w, U, hwU⟩ := EighTridiagonal.total a (b.drop 1) lo hi hs
    exact ⟨_, Or.inr ⟨w, U, hwU, rfl⟩⟩
  rintro r (⟨e, he, -⟩ | ⟨w, U, hwU, hr'⟩)
  · exfalso
    unfold EighTridiagonal at he
    rcases hs with rfl | rfl <;> simp at he
  obtain ⟨-, hlen⟩ := hwU.part
  have hlen' : w.length = if select = 0 then a.length else min (hi + 1) a.length - lo := by
    rcases hlen with ⟨rfl, h⟩ | ⟨rfl, h⟩
    · simpa using h
    · simpa using h
  rw [← hlen']
  simp only [if_true] at hr'
  match w, hr' with
  | [], hr' => exact Or.inl ⟨by simp, hr'⟩
  | [_], hr' => exact Or.inl ⟨by simp, hr'⟩
  | [w0, _], hr' => exact Or.inr ⟨rfl, w0, hr'⟩
  | _ :: _ :: _ :: _, hr' => exact Or.inl ⟨by simp, hr'⟩

/-- The hypotheses are met: a symmetric matrix of order two and the default first eigenpair. -/
example : ∃ (a b : List ℝ), BuildSlTridiag (slStep ((!![1, 2; 2, 3] : Matrix (Fin 2) (Fin 2) ℝ) *ᵥ ·)) (tinyB (1 / 10)) (fun _ _ => 0) (fun _ _ => true) 5 3
    (List.replicate 5 0) 0 ![1, 0] (.ok (a, b)) ∧ 0 < a.length ∧ (!![1, 2; 2, 3] : Matrix (Fin 2) (Fin 2) ℝ).IsSymm := by
  obtain ⟨a, b, h⟩ := C39_nonzero_start (slStep ((!![1, 2; 2, 3] : Matrix (Fin 2) (Fin 2) ℝ) *ᵥ ·)) (tinyB (1 / 10)) (fun _ _ => 0) (fun _ _ => true) (maxn := 5) (ND := 3)
    (by norm_num) (by norm_num) (List.replicate 5 0) (by simp) 0 ![1, 0] (by simp [tinyB, slStep]; norm_num)
  refine ⟨a, b, h, (lanczos_coeffs (by norm_num) (by norm_num) (by norm_num) (by simp) h).1, ?_⟩
  ext i j
  fin_cases i <;> fin_cases j <;> rfl

end Edpyt
