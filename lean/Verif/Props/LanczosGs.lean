import Verif.Props.Lanczos
import Verif.Props.Stable
import Verif.Spec.TriLowest
/-!
C165: the ground state energy that Lanczos estimates.
-/
namespace Edpyt
open Spec Matrix

theorem dot_pos' {κ : Type} [Fintype κ] {y : κ → ℝ} (hy : y ≠ 0) : 0 < y ⬝ᵥ y := by
  have h0 : 0 ≤ y ⬝ᵥ y := Finset.sum_nonneg fun i _ => mul_self_nonneg (y i)
  rcases h0.lt_or_eq with h | h
  · exact h
  · exact absurd (dotProduct_self_eq_zero.mp h.symm) hy

theorem lowest_quad {κ : Type} [Fintype κ] [DecidableEq κ] {T : Matrix κ κ ℝ} (hT : T.IsSymm) {e : ℝ} (h : IsLeast {E : ℝ | ∃ y : κ → ℝ, y ≠ 0 ∧ T *ᵥ y = E • y} e) (y : κ → ℝ) :
    e * (y ⬝ᵥ y) ≤ y ⬝ᵥ T *ᵥ y := by
  obtain ⟨u, E, hu⟩ := EigBasis.of_symm (A := T) hT
  obtain ⟨h1, h2⟩ := hu.quad y
  rw [h1, h2, Finset.mul_sum]
  refine Finset.sum_le_sum fun k _ => mul_le_mul_of_nonneg_right (h.2 ⟨u k, fun h0 => ?_, hu.eig k⟩) (sq_nonneg _)
  have := hu.orth k k
  rw [h0, zero_dotProduct, if_pos rfl] at this
  exact zero_ne_one this

theorem lowest_exists {κ : Type} [Fintype κ] [DecidableEq κ] [Nonempty κ] {T : Matrix κ κ ℝ} (hT : T.IsSymm) : ∃ e, IsLeast {E : ℝ | ∃ y : κ → ℝ, y ≠ 0 ∧ T *ᵥ y = E • y} e := by
  obtain ⟨u, E, hu⟩ := EigBasis.of_symm (A := T) hT
  obtain ⟨k, -, hk⟩ := Finset.exists_min_image Finset.univ E Finset.univ_nonempty
  have hne : u k ≠ 0 := fun h0 => by
    have := hu.orth k k
    rw [h0, zero_dotProduct, if_pos rfl] at this
    exact zero_ne_one this
  refine ⟨E k, ⟨u k, hne, hu.eig k⟩, ?_⟩
  rintro E' ⟨y, hy, h⟩
  obtain ⟨h1, h2⟩ := hu.quad y
  have hpos := dot_pos' hy
  have h3 : E k * (y ⬝ᵥ y) ≤ y ⬝ᵥ T *ᵥ y := by
    rw [h1, h2, Finset.mul_sum]
    exact Finset.sum_le_sum fun j _ => mul_le_mul_of_nonneg_right (hk j (Finset.mem_univ _)) (sq_nonneg _)
  rw [h, dotProduct_smul, smul_eq_mul] at h3
  exact le_of_mul_le_mul_right h3 hpos

/-- The elements of `tridiag` with natural number indices. -/
def triElem (a b : ℕ → ℝ) (i j : ℕ) : ℝ := if i = j then a i else if i + 1 = j then b j else if j + 1 = i then b i else 0

theorem tri_quad (m : ℕ) (a b Y : ℕ → ℝ) : ((fun i : Fin m => Y i) ⬝ᵥ tridiag m a b *ᵥ fun i : Fin m => Y i) = ∑ i ∈ Finset.range m, Y i * ∑ j ∈ Finset.range m, triElem a b i j * Y j := by
  rw [← Fin.sum_univ_eq_sum_range (fun i => Y i * ∑ j ∈ Finset.range m, triElem a b i j * Y j)]
  unfold dotProduct
  refine Finset.sum_congr rfl fun i _ => ?_
  rw [← Fin.sum_univ_eq_sum_range (fun j => triElem a b i j * Y j)]
  congr 1
  unfold Matrix.mulVec dotProduct
  refine Finset.sum_congr rfl fun j _ => ?_
  simp only [tridiag, Matrix.of_apply, triElem, Fin.ext_iff]

theorem tri_norm (m : ℕ) (Y : ℕ → ℝ) : ((fun i : Fin m => Y i) ⬝ᵥ fun i : Fin m => Y i) = ∑ i ∈ Finset.range m, Y i * Y i :=
  Fin.sum_univ_eq_sum_range (fun i => Y i * Y i) m

theorem tri_lowest_mono {m l : ℕ} (hml : m ≤ l) {a b : List ℝ} {e e' : ℝ} (h : TriLowest m a b e) (h' : TriLowest l a b e') : e' ≤ e := by
  obtain ⟨⟨y, hy, hey⟩, -⟩ := h
  set Y : ℕ → ℝ := fun i => if hi : i < m then y ⟨i, hi⟩ else 0 with hY
  have hYy : (fun i : Fin m => Y i) = y := by funext i; simp [hY]
  have hY0 : ∀ i, i ∉ Finset.range m → Y i = 0 := fun i hi => by
    rw [Finset.mem_range] at hi
    simp [hY, hi]
  have hs : Finset.range m ⊆ Finset.range l := fun i hi => by rw [Finset.mem_range] at *; omega
  have q1 := tri_quad m (fun k => a[k]?.getD 0) (fun k => b[k]?.getD 0) Y
  have q2 := tri_quad l (fun k => a[k]?.getD 0) (fun k => b[k]?.getD 0) Y
  have n1 := tri_norm m Y
  have n2 := tri_norm l Y
  have hq : ∑ i ∈ Finset.range m, Y i * ∑ j ∈ Finset.range m, triElem (fun k => a[k]?.getD 0) (fun k => b[k]?.getD 0) i j * Y j =
      ∑ i ∈ Finset.range l, Y i * ∑ j ∈ Finset.range l, triElem (fun k => a[k]?.getD 0) (fun k => b[k]?.getD 0) i j * Y j := by
    rw [← Finset.sum_subset hs fun i _ hi => by rw [hY0 i hi, zero_mul]]
    refine Finset.sum_congr rfl fun i _ => ?_
    rw [← Finset.sum_subset hs fun j _ hj => by rw [hY0 j hj, mul_zero]]
  have hn : ∑ i ∈ Finset.range m, Y i * Y i = ∑ i ∈ Finset.range l, Y i * Y i := Finset.sum_subset hs fun i _ hi => by rw [hY0 i hi, zero_mul]
  rw [← q1, ← q2, hYy] at hq
  rw [← n1, ← n2, hYy] at hn
  have h3 := lowest_quad (tridiag_symm _ _ _) h' (fun i : Fin l => Y i)
  rw [← hq, ← hn, hey, dotProduct_smul, smul_eq_mul] at h3
  have hpos := dot_pos' hy
  exact le_of_mul_le_mul_right h3 hpos

variable {ι : Type} [Fintype ι] {A : Matrix ι ι ℝ} {phi : ι → ℝ} {delta : ℝ} {eg : List ℝ → List ℝ → ℝ} {close : ℝ → Option ℝ → Bool} {maxn ND : ℕ}

theorem krylov_quad {a b : List ℝ} {q : Fin a.length → ι → ℝ} {res : ι → ℝ} (hq : KrylovBasis A phi a b q res) (y : Fin a.length → ℝ) :
    (∑ i, y i • q i) ⬝ᵥ (∑ i, y i • q i) = y ⬝ᵥ y ∧ (∑ i, y i • q i) ⬝ᵥ A *ᵥ (∑ i, y i • q i) = y ⬝ᵥ tridiag a.length (fun k => a[k]?.getD 0) (fun k => b[k]?.getD 0) *ᵥ y := by
  constructor
  · rw [sum_dotProduct]
    refine Finset.sum_congr rfl fun i _ => ?_
    rw [smul_dotProduct, dotProduct_sum, Finset.sum_eq_single i (fun l _ hl => by rw [dotProduct_smul, hq.orth, if_neg (Ne.symm hl), smul_zero]) (by simp), dotProduct_smul, hq.orth, if_pos rfl]
    simp
  · rw [sum_dotProduct]
    refine Finset.sum_congr rfl fun i _ => ?_
    rw [smul_dotProduct, Matrix.mulVec_sum, dotProduct_sum, smul_eq_mul]
    congr 1
    refine Finset.sum_congr rfl fun j _ => ?_
    rw [Matrix.mulVec_smul, dotProduct_smul, hq.elem, smul_eq_mul, mul_comm]

/-- A tridiagonal matrix with non-zero off-diagonal elements has no eigenvector that vanishes on the first site. -/
theorem tri_first {m : ℕ} {a b : ℕ → ℝ} (hb : ∀ i < m, b i ≠ 0) {y : Fin m → ℝ} {e : ℝ} (h : tridiag m a b *ᵥ y = e • y) (h0 : ∀ i : Fin m, (i : ℕ) = 0 → y i = 0) : y = 0 := by
  have key : ∀ k, ∀ i : Fin m, (i : ℕ) ≤ k → y i = 0 := by
    intro k
    induction k with
    | zero => exact fun i hi => h0 i (by omega)
    | succ k ih =>
      intro i hi
      by_cases hik : (i : ℕ) ≤ k
      · exact ih i hik
      · have hi' : (i : ℕ) = k + 1 := by omega
        have hk : k < m := by omega
        have hr := congrFun h ⟨k, hk⟩
        rw [Pi.smul_apply, ih ⟨k, hk⟩ le_rfl, smul_zero, Matrix.mulVec, dotProduct, Finset.sum_eq_single i] at hr
        · simp only [tridiag, Matrix.of_apply] at hr
          rw [if_neg (by rw [Fin.ext_iff]; simp [hi']), if_pos (by simp [hi'])] at hr
          exact (mul_eq_zero.mp hr).resolve_left (hb i i.2)
        · intro j _ hj
          by_cases hjk : (j : ℕ) ≤ k
          · rw [ih j hjk, mul_zero]
          · simp only [tridiag, Matrix.of_apply]
            have : (j : ℕ) ≠ k + 1 := fun h => hj (Fin.ext (by omega))
            rw [if_neg (by rw [Fin.ext_iff]; change ¬ k = (j : ℕ); omega), if_neg (by change ¬ k + 1 = (j : ℕ); omega), if_neg (by change ¬ (j : ℕ) + 1 = k; omega), zero_mul]
        · simp
  exact funext fun i => key i i le_rfl

section
variable (hA : A.IsSymm) (hdelta : 0 < delta) (hmaxn : 2 ≤ maxn) (hND : 1 ≤ ND) {junk a b : List ℝ} (hjunk : junk.length = maxn)
    (h : BuildSlTridiag (slStep (A *ᵥ ·)) (tinyB delta) eg close maxn ND junk 0 phi (.ok (a, b)))
include hA hdelta hmaxn hND hjunk h

/-- **C165** (upper bound). After every number of steps the lowest eigenvalue of the tridiagonal matrix exists, is at least the lowest energy of the operator, and does not rise when
steps are added: what the convergence test of `build_sl_tridiag` compares are estimates from above that improve monotonically. -/
theorem C165_upper : (∀ m, 0 < m → ∃ e, TriLowest m a b e) ∧
    (∀ m l e e', m ≤ l → TriLowest m a b e → TriLowest l a b e' → e' ≤ e) ∧
    ∀ E : ℝ, (∀ x, E * (x ⬝ᵥ x) ≤ x ⬝ᵥ A *ᵥ x) → ∀ m e, m ≤ a.length → TriLowest m a b e → E ≤ e := by
  have hex : ∀ m, 0 < m → ∃ e, TriLowest m a b e := fun m hm => by
    have : Nonempty (Fin m) := ⟨⟨0, hm⟩⟩
    exact lowest_exists (tridiag_symm _ _ _)
  refine ⟨hex, fun m l e e' hml => tri_lowest_mono hml, fun E hE m e hm he => ?_⟩
  obtain ⟨q, hq⟩ := lanczos_basis hA hdelta hmaxn hND hjunk h
  obtain ⟨hl, -⟩ := lanczos_coeffs hdelta hmaxn hND hjunk h
  obtain ⟨e', he'⟩ := hex a.length hl
  refine le_trans ?_ (tri_lowest_mono hm he he')
  obtain ⟨⟨y, hy, hey⟩, -⟩ := he'
  have h1 := hE (∑ i, y i • q i)
  rw [(krylov_quad hq y).1, (krylov_quad hq y).2, hey, dotProduct_smul, smul_eq_mul] at h1
  have hpos := dot_pos' hy
  exact le_of_mul_le_mul_right h1 hpos

/-- **C165** (exhausted). If the recurrence ended because the next vector vanishes, the lowest eigenvalue of the tridiagonal matrix is the lowest energy among the eigenvectors of the
operator that overlap with the start vector. -/
theorem C165_exhausted (hres : ∀ q res, KrylovBasis A phi a b q res → res = 0) {e : ℝ} (he : TriLowest a.length a b e) :
    IsLeast {E : ℝ | ∃ x : ι → ℝ, A *ᵥ x = E • x ∧ phi ⬝ᵥ x ≠ 0} e := by
  obtain ⟨q, hq⟩ := lanczos_basis hA hdelta hmaxn hND hjunk h
  obtain ⟨hl, hab, hco, hb⟩ := lanczos_coeffs hdelta hmaxn hND hjunk h
  have hb' : ∀ i < a.length, b[i]?.getD 0 ≠ 0 := fun i hi => by rw [(hco i hi).2]; exact hb i hi
  have hr := hres _ _ hq
  have hmap : ∀ i, A *ᵥ q i = ∑ j, tridiag a.length (fun k => a[k]?.getD 0) (fun k => b[k]?.getD 0) i j • q j := fun i => by
    rw [hq.map i, hr]; simp
  have hT := tridiag_symm a.length (fun k => a[k]?.getD 0) (fun k => b[k]?.getD 0)
  constructor
  · obtain ⟨⟨y, hy, hey⟩, -⟩ := he
    refine ⟨∑ i, y i • q i, ?_, ?_⟩
    · rw [Matrix.mulVec_sum]
      simp only [Matrix.mulVec_smul, hmap, Finset.smul_sum, smul_smul]
      rw [Finset.sum_comm]
      refine Finset.sum_congr rfl fun j _ => ?_
      rw [← Finset.sum_smul]
      congr 1
      have := congrFun hey j
      rw [Pi.smul_apply, smul_eq_mul] at this
      rw [← this]
      exact Finset.sum_congr rfl fun i _ => by rw [mul_comm, hT.apply j i]
    · have h1 : phi ⬝ᵥ ∑ i, y i • q i = (b[0]?.getD 0) * y ⟨0, hl⟩ := by
        rw [hq.start ⟨0, hl⟩ rfl, smul_dotProduct, dotProduct_sum, smul_eq_mul]
        congr 1
        rw [Finset.sum_eq_single ⟨0, hl⟩ (fun l _ hl => by rw [dotProduct_smul, hq.orth, if_neg (Ne.symm hl), smul_zero]) (by simp), dotProduct_smul, hq.orth, if_pos rfl]
        simp
      rw [h1]
      refine mul_ne_zero (hb' 0 hl) fun h0 => hy (tri_first hb' hey fun i hi => ?_)
      have : i = ⟨0, hl⟩ := Fin.ext hi
      rw [this]; exact h0
  · rintro E ⟨x, hx, hphi⟩
    refine he.2 ⟨fun i => q i ⬝ᵥ x, fun h0 => hphi ?_, ?_⟩
    · rw [hq.start ⟨0, hl⟩ rfl, smul_dotProduct]
      have := congrFun h0 ⟨0, hl⟩
      simp only [Pi.zero_apply] at this
      rw [this, smul_zero]
    · funext i
      have h1 : q i ⬝ᵥ A *ᵥ x = (A *ᵥ q i) ⬝ᵥ x := by rw [Matrix.dotProduct_mulVec, ← Matrix.mulVec_transpose, hA.eq]
      rw [hx, hmap, sum_dotProduct, dotProduct_smul] at h1
      rw [Pi.smul_apply, h1]
      unfold Matrix.mulVec
      rw [dotProduct]
      exact Finset.sum_congr rfl fun j _ => by rw [smul_dotProduct, smul_eq_mul]

end

/-- **C165** (orthogonal start). The lowest energy of the operator need not be found, however long the recurrence: for `diag(0, 1)` and the second unit vector every run returns a one-dimensional
matrix with the eigenvalue `1`. -/
theorem C165_orthogonal_start : ∃ A : Matrix (Fin 2) (Fin 2) ℝ, ∃ phi : Fin 2 → ℝ, A.IsSymm ∧ phi ≠ 0 ∧ (∃ x, x ≠ 0 ∧ A *ᵥ x = (0 : ℝ) • x) ∧
    ∀ {delta : ℝ} {eg : List ℝ → List ℝ → ℝ} {close : ℝ → Option ℝ → Bool} {maxn ND : ℕ} {junk : List ℝ}, 0 < delta → delta ≤ 1 → 2 ≤ maxn → 1 ≤ ND → junk.length = maxn →
      (∃ a b, BuildSlTridiag (slStep (A *ᵥ ·)) (tinyB delta) eg close maxn ND junk 0 phi (.ok (a, b))) ∧
      ∀ a b, BuildSlTridiag (slStep (A *ᵥ ·)) (tinyB delta) eg close maxn ND junk 0 phi (.ok (a, b)) → TriLowest a.length a b 1 := by
  have hA : (!![0, 0; 0, 1] : Matrix (Fin 2) (Fin 2) ℝ).IsSymm := by ext i j; fin_cases i <;> fin_cases j <;> rfl
  have hphi : (!![0, 0; 0, 1] : Matrix (Fin 2) (Fin 2) ℝ) *ᵥ ![0, 1] = ![0, 1] := by ext i; fin_cases i <;> simp [Matrix.mulVec, dotProduct, Fin.sum_univ_two]
  refine ⟨!![0, 0; 0, 1], ![0, 1], hA, fun h => by simpa using congrFun h 1, ⟨![1, 0], fun h => by simpa using congrFun h 0, ?_⟩, ?_⟩
  · ext i; fin_cases i <;> simp [Matrix.mulVec, dotProduct, Fin.sum_univ_two]
  intro delta eg close maxn ND junk hd hd1 hmaxn hND hjunk
  refine ⟨?_, fun a b h => ?_⟩
  · apply C39_nonzero_start _ _ _ _ hmaxn hND _ hjunk
    simp [tinyB, slStep]
    exact hd1
  obtain ⟨q, hq⟩ := lanczos_basis hA hd hmaxn hND hjunk h
  obtain ⟨hl, hab, hco, hb⟩ := lanczos_coeffs hd hmaxn hND hjunk h
  have hb' : ∀ i < a.length, b[i]?.getD 0 ≠ 0 := fun i hi => by rw [(hco i hi).2]; exact hb i hi
  have hq0 : (!![0, 0; 0, 1] : Matrix (Fin 2) (Fin 2) ℝ) *ᵥ q ⟨0, hl⟩ = q ⟨0, hl⟩ := by
    have h1 := hq.start ⟨0, hl⟩ rfl
    have h2 : ∀ v : Fin 2 → ℝ, v = ![0, 1] → (!![0, 0; 0, 1] : Matrix (Fin 2) (Fin 2) ℝ) *ᵥ v = v := fun v hv => by rw [hv]; exact hphi
    have h2 := h2 _ h1.symm
    rw [Matrix.mulVec_smul] at h2
    exact smul_right_injective _ (hb' 0 hl) h2
  have hm : a.length = 1 := by
    by_contra hne
    have h2 : 1 < a.length := by omega
    have h3 := hq.elem ⟨1, h2⟩ ⟨0, hl⟩
    rw [hq0, hq.orth, if_neg (by simp)] at h3
    simp [tridiag] at h3
    exact hb' 1 h2 h3.symm
  have h0 := hq.elem ⟨0, hl⟩ ⟨0, hl⟩
  rw [hq0, hq.orth, if_pos rfl] at h0
  simp only [tridiag, Matrix.of_apply, if_true] at h0
  have hrow : ∀ y : Fin a.length → ℝ, tridiag a.length (fun k => a[k]?.getD 0) (fun k => b[k]?.getD 0) *ᵥ y = y := by
    intro y
    funext i
    have hu : ∀ j : Fin a.length, j = ⟨0, hl⟩ := fun j => Fin.ext (by have := j.2; simp; omega)
    rw [Matrix.mulVec, dotProduct, Finset.sum_eq_single ⟨0, hl⟩ (fun j _ hj => absurd (hu j) hj) (by simp), hu i]
    simp only [tridiag, Matrix.of_apply, if_true]
    rw [← h0, one_mul]
  refine ⟨⟨fun _ => 1, fun h => one_ne_zero (congrFun h ⟨0, hl⟩), by rw [hrow, one_smul]⟩, ?_⟩
  rintro E ⟨y, hy, hey⟩
  rw [hrow] at hey
  have : (1 - E) • y = 0 := by rw [sub_smul, one_smul, ← hey, sub_self]
  rcases smul_eq_zero.mp this with h | h
  · linarith
  · exact absurd h hy

/-- A case that meets the hypotheses, with an exhausted recurrence: the symmetric two-level operator. -/
example : (!![0, 1; 1, 0] : Matrix (Fin 2) (Fin 2) ℝ).IsSymm ∧
    ∃ a b, BuildSlTridiag (slStep ((!![0, 1; 1, 0] : Matrix (Fin 2) (Fin 2) ℝ) *ᵥ ·)) (tinyB 1e-15) (fun _ _ => 0) (fun _ _ => false) 500 10
      (List.replicate 500 0) 0 ![1, 0] (.ok (a, b)) := by
  refine ⟨by ext i j; fin_cases i <;> fin_cases j <;> rfl, ?_⟩
  apply C39_nonzero_start _ _ _ _ (by norm_num) (by norm_num) _ List.length_replicate
  simp [tinyB, slStep]
  norm_num

end Edpyt
