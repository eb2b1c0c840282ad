import Verif.Props.LanczosGs
import Verif.Spec.WeightAt
import Mathlib.Analysis.SpecialFunctions.Trigonometric.Chebyshev.RootsExtrema
import Mathlib.Analysis.SpecialFunctions.Log.Basic

/-!
C190: how fast the lowest energy estimated by `build_sl_tridiag` (`edpyt/lanczos.py`) approaches the ground energy.
-/
namespace Edpyt
open Matrix Spec

variable {ι : Type} [Fintype ι] [DecidableEq ι] {A : Matrix ι ι ℝ} {phi : ι → ℝ} {delta : ℝ} {eg : List ℝ → List ℝ → ℝ} {close : ℝ → Option ℝ → Bool} {maxn ND : ℕ}

/-- The powers of the matrix applied to the start vector are combinations of the first vectors of the basis. -/
theorem krylov_powers {a b : List ℝ} {q : Fin a.length → ι → ℝ} {res : ι → ℝ} (hq : KrylovBasis A phi a b q res) (k : ℕ) (hk : k < a.length) :
    ∃ Y : Fin a.length → ℝ, (∀ i : Fin a.length, k < (i : ℕ) → Y i = 0) ∧ (A ^ k) *ᵥ phi = ∑ i, Y i • q i := by
  induction k with
  | zero =>
    refine ⟨fun i => if (i : ℕ) = 0 then b[0]?.getD 0 else 0, fun i hi => if_neg (by omega), ?_⟩
    rw [pow_zero, Matrix.one_mulVec, Finset.sum_eq_single ⟨0, hk⟩ (fun l _ hl => ?_) (by simp)]
    · simpa using hq.start ⟨0, hk⟩ rfl
    · have : (l : ℕ) ≠ 0 := fun h => hl (Fin.ext h)
      simp [this]
  | succ k ih =>
    obtain ⟨Y, hY0, hY⟩ := ih (by omega)
    refine ⟨fun j => ∑ i, Y i * tridiag a.length (fun k => a[k]?.getD 0) (fun k => b[k]?.getD 0) i j, fun j hj => ?_, ?_⟩
    · refine Finset.sum_eq_zero fun i _ => ?_
      by_cases hi : k < (i : ℕ)
      · rw [hY0 i hi, zero_mul]
      · simp only [tridiag, Matrix.of_apply, Fin.ext_iff]
        rw [if_neg (by omega), if_neg (by omega), if_neg (by omega), mul_zero]
    · rw [pow_succ', ← Matrix.mulVec_mulVec, hY, Matrix.mulVec_sum]
      have e : ∀ i, A *ᵥ (Y i • q i) = ∑ j, (Y i * tridiag a.length (fun k => a[k]?.getD 0) (fun k => b[k]?.getD 0) i j) • q j := fun i => by
        by_cases hi : k < (i : ℕ)
        · rw [hY0 i hi]; simp
        · rw [Matrix.mulVec_smul, hq.map i, if_neg (by omega), add_zero, Finset.smul_sum]
          simp only [smul_smul]
      simp only [e]
      rw [Finset.sum_comm]
      exact Finset.sum_congr rfl fun j _ => by rw [Finset.sum_smul]

theorem krylov_polys {a b : List ℝ} {q : Fin a.length → ι → ℝ} {res : ι → ℝ} (hq : KrylovBasis A phi a b q res) {m : ℕ} (hm : m ≤ a.length) (c : ℕ → ℝ) :
    ∃ Y : Fin a.length → ℝ, (∀ i : Fin a.length, m ≤ (i : ℕ) → Y i = 0) ∧ ∑ k ∈ Finset.range m, c k • ((A ^ k) *ᵥ phi) = ∑ i, Y i • q i := by
  induction m with
  | zero => exact ⟨0, fun _ _ => rfl, by simp⟩
  | succ m ih =>
    obtain ⟨Y, hY0, hY⟩ := ih (by omega)
    obtain ⟨Z, hZ0, hZ⟩ := krylov_powers hq m (by omega)
    refine ⟨fun i => Y i + c m * Z i, fun i hi => by simp only [hY0 i (by omega), hZ0 i (by omega), mul_zero, add_zero], ?_⟩
    rw [Finset.sum_range_succ, hY, hZ, Finset.smul_sum, ← Finset.sum_add_distrib]
    exact Finset.sum_congr rfl fun i _ => by rw [add_smul, smul_smul]

/-- The lowest eigenvalue of the leading part is a lower bound of the energy on the first vectors of the basis. -/
theorem krylov_lowest {a b : List ℝ} {q : Fin a.length → ι → ℝ} {res : ι → ℝ} (hq : KrylovBasis A phi a b q res) {m : ℕ} (hm : m ≤ a.length) {e : ℝ} (he : TriLowest m a b e)
    {Y : Fin a.length → ℝ} (hY0 : ∀ i : Fin a.length, m ≤ (i : ℕ) → Y i = 0) : e * ((∑ i, Y i • q i) ⬝ᵥ ∑ i, Y i • q i) ≤ (∑ i, Y i • q i) ⬝ᵥ A *ᵥ ∑ i, Y i • q i := by
  rw [(krylov_quad hq Y).1, (krylov_quad hq Y).2]
  set Z : ℕ → ℝ := fun i => if hi : i < a.length then Y ⟨i, hi⟩ else 0 with hZ
  have hZY : (fun i : Fin a.length => Z i) = Y := by funext i; simp [hZ]
  have hZ0 : ∀ i, i ∉ Finset.range m → Z i = 0 := fun i hi => by
    rw [Finset.mem_range] at hi
    by_cases hl : i < a.length
    · simp only [hZ, hl, dif_pos]; exact hY0 _ (by simpa using hi)
    · simp [hZ, hl]
  have hs : Finset.range m ⊆ Finset.range a.length := fun i hi => by rw [Finset.mem_range] at *; omega
  have h3 := lowest_quad (tridiag_symm _ _ _) he (fun i : Fin m => Z i)
  rw [tri_norm, tri_quad] at h3
  rw [← hZY, tri_norm, tri_quad, ← Finset.sum_subset hs fun i _ hi => by rw [hZ0 i hi, zero_mul], ← Finset.sum_subset hs fun i _ hi => by rw [hZ0 i hi, zero_mul]]
  refine h3.trans (le_of_eq (Finset.sum_congr rfl fun i _ => ?_))
  rw [← Finset.sum_subset hs fun j _ hj => by rw [hZ0 j hj, mul_zero]]

section
variable {κ : Type} [Fintype κ] [DecidableEq κ] {u : κ → ι → ℝ} {E : κ → ℝ}

theorem EigBasis.poly_vec (hu : EigBasis A u E) (x : ι → ℝ) (p : Polynomial ℝ) {m : ℕ} (hp : p.natDegree < m) :
    ∑ k ∈ Finset.range m, p.coeff k • ((A ^ k) *ᵥ x) = ∑ l, (p.eval (E l) * (u l ⬝ᵥ x)) • u l := by
  have h1 : ∀ k, (A ^ k) *ᵥ x = ∑ l, (E l ^ k * (u l ⬝ᵥ x)) • u l := fun k => by
    induction k with
    | zero =>
      rw [pow_zero, Matrix.one_mulVec]
      simp only [pow_zero, one_mul]
      exact (hu.expand x).symm
    | succ k ih =>
      rw [pow_succ', ← Matrix.mulVec_mulVec, ih, Matrix.mulVec_sum]
      refine Finset.sum_congr rfl fun l _ => ?_
      rw [Matrix.mulVec_smul, hu.eig, smul_smul]
      congr 1; ring
  simp only [h1, Finset.smul_sum, smul_smul]
  rw [Finset.sum_comm]
  refine Finset.sum_congr rfl fun l _ => ?_
  rw [← Finset.sum_smul, Polynomial.eval_eq_sum_range' hp, Finset.sum_mul]
  congr 1
  exact Finset.sum_congr rfl fun k _ => by ring

theorem EigBasis.comp_dot (hu : EigBasis A u E) (w : κ → ℝ) (k : κ) : u k ⬝ᵥ ∑ l, w l • u l = w k := by
  rw [dotProduct_sum, Finset.sum_eq_single k (fun l _ hl => by rw [dotProduct_smul, hu.orth, if_neg (Ne.symm hl), smul_zero]) (by simp), dotProduct_smul, hu.orth, if_pos rfl]
  simp

/-- **C190** (polynomials). The error of the lowest energy after `m` steps is bounded by every polynomial of degree below `m`: what matters is how large it is at the ground
energy compared with the rest of the spectrum, and how much of the start vector lies in the ground states. -/
theorem C190_polynomial (hA : A.IsSymm) (hdelta : 0 < delta) (hmaxn : 2 ≤ maxn) (hND : 1 ≤ ND) {junk a b : List ℝ} (hjunk : junk.length = maxn)
    (h : BuildSlTridiag (slStep (A *ᵥ ·)) (tinyB delta) eg close maxn ND junk 0 phi (.ok (a, b)))
    (hu : EigBasis A u E) {E0 E1 Emax : ℝ} (hE : ∀ k, E k = E0 ∨ E1 ≤ E k ∧ E k ≤ Emax) (h01 : E0 ≤ E1)
    {m : ℕ} (hm : m ≤ a.length) {e : ℝ} (he : TriLowest m a b e) (p : Polynomial ℝ) (hp : p.natDegree < m) {M : ℝ} (hM : ∀ t, E1 ≤ t → t ≤ Emax → |p.eval t| ≤ M) :
    (e - E0) * (p.eval E0 ^ 2 * weightAt u E E0 phi) ≤ (Emax - E0) * (M ^ 2 * (phi ⬝ᵥ phi - weightAt u E E0 phi)) := by
  obtain ⟨q, hq⟩ := lanczos_basis hA hdelta hmaxn hND hjunk h
  obtain ⟨Y, hY0, hY⟩ := krylov_polys hq hm p.coeff
  have h1 := krylov_lowest hq hm he hY0
  rw [← hY, hu.poly_vec phi p hp, (hu.quad _).1, (hu.quad _).2] at h1
  simp only [hu.comp_dot] at h1
  have hge : E0 ≤ e := (C165_upper hA hdelta hmaxn hND hjunk h).2.2 E0 (fun x => by
    rw [(hu.quad x).1, (hu.quad x).2, Finset.mul_sum]
    refine Finset.sum_le_sum fun k _ => mul_le_mul_of_nonneg_right ?_ (sq_nonneg _)
    rcases hE k with h | h
    · exact h.ge
    · exact h01.trans h.1) m e hm he
  have hl : (e - E0) * (p.eval E0 ^ 2 * weightAt u E E0 phi) ≤ (e - E0) * ∑ k, (p.eval (E k) * (u k ⬝ᵥ phi)) ^ 2 := by
    refine mul_le_mul_of_nonneg_left ?_ (by linarith)
    rw [weightAt, Finset.mul_sum]
    refine Finset.sum_le_sum fun k _ => ?_
    split_ifs with hk
    · rw [hk, mul_pow]
    · rw [mul_zero]; exact sq_nonneg _
  have hr : ∑ k, (E k - E0) * (p.eval (E k) * (u k ⬝ᵥ phi)) ^ 2 ≤ (Emax - E0) * (M ^ 2 * (phi ⬝ᵥ phi - weightAt u E E0 phi)) := by
    rw [(hu.quad phi).2, weightAt, ← Finset.sum_sub_distrib, Finset.mul_sum, Finset.mul_sum]
    refine Finset.sum_le_sum fun k _ => ?_
    split_ifs with hk
    · rw [hk]; simp
    · obtain ⟨h1, h2⟩ := (hE k).resolve_left hk
      have h3 := hM _ h1 h2
      have h4 : p.eval (E k) ^ 2 ≤ M ^ 2 := by rw [← sq_abs (p.eval (E k))]; exact pow_le_pow_left₀ (abs_nonneg _) h3 2
      rw [mul_pow, sub_zero]
      refine mul_le_mul (by linarith) (mul_le_mul_of_nonneg_right h4 (sq_nonneg _)) (by positivity) (by linarith)
  have e1 : ∑ k, (E k - E0) * (p.eval (E k) * (u k ⬝ᵥ phi)) ^ 2 = (∑ k, E k * (p.eval (E k) * (u k ⬝ᵥ phi)) ^ 2) - E0 * ∑ k, (p.eval (E k) * (u k ⬝ᵥ phi)) ^ 2 := by
    rw [Finset.mul_sum, ← Finset.sum_sub_distrib]
    exact Finset.sum_congr rfl fun k _ => by ring
  nlinarith [hl, hr, e1, h1]


/-- **C190** (Chebyshev). With the Chebyshev polynomial of degree `m - 1` this is the bound of Kaniel, Paige and Saad. -/
theorem C190_chebyshev (hA : A.IsSymm) (hdelta : 0 < delta) (hmaxn : 2 ≤ maxn) (hND : 1 ≤ ND) {junk a b : List ℝ} (hjunk : junk.length = maxn)
    (h : BuildSlTridiag (slStep (A *ᵥ ·)) (tinyB delta) eg close maxn ND junk 0 phi (.ok (a, b)))
    (hu : EigBasis A u E) {E0 E1 Emax : ℝ} (hE : ∀ k, E k = E0 ∨ E1 ≤ E k ∧ E k ≤ Emax) (h01 : E0 ≤ E1) (h1m : E1 < Emax)
    {m : ℕ} (hm0 : 0 < m) (hm : m ≤ a.length) {e : ℝ} (he : TriLowest m a b e) :
    (e - E0) * ((Polynomial.Chebyshev.T ℝ (m - 1 : ℕ)).eval (1 + 2 * ((E1 - E0) / (Emax - E1))) ^ 2 * weightAt u E E0 phi) ≤ (Emax - E0) * (phi ⬝ᵥ phi - weightAt u E E0 phi) := by
  have hd : 0 < Emax - E1 := by linarith
  have ev : ∀ t, ((Polynomial.Chebyshev.T ℝ (m - 1 : ℕ)).comp (Polynomial.C ((E1 + Emax) / (Emax - E1)) - Polynomial.C (2 / (Emax - E1)) * Polynomial.X)).eval t =
      (Polynomial.Chebyshev.T ℝ (m - 1 : ℕ)).eval ((E1 + Emax - 2 * t) / (Emax - E1)) := fun t => by
    rw [Polynomial.eval_comp]
    congr 1
    simp only [Polynomial.eval_sub, Polynomial.eval_mul, Polynomial.eval_C, Polynomial.eval_X]
    ring
  have hp : ((Polynomial.Chebyshev.T ℝ (m - 1 : ℕ)).comp (Polynomial.C ((E1 + Emax) / (Emax - E1)) - Polynomial.C (2 / (Emax - E1)) * Polynomial.X)).natDegree < m := by
    refine lt_of_le_of_lt Polynomial.natDegree_comp_le ?_
    have h2 : (Polynomial.C ((E1 + Emax) / (Emax - E1)) - Polynomial.C (2 / (Emax - E1)) * Polynomial.X).natDegree ≤ 1 := by compute_degree
    rw [Polynomial.Chebyshev.natDegree_T]
    have := Nat.mul_le_mul_left (((m - 1 : ℕ) : ℤ).natAbs) h2
    simp only [Int.natAbs_natCast] at this ⊢
    omega
  have := C190_polynomial hA hdelta hmaxn hND hjunk h hu hE h01 hm he _ hp (M := 1) fun t h1 h2 => by
    rw [ev]
    refine Polynomial.Chebyshev.abs_eval_T_real_le_one _ ?_
    rw [abs_le, le_div_iff₀ hd, div_le_iff₀ hd]
    constructor <;> linarith
  rw [ev, one_pow, one_mul] at this
  have e1 : (E1 + Emax - 2 * E0) / (Emax - E1) = 1 + 2 * ((E1 - E0) / (Emax - E1)) := by field_simp; ring
  rwa [e1] at this

/-- The growth of the Chebyshev polynomials outside the unit interval. -/
theorem cheb_growth (n : ℕ) {x : ℝ} (hx : 1 ≤ x) : (x + √(x ^ 2 - 1)) ^ n / 2 ≤ (Polynomial.Chebyshev.T ℝ n).eval x := by
  have hs : √(x ^ 2 - 1) ^ 2 = x ^ 2 - 1 := Real.sq_sqrt (by nlinarith)
  have hs0 := Real.sqrt_nonneg (x ^ 2 - 1)
  have hr : 0 < x + √(x ^ 2 - 1) := by linarith
  have hc : Real.cosh (Real.log (x + √(x ^ 2 - 1))) = x := by
    rw [Real.cosh_log hr]
    have : (x + √(x ^ 2 - 1))⁻¹ = x - √(x ^ 2 - 1) := by
      refine inv_eq_of_mul_eq_one_right ?_
      nlinarith
    rw [this]; ring
  conv_rhs => rw [← hc]
  rw [Polynomial.Chebyshev.T_real_cosh, Real.cosh_eq]
  have h1 : Real.exp (((n : ℕ) : ℤ) * Real.log (x + √(x ^ 2 - 1))) = (x + √(x ^ 2 - 1)) ^ n := by
    rw [Int.cast_natCast, mul_comm, Real.exp_mul, Real.exp_log hr, Real.rpow_natCast]
  rw [h1]
  have := Real.exp_pos (-(((n : ℕ) : ℤ) * Real.log (x + √(x ^ 2 - 1))))
  linarith

/-- **C190** (rate). If the start vector overlaps with the ground states, the lowest energy estimated after `m` steps exceeds the ground energy by no more than a bound that falls
geometrically with the number of steps; the rate depends only on the gap divided by the width of the rest of the spectrum. -/
theorem C190_rate (hA : A.IsSymm) (hdelta : 0 < delta) (hmaxn : 2 ≤ maxn) (hND : 1 ≤ ND) {junk a b : List ℝ} (hjunk : junk.length = maxn)
    (h : BuildSlTridiag (slStep (A *ᵥ ·)) (tinyB delta) eg close maxn ND junk 0 phi (.ok (a, b)))
    (hu : EigBasis A u E) {E0 E1 Emax : ℝ} (hE : ∀ k, E k = E0 ∨ E1 ≤ E k ∧ E k ≤ Emax) (h01 : E0 < E1) (h1m : E1 < Emax) (hw : 0 < weightAt u E E0 phi)
    {m : ℕ} (hm0 : 0 < m) (hm : m ≤ a.length) {e : ℝ} (he : TriLowest m a b e) :
    E0 ≤ e ∧ e - E0 ≤ 4 * (Emax - E0) * (phi ⬝ᵥ phi / weightAt u E E0 phi - 1) * (1 / (1 + 2 * √((E1 - E0) / (Emax - E1))) ^ 2) ^ (m - 1) := by
  have hge : E0 ≤ e := (C165_upper hA hdelta hmaxn hND hjunk h).2.2 E0 (fun x => by
    rw [(hu.quad x).1, (hu.quad x).2, Finset.mul_sum]
    refine Finset.sum_le_sum fun k _ => mul_le_mul_of_nonneg_right ?_ (sq_nonneg _)
    rcases hE k with h | h
    · exact h.ge
    · exact h01.le.trans h.1) m e hm he
  refine ⟨hge, ?_⟩
  have key := C190_chebyshev hA hdelta hmaxn hND hjunk h hu hE h01.le h1m hm0 hm he
  set g := (E1 - E0) / (Emax - E1) with hg
  have hg0 : 0 < g := div_pos (by linarith) (by linarith)
  set w := weightAt u E E0 phi
  have hsg := Real.sq_sqrt hg0.le
  have hs0 := Real.sqrt_nonneg g
  have h1 := cheb_growth (m - 1) (x := 1 + 2 * g) (by linarith)
  have h2 : 1 + 2 * √g ≤ (1 + 2 * g) + √((1 + 2 * g) ^ 2 - 1) := by
    have : 2 * √g ≤ √((1 + 2 * g) ^ 2 - 1) := by
      apply Real.le_sqrt_of_sq_le
      nlinarith
    linarith
  have h3 : (1 + 2 * √g) ^ (m - 1) / 2 ≤ (Polynomial.Chebyshev.T ℝ (m - 1 : ℕ)).eval (1 + 2 * g) :=
    (div_le_div_of_nonneg_right (pow_le_pow_left₀ (by positivity) h2 _) (by norm_num)).trans h1
  have hR : 0 < (1 + 2 * √g) ^ (m - 1) := by positivity
  have h4 : ((1 + 2 * √g) ^ (m - 1) / 2) ^ 2 ≤ (Polynomial.Chebyshev.T ℝ (m - 1 : ℕ)).eval (1 + 2 * g) ^ 2 := pow_le_pow_left₀ (by positivity) h3 2
  have h5 : (e - E0) * (((1 + 2 * √g) ^ (m - 1) / 2) ^ 2 * w) ≤ (Emax - E0) * (phi ⬝ᵥ phi - w) :=
    le_trans (mul_le_mul_of_nonneg_left (mul_le_mul_of_nonneg_right h4 hw.le) (by linarith)) key
  have e2 : 4 * (Emax - E0) * (phi ⬝ᵥ phi / w - 1) * (1 / (1 + 2 * √g) ^ 2) ^ (m - 1) = (Emax - E0) * (phi ⬝ᵥ phi - w) / (((1 + 2 * √g) ^ (m - 1) / 2) ^ 2 * w) := by
    rw [one_div, inv_pow, ← pow_mul, mul_comm 2 (m - 1), pow_mul]
    field_simp
    ring
  rw [e2, le_div_iff₀ (by positivity)]
  exact h5

end

/-- A case that meets the hypotheses: three levels, with the same weight on each. -/
example : ∃ A : Matrix (Fin 3) (Fin 3) ℝ, ∃ phi : Fin 3 → ℝ, ∃ u : Fin 3 → Fin 3 → ℝ, ∃ E : Fin 3 → ℝ, A.IsSymm ∧ EigBasis A u E ∧ (∀ k, E k = 0 ∨ (1 : ℝ) ≤ E k ∧ E k ≤ 2) ∧
    weightAt u E 0 phi = 1 ∧ phi ⬝ᵥ phi = 3 ∧
    ∃ a b, BuildSlTridiag (slStep (A *ᵥ ·)) (tinyB 1e-15) (fun _ _ => 0) (fun _ _ => false) 500 10 (List.replicate 500 0) 0 phi (.ok (a, b)) := by
  refine ⟨Matrix.diagonal ![0, 1, 2], ![1, 1, 1], fun k => Pi.single k 1, ![0, 1, 2], Matrix.diagonal_transpose _, ⟨rfl, fun a b => ?_, fun k => ?_⟩, ?_, ?_, ?_, ?_⟩
  · rw [single_dotProduct, one_mul, Pi.single_apply]
  · funext i
    rw [Matrix.mulVec_diagonal]
    fin_cases k <;> fin_cases i <;> simp
  · intro k; fin_cases k <;> norm_num
  · simp [weightAt, Fin.sum_univ_three]
  · simp [dotProduct, Fin.sum_univ_three]; norm_num
  · apply C39_nonzero_start _ _ _ _ (by norm_num) (by norm_num) _ List.length_replicate
    simp [tinyB, slStep, dotProduct, Fin.sum_univ_three]
    norm_num
    rw [abs_of_nonneg (Real.sqrt_nonneg 3)]
    exact le_trans (by norm_num) (Real.one_le_sqrt.mpr (by norm_num))

end Edpyt
