import Verif.Proof.KrylovMoments
/-!
C164: a truncated Lanczos recurrence keeps the first `2m` moments, hence the high-frequency expansion of the Green function.
-/
namespace Edpyt
open Spec Matrix

variable {ι : Type} [Fintype ι] [DecidableEq ι] {A : Matrix ι ι ℝ} {phi : ι → ℝ} {delta : ℝ} {eg : List ℝ → List ℝ → ℝ} {close : ℝ → Option ℝ → Bool} {maxn ND : ℕ}

theorem affine_moments {a b : List ℝ} {q : Fin a.length → ι → ℝ} {res : ι → ℝ} (hA : A.IsSymm) (hm : 0 < a.length) (hq : KrylovBasis A phi a b q res) (s E : ℝ) {k : ℕ} (hk : k < 2 * a.length) :
    (((s • (A - E • (1 : Matrix ι ι ℝ))) ^ k) *ᵥ phi) ⬝ᵥ phi =
      (b[0]?.getD 0) ^ 2 * ((s • (tridiag a.length (fun k => a[k]?.getD 0) (fun k => b[k]?.getD 0) - E • (1 : Matrix (Fin a.length) (Fin a.length) ℝ))) ^ k) ⟨0, hm⟩ ⟨0, hm⟩ := by
  have hT := tridiag_symm a.length (fun k => a[k]?.getD 0) (fun k => b[k]?.getD 0)
  have h := krylov_moment (M := s • (A - E • (1 : Matrix ι ι ℝ)))
    (T := s • (tridiag a.length (fun k => a[k]?.getD 0) (fun k => b[k]?.getD 0) - E • (1 : Matrix (Fin a.length) (Fin a.length) ℝ))) (q := q) (r := s • res)
    ((hA.sub (Matrix.isSymm_one.smul E)).smul s) ((hT.sub (Matrix.isSymm_one.smul E)).smul s) (fun i j hij => by
      have h1 : i ≠ j := fun h => by rw [h] at hij; omega
      simp only [Matrix.smul_apply, Matrix.sub_apply, tridiag, Matrix.of_apply, Matrix.one_apply_ne h1]
      rw [if_neg h1, if_neg (by omega), if_neg (by omega)]
      simp) hm hq.orth (fun i => by
      rw [Matrix.smul_mulVec, Matrix.sub_mulVec, hq.map, Matrix.smul_mulVec, Matrix.one_mulVec]
      simp only [Matrix.smul_apply, Matrix.sub_apply, smul_eq_mul, ← smul_smul, sub_smul]
      rw [← Finset.smul_sum, Finset.sum_sub_distrib]
      have h2 : ∑ j, E • (1 : Matrix (Fin a.length) (Fin a.length) ℝ) i j • q j = E • q i := by
        rw [Finset.sum_eq_single i (fun l _ hl => by rw [Matrix.one_apply_ne (Ne.symm hl), zero_smul, smul_zero]) (by simp), Matrix.one_apply_eq, one_smul]
      rw [h2]
      split_ifs
      · rw [← smul_add]; congr 1; abel
      · rw [add_zero, add_zero]) (fun i => by rw [dotProduct_smul, hq.rem, smul_zero]) hk
  rw [hq.start ⟨0, hm⟩ rfl, Matrix.mulVec_smul, smul_dotProduct, dotProduct_smul, h, smul_eq_mul, smul_eq_mul]
  ring

/-- **C164** (moments). After `m` steps, wherever the recurrence stops, the returned coefficients reproduce the first `2m` moments of the start vector:
`⟨phi|A^k|phi⟩ = b[0]² (T^k)₀₀` for every `k < 2m`, `T` being the tridiagonal matrix of `a` and `b[1:]`. -/
theorem C164_moments (hA : A.IsSymm) (hdelta : 0 < delta) (hmaxn : 2 ≤ maxn) (hND : 1 ≤ ND) {junk a b : List ℝ} (hjunk : junk.length = maxn)
    (h : BuildSlTridiag (slStep (A *ᵥ ·)) (tinyB delta) eg close maxn ND junk 0 phi (.ok (a, b))) :
    ∃ hm : 0 < a.length, ∀ k < 2 * a.length, phi ⬝ᵥ ((A ^ k) *ᵥ phi) =
      (b[0]?.getD 0) ^ 2 * (tridiag a.length (fun k => a[k]?.getD 0) (fun k => b[k]?.getD 0) ^ k) ⟨0, hm⟩ ⟨0, hm⟩ := by
  obtain ⟨q, hq⟩ := lanczos_basis hA hdelta hmaxn hND hjunk h
  obtain ⟨hl, -⟩ := lanczos_coeffs hdelta hmaxn hND hjunk h
  refine ⟨hl, fun k hk => ?_⟩
  have := affine_moments hA hl hq 1 0 hk
  rw [one_smul, one_smul, zero_smul, zero_smul, sub_zero, sub_zero] at this
  rw [dotProduct_comm]
  exact this

/-- **C164** (tail). Both Green function kernels, built from the coefficients of a recurrence stopped after `m` steps, agree with the exact Green function of the start
vector up to the order `2m` of the expansion in the inverse frequency: the error is at most a constant times `|z|^(-2m) |Im z|^(-1)`. -/
theorem C164_tail (junkr : ℝ) (hA : A.IsSymm) (hdelta : 0 < delta) (hmaxn : 2 ≤ maxn) (hND : 1 ≤ ND) {junk a b : List ℝ} (hjunk : junk.length = maxn)
    (h : BuildSlTridiag (slStep (A *ᵥ ·)) (tinyB delta) eg close maxn ND junk 0 phi (.ok (a, b))) (Ei ex sign : ℝ) {w : List ℝ} {U : ℕ → ℕ → ℝ} (hw : EighTri a b.tail w U) :
    ∃ a' b' l r C, gfCoeffCf a b Ei ex sign = .ok (a', b') ∧ gfCoeffSp b w U Ei ex sign = .ok (l, r) ∧ 0 ≤ C ∧ ∀ e eta : ℝ, eta ≠ 0 →
      ‖cfEval junkr a' b' e eta - (ex : ℂ) * resElem (e + Complex.I * eta) (signOf sign • (A - Ei • (1 : Matrix ι ι ℝ))) phi phi‖
        ≤ C / (‖(e + Complex.I * eta : ℂ)‖ ^ (2 * a.length) * |eta|) ∧
      ‖spEval l r e eta - (ex : ℂ) * resElem (e + Complex.I * eta) (signOf sign • (A - Ei • (1 : Matrix ι ι ℝ))) phi phi‖
        ≤ C / (‖(e + Complex.I * eta : ℂ)‖ ^ (2 * a.length) * |eta|) := by
  obtain ⟨q, hq⟩ := lanczos_basis hA hdelta hmaxn hND hjunk h
  obtain ⟨hm, hab, -, -⟩ := lanczos_coeffs hdelta hmaxn hND hjunk h
  obtain ⟨a', b', h1, -⟩ := C38_continued_fraction junkr a b hab hm Ei ex sign 0 1 one_ne_zero
  obtain ⟨l, r, h2, -⟩ := C38_spectral a b w U hab hm Ei ex sign 0 1 one_ne_zero hw
  have hT := tridiag_symm a.length (fun k => a[k]?.getD 0) (fun k => b[k]?.getD 0)
  have hNs : (chainMat a b Ei sign).IsSymm := by rw [chainMat_eq]; exact tridiag_symm _ _ _
  have hb0 : b[0]?.getD 0 = b[0] := by rw [List.getElem?_eq_getElem (by omega)]; rfl
  obtain ⟨C, hC, hdiff⟩ := resElem_moments (M := signOf sign • (A - Ei • (1 : Matrix ι ι ℝ))) (N := chainMat a b Ei sign)
    ((hA.sub (Matrix.isSymm_one.smul Ei)).smul _) hNs phi (b[0] • Pi.single ⟨0, hm⟩ 1) (2 * a.length) (fun k hk => by
      rw [affine_moments hA hm hq _ _ hk, hb0, Matrix.mulVec_smul, smul_dotProduct, dotProduct_smul, Matrix.mulVec_single_one, dotProduct_single_one, smul_eq_mul, smul_eq_mul]
      change _ = b[0] * (b[0] * (chainMat a b Ei sign ^ k) ⟨0, hm⟩ ⟨0, hm⟩)
      unfold chainMat
      ring)
  have hN : ∀ z : ℂ, resElem z (chainMat a b Ei sign) (b[0] • Pi.single ⟨0, hm⟩ 1) (b[0] • Pi.single ⟨0, hm⟩ 1) = ((b[0] : ℝ) : ℂ) ^ 2 * resolvent z (chainMat a b Ei sign) ⟨0, hm⟩ ⟨0, hm⟩ := by
    intro z
    have hv : (fun i => ((((b[0] : ℝ) • Pi.single ⟨0, hm⟩ 1 : Fin a.length → ℝ) i : ℝ) : ℂ)) = ((b[0] : ℝ) : ℂ) • Pi.single ⟨0, hm⟩ (1 : ℂ) := by
      funext i
      by_cases hi : i = ⟨0, hm⟩
      · rw [hi]; simp
      · simp [hi]
    unfold resElem
    rw [hv, Matrix.mulVec_smul, smul_dotProduct, dotProduct_smul, Matrix.mulVec_single_one, single_one_dotProduct, smul_eq_mul, smul_eq_mul]
    change _ * (_ * resolvent z (chainMat a b Ei sign) ⟨0, hm⟩ ⟨0, hm⟩) = _
    ring
  have key : ∀ e eta : ℝ, eta ≠ 0 → ‖((ex * b[0] ^ 2 : ℝ) : ℂ) * resolvent (e + Complex.I * eta) (chainMat a b Ei sign) ⟨0, hm⟩ ⟨0, hm⟩ -
      (ex : ℂ) * resElem (e + Complex.I * eta) (signOf sign • (A - Ei • (1 : Matrix ι ι ℝ))) phi phi‖ ≤ |ex| * C / (‖(e + Complex.I * eta : ℂ)‖ ^ (2 * a.length) * |eta|) := by
    intro e eta heta
    have him : (e + Complex.I * eta : ℂ).im = eta := by simp
    have h3 := hdiff (e + Complex.I * eta) (by rw [him]; exact heta)
    rw [hN, him] at h3
    have h4 : ((ex * b[0] ^ 2 : ℝ) : ℂ) * resolvent (e + Complex.I * eta) (chainMat a b Ei sign) ⟨0, hm⟩ ⟨0, hm⟩ -
        (ex : ℂ) * resElem (e + Complex.I * eta) (signOf sign • (A - Ei • (1 : Matrix ι ι ℝ))) phi phi =
        (ex : ℂ) * (((b[0] : ℝ) : ℂ) ^ 2 * resolvent (e + Complex.I * eta) (chainMat a b Ei sign) ⟨0, hm⟩ ⟨0, hm⟩ -
          resElem (e + Complex.I * eta) (signOf sign • (A - Ei • (1 : Matrix ι ι ℝ))) phi phi) := by push_cast; ring
    rw [h4, norm_mul, Complex.norm_real, Real.norm_eq_abs, mul_div_assoc]
    exact mul_le_mul_of_nonneg_left h3 (abs_nonneg _)
  refine ⟨a', b', l, r, |ex| * C, h1, h2, by positivity, fun e eta heta => ⟨?_, ?_⟩⟩
  · obtain ⟨a'', b'', h1', h5⟩ := C38_continued_fraction junkr a b hab hm Ei ex sign e eta heta
    rw [h1] at h1'; injection h1' with h1'; injection h1' with e1 e2
    subst e1; subst e2
    rw [h5]
    exact key e eta heta
  · obtain ⟨l', r', h2', h5⟩ := C38_spectral a b w U hab hm Ei ex sign e eta heta hw
    rw [h2] at h2'; injection h2' with h2'; injection h2' with e1 e2
    subst e1; subst e2
    rw [h5]
    exact key e eta heta

/-- A recurrence stopped before the Krylov space is exhausted meets the hypotheses. -/
example : (!![0, 1; 1, 0] : Matrix (Fin 2) (Fin 2) ℝ).IsSymm ∧
    ∃ a b, BuildSlTridiag (slStep ((!![0, 1; 1, 0] : Matrix (Fin 2) (Fin 2) ℝ) *ᵥ ·)) (tinyB 1e-15) (fun _ _ => 0) (fun _ _ => true) 2 10
      (List.replicate 2 0) 0 ![1, 0] (.ok (a, b)) := by
  refine ⟨by ext i j; fin_cases i <;> fin_cases j <;> rfl, ?_⟩
  apply C39_nonzero_start _ _ _ _ (by norm_num) (by norm_num) _ List.length_replicate
  simp [tinyB, slStep]
  norm_num

end Edpyt
