import Verif.Model.FitCg
import Mathlib.Analysis.Calculus.FDeriv.Pow
import Mathlib.Analysis.Calculus.LocalExtr.Basic
import Mathlib.Analysis.SpecialFunctions.Trigonometric.Basic
import Mathlib.Analysis.Calculus.FDeriv.Mul
import Mathlib.Analysis.Calculus.Deriv.Inv
import Mathlib.Analysis.Calculus.FDeriv.RestrictScalars
import Mathlib.Analysis.Complex.RealDeriv
/-!
C52: `dChi2` is the gradient of `Chi2`.
-/
namespace Edpyt

/-- An array of `N` reals as a function of the index. -/
def arr {N : ℕ} (p : Fin N → ℝ) : ℕ → ℝ := fun k => if h : k < N then p ⟨k, h⟩ else 0

theorem foldl_add_sum {M : Type*} [AddCommMonoid M] (m : ℕ) (f : ℕ → M) : (List.range m).foldl (fun s i => s + f i) 0 = ∑ i ∈ Finset.range m, f i := by
  induction m with
  | zero => simp
  | succ n ih => rw [List.range_succ, List.foldl_append, ih, Finset.sum_range_succ]; rfl

theorem hasFDerivAt_arr {N : ℕ} (p : Fin N → ℝ) {k : ℕ} (hk : k < N) :
    HasFDerivAt (fun q : Fin N → ℝ => ((arr q k : ℝ) : ℂ)) (Complex.ofRealCLM.comp (ContinuousLinearMap.proj (R := ℝ) (φ := fun _ : Fin N => ℝ) ⟨k, hk⟩)) p := by
  have h : (fun q : Fin N → ℝ => ((arr q k : ℝ) : ℂ)) = fun q => Complex.ofRealCLM (ContinuousLinearMap.proj (R := ℝ) (φ := fun _ : Fin N => ℝ) ⟨k, hk⟩ q) := by
    funext q; simp [arr, hk]
  rw [h]
  exact (Complex.ofRealCLM.comp (ContinuousLinearMap.proj (R := ℝ) (φ := fun _ : Fin N => ℝ) ⟨k, hk⟩)).hasFDerivAt

theorem hasFDerivAt_fitDelta (nb : ℕ) (z : ℂ) (p : Fin (nb + nb) → ℝ) (hz : ∀ j < nb, z ≠ (arr p j : ℂ)) :
    HasFDerivAt (fun q : Fin (nb + nb) → ℝ => fitDelta nb (arr q) z)
      (∑ k : Fin (nb + nb), (ContinuousLinearMap.proj (R := ℝ) (φ := fun _ : Fin (nb + nb) => ℝ) k).smulRight (fitDDelta nb (arr p) z k)) p := by
  have hterm : ∀ j (hj : j < nb), HasFDerivAt (fun q : Fin (nb + nb) → ℝ => ((arr q (nb + j) : ℝ) : ℂ) ^ 2 / (z - (arr q j : ℝ)))
      ((ContinuousLinearMap.proj (R := ℝ) (φ := fun _ : Fin (nb + nb) => ℝ) ⟨j, by omega⟩).smulRight (fitDDelta nb (arr p) z j) +
        (ContinuousLinearMap.proj (R := ℝ) (φ := fun _ : Fin (nb + nb) => ℝ) ⟨nb + j, by omega⟩).smulRight (fitDDelta nb (arr p) z (nb + j))) p := by
    intro j hj
    have h1 := hasFDerivAt_arr p (show nb + j < nb + nb by omega)
    have h2 := (hasFDerivAt_arr p (show j < nb + nb by omega)).const_sub z
    have hne : z - (arr p j : ℂ) ≠ 0 := sub_ne_zero.mpr (hz j hj)
    have h3 := ((hasDerivAt_inv hne).hasFDerivAt.restrictScalars ℝ).comp p h2
    have h4 := (h1.pow 2).mul h3
    have hfun : (fun q : Fin (nb + nb) → ℝ => ((arr q (nb + j) : ℝ) : ℂ) ^ 2 / (z - (arr q j : ℝ))) = fun q => ((arr q (nb + j) : ℝ) : ℂ) ^ 2 * (Inv.inv ∘ fun q : Fin (nb + nb) → ℝ => z - ((arr q j : ℝ) : ℂ)) q := by
      funext q; simp [div_eq_mul_inv]
    rw [hfun]
    refine h4.congr_fderiv ?_
    ext d
    simp [fitDDelta, fitVk, fitEk, hj]
    field_simp
  have hsum := HasFDerivAt.fun_sum (u := Finset.range nb) (A := fun j q => ((arr q (nb + j) : ℝ) : ℂ) ^ 2 / (z - (arr q j : ℝ)))
    (A' := fun j => if hj : j < nb then ((ContinuousLinearMap.proj (R := ℝ) (φ := fun _ : Fin (nb + nb) => ℝ) ⟨j, by omega⟩).smulRight (fitDDelta nb (arr p) z j) +
        (ContinuousLinearMap.proj (R := ℝ) (φ := fun _ : Fin (nb + nb) => ℝ) ⟨nb + j, by omega⟩).smulRight (fitDDelta nb (arr p) z (nb + j))) else 0) (x := p)
    (fun j hj => by
      have hj' := Finset.mem_range.mp hj
      simp only [dif_pos hj']
      exact hterm j hj')
  have hfun : (fun q : Fin (nb + nb) → ℝ => fitDelta nb (arr q) z) = fun q => ∑ j ∈ Finset.range nb, ((arr q (nb + j) : ℝ) : ℂ) ^ 2 / (z - (arr q j : ℝ)) := by
    funext q
    unfold fitDelta deltaEval fitVk fitEk
    exact foldl_add_sum nb fun j => ((arr q (nb + j) : ℝ) : ℂ) ^ 2 / (z - (arr q j : ℝ))
  rw [hfun]
  refine hsum.congr_fderiv ?_
  rw [Fin.sum_univ_add, ← Finset.sum_add_distrib, Finset.sum_range]
  refine Finset.sum_congr rfl fun j _ => ?_
  rw [dif_pos j.2]
  rfl

/-- C52: at all parameters for which no frequency is a pole, for all target data and frequencies, `dChi2` is the gradient of
`Chi2`: the derivative of `Chi2` in the direction `d` is `∑ k, dChi2[k] * d[k]`. -/
theorem C52_gradient (nb m : ℕ) (z vals : ℕ → ℂ) (p : Fin (nb + nb) → ℝ) (hz : ∀ i < m, ∀ j < nb, z i ≠ (arr p j : ℂ)) :
    HasFDerivAt (fun q : Fin (nb + nb) → ℝ => fitChi2 nb m z vals (arr q))
      (∑ k : Fin (nb + nb), fitDChi2 nb m z vals (arr p) k • ContinuousLinearMap.proj (R := ℝ) (φ := fun _ : Fin (nb + nb) => ℝ) k) p := by
  have hterm : ∀ i (hi : i < m), HasFDerivAt (fun q : Fin (nb + nb) → ℝ => ((vals i).re - (fitDelta nb (arr q) (z i)).re) ^ 2 + ((vals i).im - (fitDelta nb (arr q) (z i)).im) ^ 2)
      (∑ k : Fin (nb + nb), (-2 * ((vals i - fitDelta nb (arr p) (z i)).re * (fitDDelta nb (arr p) (z i) k).re + (vals i - fitDelta nb (arr p) (z i)).im * (fitDDelta nb (arr p) (z i) k).im)) • ContinuousLinearMap.proj (R := ℝ) (φ := fun _ : Fin (nb + nb) => ℝ) k) p := by
    intro i hi
    have h0 := hasFDerivAt_fitDelta nb (z i) p (hz i hi)
    have hr := (Complex.reCLM.hasFDerivAt.comp p h0).const_sub (vals i).re
    have hm := (Complex.imCLM.hasFDerivAt.comp p h0).const_sub (vals i).im
    refine ((hr.pow 2).add (hm.pow 2)).congr_fderiv ?_
    ext d
    simp [ContinuousLinearMap.sum_apply]
    rw [Finset.mul_sum, Finset.mul_sum, ← neg_add, neg_inj, ← Finset.sum_add_distrib]
    refine Finset.sum_congr rfl fun k _ => ?_
    ring
  have hsum := HasFDerivAt.fun_sum (u := Finset.range m) (x := p) (fun i hi => hterm i (Finset.mem_range.mp hi))
  have hfun : (fun q : Fin (nb + nb) → ℝ => fitChi2 nb m z vals (arr q)) = fun q => (∑ i ∈ Finset.range m, (((vals i).re - (fitDelta nb (arr q) (z i)).re) ^ 2 + ((vals i).im - (fitDelta nb (arr q) (z i)).im) ^ 2)) * (m : ℝ)⁻¹ := by
    funext q
    unfold fitChi2
    rw [foldl_add_sum m fun i => ((vals i).re - (fitDelta nb (arr q) (z i)).re) ^ 2 + ((vals i).im - (fitDelta nb (arr q) (z i)).im) ^ 2, div_eq_mul_inv]
  rw [hfun]
  refine (hsum.mul_const ((m : ℝ)⁻¹)).congr_fderiv ?_
  ext d
  simp only [ContinuousLinearMap.smul_apply, ContinuousLinearMap.sum_apply, ContinuousLinearMap.proj_apply, smul_eq_mul]
  rw [Finset.sum_comm, Finset.mul_sum]
  refine Finset.sum_congr rfl fun k _ => ?_
  unfold fitDChi2
  rw [foldl_add_sum m fun i => (vals i - fitDelta nb (arr p) (z i)).re * (fitDDelta nb (arr p) (z i) k).re,
    foldl_add_sum m fun i => (vals i - fitDelta nb (arr p) (z i)).im * (fitDDelta nb (arr p) (z i) k).im, ← Finset.sum_add_distrib, ← Finset.sum_mul,
    ← Finset.mul_sum]
  ring

/-- C52: at the Matsubara frequencies used by the fit no parameters are exceptional. -/
theorem C52_matsubara (nb m : ℕ) (beta : ℝ) (hb : 0 < beta) (vals : ℕ → ℂ) (p : Fin (nb + nb) → ℝ) :
    let z : ℕ → ℂ := fun i => Complex.I * ((2 * i + 1) * Real.pi / beta : ℝ)
    HasFDerivAt (fun q : Fin (nb + nb) → ℝ => fitChi2 nb m z vals (arr q))
      (∑ k : Fin (nb + nb), fitDChi2 nb m z vals (arr p) k • ContinuousLinearMap.proj (R := ℝ) (φ := fun _ : Fin (nb + nb) => ℝ) k) p := by
  intro z
  refine C52_gradient nb m z vals p fun i _ j _ h => ?_
  have him := congrArg Complex.im h
  have : (0 : ℝ) < (2 * i + 1) * Real.pi / beta := by positivity
  simp only [z, Complex.mul_im, Complex.I_re, Complex.I_im, Complex.ofReal_im, Complex.ofReal_re] at him
  linarith

/-- C52: at a minimum of the objective the returned gradient vanishes, so the stopping test of the minimiser is met there. -/
theorem C52_stationary (nb m : ℕ) (z vals : ℕ → ℂ) (p : Fin (nb + nb) → ℝ) (hz : ∀ i < m, ∀ j < nb, z i ≠ (arr p j : ℂ))
    (hmin : IsLocalMin (fun q : Fin (nb + nb) → ℝ => fitChi2 nb m z vals (arr q)) p) (k : Fin (nb + nb)) : fitDChi2 nb m z vals (arr p) k = 0 := by
  have h := hmin.hasFDerivAt_eq_zero (C52_gradient nb m z vals p hz)
  have h' := DFunLike.congr_fun h (Pi.single k 1)
  simpa [ContinuousLinearMap.sum_apply, Pi.single_apply] using h'

/-- A bath with one site, fitted at one frequency. -/
example : ∀ i < 1, ∀ j < 1, (fun _ : ℕ => Complex.I) i ≠ ((arr (fun _ : Fin 2 => (1 : ℝ)) j : ℝ) : ℂ) := by
  intro i _ j _ h
  have := congrArg Complex.im h
  simp at this

end Edpyt
