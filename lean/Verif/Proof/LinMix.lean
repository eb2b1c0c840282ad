import Verif.Model.LinMix
import Mathlib.Analysis.InnerProductSpace.PiL2
/-!
Lemmas on `linearmixing`.
-/
namespace Edpyt

/-- A list of `N` numbers as a vector. -/
noncomputable def vecOf (N : ℕ) (l : List ℂ) : EuclideanSpace ℂ (Fin N) := WithLp.toLp 2 fun k => l.getD k 0

theorem sum_getD {N : ℕ} {l : List ℂ} (h : l.length = N) (g : ℂ → ℝ) : (l.map g).sum = ∑ k : Fin N, g (l.getD k 0) := by
  subst h
  rw [← List.sum_ofFn]
  congr 1
  refine List.ext_getElem (by simp) fun k h1 h2 => ?_
  simp at h1
  simp [h1]

theorem vecSq_eq {N : ℕ} {l : List ℂ} (h : l.length = N) : vecSq l = ‖vecOf N l‖ ^ 2 := by
  rw [EuclideanSpace.norm_sq_eq, vecSq, sum_getD h]
  exact Finset.sum_congr rfl fun k _ => Complex.normSq_eq_norm_sq _

theorem deltaNorm_eq {N : ℕ} {l m : List ℂ} (hl : l.length = N) (hm : m.length = N) : deltaNorm l m = ‖vecOf N l - vecOf N m‖ := by
  have : (List.zipWith (fun a b => Complex.normSq (a - b)) l m) = (List.zipWith (fun a b => a - b) l m).map Complex.normSq := by rw [List.map_zipWith]
  have hlen : (List.zipWith (fun a b => a - b) l m).length = N := by rw [List.length_zipWith, hl, hm, min_self]
  rw [deltaNorm, this, ← vecSq, vecSq_eq hlen, Real.sqrt_sq (norm_nonneg _)]
  congr 1
  ext k
  have h1 : (k : ℕ) < l.length := hl ▸ k.2
  have h2 : (k : ℕ) < m.length := hm ▸ k.2
  simp [vecOf, List.getD_eq_getElem?_getD, h1, h2]

theorem stepTo_length {N : ℕ} {x d : List ℂ} (hx : x.length = N) (hd : d.length = N) (t : ℝ) : (stepTo x t d).length = N := by
  rw [stepTo, List.length_zipWith, hx, hd, min_self]

theorem vecOf_stepTo {N : ℕ} {x d : List ℂ} (hx : x.length = N) (hd : d.length = N) (t : ℝ) : vecOf N (stepTo x t d) = vecOf N x + (t : ℂ) • vecOf N d := by
  ext k
  have h1 : (k : ℕ) < x.length := hx ▸ k.2
  have h2 : (k : ℕ) < d.length := hd ▸ k.2
  simp [vecOf, stepTo, List.getD_eq_getElem?_getD, h1, h2]

theorem distVec_zero {N : ℕ} (beta : ℝ) {dnew d : List ℂ} (hn : dnew.length = N) (hd : d.length = N) :
    (distVec beta 0 dnew d).length = N ∧ vecOf N (distVec beta 0 dnew d) = vecOf N dnew - vecOf N d := by
  have e : distVec beta 0 dnew d = List.zipWith (· - ·) dnew d := by
    unfold distVec distWeight
    exact List.ext_getElem (by simp) (by simp)
  rw [e]
  refine ⟨by rw [List.length_zipWith, hn, hd, min_self], ?_⟩
  ext k
  have h1 : (k : ℕ) < dnew.length := hn ▸ k.2
  have h2 : (k : ℕ) < d.length := hd ▸ k.2
  simp [vecOf, List.getD_eq_getElem?_getD, h1, h2]

end Edpyt
