import Verif.Model.Espace
import Mathlib.Analysis.Matrix.Spectrum
import Mathlib.Analysis.InnerProductSpace.PiL2
import Mathlib.LinearAlgebra.Matrix.NonsingularInverse
import Mathlib.Data.Fin.Tuple.Sort
import Mathlib.Data.List.Sort
/-!
Facts on the eigen-decomposition contract `Eigh`: existence (spectral theorem), completeness and
uniqueness of the eigenvalue list.
-/
namespace Edpyt
open Matrix

/-- The array as a matrix. -/
def Dense.mat (D : Dense ℝ) : Matrix (Fin D.size) (Fin D.size) ℝ := Matrix.of fun i j => D.val i j

namespace Eigh
variable {D : Dense ℝ} {w : List ℝ} {v : List (ℕ → ℝ)}

/-- Eigenvector columns as a matrix. -/
def vmat (N : ℕ) (v : List (ℕ → ℝ)) : Matrix (Fin N) (Fin N) ℝ := Matrix.of fun r i => (v[(i : ℕ)]?.getD 0) r

/-- Eigenvalues as a function. -/
def wfun (N : ℕ) (w : List ℝ) : Fin N → ℝ := fun i => w[(i : ℕ)]?.getD 0

theorem vmat_apply (h : Eigh D w v) (r i : Fin D.size) : vmat D.size v r i = (v[(i : ℕ)]'(by rw [h.vlen]; exact i.2)) r := by
  simp [vmat, h.vlen]

theorem wfun_apply (h : Eigh D w v) (i : Fin D.size) : wfun D.size w i = w[(i : ℕ)]'(by rw [h.wlen]; exact i.2) := by
  simp [wfun, h.wlen]

theorem vmat_orth (h : Eigh D w v) : (vmat D.size v)ᵀ * vmat D.size v = 1 := by
  ext i j
  rw [Matrix.mul_apply, Matrix.one_apply]
  simp only [Matrix.transpose_apply, h.vmat_apply]
  have := h.orth i j (by rw [h.vlen]; exact i.2) (by rw [h.vlen]; exact j.2)
  rw [Finset.sum_range] at this
  rw [this]
  simp only [Fin.ext_iff]

theorem vmat_orth' (h : Eigh D w v) : vmat D.size v * (vmat D.size v)ᵀ = 1 := _root_.mul_eq_one_comm.mp h.vmat_orth

theorem mat_mul (h : Eigh D w v) : D.mat * vmat D.size v = vmat D.size v * Matrix.diagonal (wfun D.size w) := by
  ext r i
  rw [Matrix.mul_diagonal, Matrix.mul_apply]
  simp only [h.vmat_apply, h.wfun_apply]
  have := h.eig i (by rw [h.vlen]; exact i.2) (by rw [h.wlen]; exact i.2) r r.2
  rw [Finset.sum_range] at this
  rw [mul_comm, ← this]
  rfl

/-- Spectral representation. -/
theorem mat_eq (h : Eigh D w v) : D.mat = vmat D.size v * Matrix.diagonal (wfun D.size w) * (vmat D.size v)ᵀ := by
  rw [← h.mat_mul, Matrix.mul_assoc, h.vmat_orth', Matrix.mul_one]

theorem charpoly (h : Eigh D w v) : D.mat.charpoly = ∏ i, (Polynomial.X - Polynomial.C (wfun D.size w i)) := by
  let U : (Matrix (Fin D.size) (Fin D.size) ℝ)ˣ := ⟨vmat D.size v, (vmat D.size v)ᵀ, h.vmat_orth', h.vmat_orth⟩
  have : D.mat = U.val * Matrix.diagonal (wfun D.size w) * U⁻¹.val := h.mat_eq
  rw [this, Matrix.coe_units_inv, Matrix.charpoly_units_conj, Matrix.charpoly_diagonal]

theorem w_eq_ofFn (h : Eigh D w v) : w = List.ofFn (wfun D.size w) := by
  apply List.ext_getElem
  · simp [h.wlen]
  · intro i h1 h2
    simp [wfun, List.getElem?_eq_getElem h1]

theorem roots (h : Eigh D w v) : D.mat.charpoly.roots = (w : Multiset ℝ) := by
  rw [h.charpoly, Polynomial.roots_prod _ _ (Finset.prod_ne_zero_iff.mpr fun i _ => Polynomial.X_sub_C_ne_zero _)]
  simp only [Polynomial.roots_X_sub_C]
  rw [Multiset.bind_singleton]
  conv_rhs => rw [h.w_eq_ofFn]
  rw [List.ofFn_eq_map]
  rfl

/-- The eigenvalue list is determined by the matrix. -/
theorem unique {D' : Dense ℝ} {w' : List ℝ} {v' : List (ℕ → ℝ)} (h : Eigh D w v) (h' : Eigh D' w' v')
    (hs : D.size = D'.size) (he : ∀ i j, i < D.size → j < D.size → D.val i j = D'.val i j) : w = w' := by
  obtain ⟨N, f⟩ := D
  obtain ⟨N', f'⟩ := D'
  simp only at hs
  subst hs
  have hm : (⟨N, f⟩ : Dense ℝ).mat = (⟨N, f'⟩ : Dense ℝ).mat := by
    ext i j; exact he i j i.2 j.2
  have := h.roots
  rw [hm, h'.roots] at this
  exact (List.Perm.eq_of_pairwise' h'.sorted h.sorted (Multiset.coe_eq_coe.mp this)).symm

theorem congr {D' : Dense ℝ} (h : Eigh D w v)
    (hs : D.size = D'.size) (he : ∀ i j, i < D.size → j < D.size → D.val i j = D'.val i j) : Eigh D' w v := by
  constructor
  · rw [← hs, h.wlen]
  · rw [← hs, h.vlen]
  · exact h.sorted
  · rw [← hs]; exact h.orth
  · rw [← hs]
    intro i hi hi' r hr
    rw [← h.eig i hi hi' r hr]
    exact Finset.sum_congr rfl fun c hc => by rw [he r c hr (Finset.mem_range.mp hc)]

end Eigh

/-- A complete decomposition exists for every symmetric array. -/
theorem eigh_exists (D : Dense ℝ) (hs : ∀ i j, i < D.size → j < D.size → D.val i j = D.val j i) : ∃ w v, Eigh D w v := by
  have hA : D.mat.IsHermitian := by
    ext i j
    simpa [Dense.mat] using hs j i j.2 i.2
  let σ := Tuple.sort hA.eigenvalues
  let b := hA.eigenvectorBasis
  refine ⟨List.ofFn fun k => hA.eigenvalues (σ k), List.ofFn fun k r => if h : r < D.size then b (σ k) ⟨r, h⟩ else 0, ?_, ?_, ?_, ?_, ?_⟩
  · simp
  · simp
  · rw [List.pairwise_ofFn]
    intro i j hij
    exact Tuple.monotone_sort hA.eigenvalues hij.le
  · intro i j hi hj
    rw [Finset.sum_range]
    simp only [List.getElem_ofFn, Fin.is_lt, dite_true, Fin.eta]
    have ho := b.orthonormal
    rw [orthonormal_iff_ite] at ho
    have := ho (σ ⟨j, by simpa using hj⟩) (σ ⟨i, by simpa using hi⟩)
    rw [PiLp.inner_apply] at this
    simp only [RCLike.inner_apply, conj_trivial] at this
    rw [this]
    simp only [σ.injective.eq_iff, Fin.mk.injEq]
    exact if_congr eq_comm rfl rfl
  · intro i hi hi' r hr
    rw [Finset.sum_range]
    simp only [List.getElem_ofFn, Fin.is_lt, dite_true, Fin.eta, hr]
    have := congrFun (hA.mulVec_eigenvectorBasis (σ ⟨i, by simpa using hi⟩)) ⟨r, hr⟩
    simp only [Matrix.mulVec, dotProduct, Pi.smul_apply, smul_eq_mul] at this
    exact this

end Edpyt
