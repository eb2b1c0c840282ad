import Mathlib.Analysis.Complex.Basic
import Mathlib.LinearAlgebra.Matrix.Symmetric
import Verif.Model.Gf2

/-!
Model of `zero_fermi` and `integrate_gf` of `edpyt/integrate_gf.py`.

Arrays are functions on indices (only indices inside the allocated shapes are written or read); real and complex numbers are exact.
-/

namespace Edpyt

noncomputable section

/-- Contract of `scipy.linalg.eigh(a, b)` for symmetric `a` and positive definite `b`: ascending generalised eigenvalues and `b`-orthonormal
eigenvectors (columns of `V`). Source: `edpyt/integrate_gf.py:45`. -/
structure GenEigh {M : ℕ} (a b : Matrix (Fin M) (Fin M) ℝ) (w : Fin M → ℝ) (V : Matrix (Fin M) (Fin M) ℝ) : Prop where
  mono : Monotone w
  eig : a * V = b * V * Matrix.diagonal w
  orth : V.transpose * b * V = 1

/-- `A`, `edpyt/integrate_gf.py:22,31-33`. -/
def zfA (M : ℕ) : ℕ → ℕ → ℝ :=
  (List.range' 1 (M - 1)).foldl (fun A i => upd2 (upd2 A i (i + 1) (-0.5)) (i + 1) i (-0.5)) fun _ _ => 0

/-- `B`, `edpyt/integrate_gf.py:23,28-29`. -/
def zfB (M : ℕ) : ℕ → ℕ → ℝ :=
  (List.range' 1 M).foldl (fun B i => upd2 B i i (2 * (i : ℝ) - 1)) fun _ _ => 0

/-- The flat arrays `a`, `b`, `edpyt/integrate_gf.py:35-41`. -/
def zfFlat (M : ℕ) (A : ℕ → ℕ → ℝ) : ℕ → ℝ :=
  (List.range M).foldl (fun a i => (List.range M).foldl (fun a j => Function.update a (j * M + i) (A (i + 1) (j + 1))) a) fun _ => 0

/-- `a.shape = (M, M)`, `edpyt/integrate_gf.py:43-44`. -/
def zfReshape (M : ℕ) (a : ℕ → ℝ) : Matrix (Fin M) (Fin M) ℝ := Matrix.of fun r c => a (r * M + c)

/-- The arrays `zp`, `Rp` before they are cut, `edpyt/integrate_gf.py:25-26,48-59`. -/
def zfPoles {M : ℕ} (w : Fin M → ℝ) (V : Matrix (Fin M) (Fin M) ℝ) : (ℕ → ℝ) × (ℕ → ℝ) :=
  let zp : ℕ → ℝ := fun i => if h : i < M then w ⟨i, h⟩ else 0
  let zp := (List.range' 1 M).reverse.foldl (fun zp i => Function.update zp i (zp (i - 1))) zp
  let zp := (List.range' 1 M).foldl (fun zp i => Function.update zp i (1 / zp i)) zp
  -- `a = eigvecs.T.flatten()`
  let a : ℕ → ℝ := fun k => if h : k / M < M ∧ k % M < M then V.transpose ⟨k / M, h.1⟩ ⟨k % M, h.2⟩ else 0
  let Rp := (List.range M).foldl (fun Rp i => Function.update Rp (i + 1) (-a (i * M) * a (i * M) * zp (i + 1) * zp (i + 1) * 0.25)) fun _ => 0
  (zp, Rp)

/-- `zero_fermi`, `edpyt/integrate_gf.py:17-64`: a relation, since the eigenvectors are not unique. -/
def ZeroFermi (nzp : ℕ) (zp Rp : List ℝ) : Prop :=
  ∃ (w : Fin (2 * nzp) → ℝ) (V : Matrix (Fin (2 * nzp)) (Fin (2 * nzp)) ℝ),
    GenEigh (zfReshape (2 * nzp) (zfFlat (2 * nzp) (zfA (2 * nzp)))) (zfReshape (2 * nzp) (zfFlat (2 * nzp) (zfB (2 * nzp)))) w V ∧
    zp = (List.range nzp).map (fun i => -(zfPoles w V).1 (i + 1)) ∧
    Rp = (List.range nzp).map (fun i => (zfPoles w V).2 (i + 1))

/-- `integrate_gf`, `edpyt/integrate_gf.py:67-99`, for a scalar `mu` and one element of the array that `gf` returns. `kB` is the Boltzmann constant in
eV/K. The argument `R` is overwritten with `1e10` by the code (line 88) and does not occur here. -/
def IntegrateGf (kB : ℝ) (gf : ℂ → ℂ) (mu T : ℝ) (nzp : ℕ) (rho : ℝ) : Prop :=
  ∃ zp Rp, ZeroFermi nzp zp Rp ∧
    let beta := 1 / (kB * T)
    let a_p := zp.map fun z : ℝ => (mu : ℂ) + Complex.I * (z : ℂ) / (beta : ℂ)
    let mu0 := Complex.I * (10 ^ 10 : ℝ) * gf (Complex.I * (10 ^ 10 : ℝ))
    let mu1 := (List.range nzp).foldl (fun (s : ℂ) i => s + gf (a_p[i]?.getD 0) * ((Rp[i]?.getD 0 : ℝ) : ℂ)) 0
    let mu1 := mu1 * (-Complex.I * 4 / (beta : ℂ))
    rho = (mu0.re + mu1.im) / 2

end

end Edpyt
