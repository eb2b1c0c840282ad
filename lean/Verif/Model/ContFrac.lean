import Verif.Model.Espace
import Mathlib.Data.Complex.Basic
/-!
Model of the continued fraction (`edpyt/continued_fraction.pyx`) and of the two Green function representations of
`edpyt/gf_lanczos.py`. One complex argument; the vectorised call evaluates each element independently.
-/
namespace Edpyt

/-- `calc`, `edpyt/continued_fraction.pyx:8-20`: `r = 0; for i in range(n-1, -1, -1): r = b[i]/(z-a[i]-r)` with
`n = a.size`. C pointer access: an index outside `b` would read arbitrary memory (`junk`). -/
noncomputable def cfCalc (junk : ℝ) (z : ℂ) (a b : List ℝ) : ℂ :=
  (List.range a.length).reverse.foldl (fun r i => ((b[i]?.getD junk : ℝ) : ℂ) / (z - ((a[i]?.getD junk : ℝ) : ℂ) - r)) 0

/-- The function returned by `continued_fraction`, `edpyt/gf_lanczos.py:17-28`. -/
noncomputable def cfEval (junk : ℝ) (a b : List ℝ) (e eta : ℝ) : ℂ := cfCalc junk (e + Complex.I * eta) a b

/-- The function returned by `spectral`, `edpyt/gf_lanczos.py:31-36`. -/
noncomputable def spEval (l q : List ℝ) (e eta : ℝ) : ℂ :=
  (List.zipWith (fun (l q : ℝ) => ((e + Complex.I * eta : ℂ) - (l : ℂ))⁻¹ * (q : ℂ)) l q).sum

/-- Contract of LAPACK's `stemr` behind `eigh_tridiagonal(a, b)`, `edpyt/tridiag.py:27-33`: eigenvalues `w` and an
orthonormal eigenbasis, the columns of `U`, of the symmetric tridiagonal matrix with diagonal `a` and off-diagonal
`b`. Trusted. -/
structure EighTri (a b w : List ℝ) (U : ℕ → ℕ → ℝ) : Prop where
  wlen : w.length = a.length
  orth : ∀ r s, r < a.length → s < a.length → ∑ i ∈ Finset.range a.length, U i r * U i s = if r = s then 1 else 0
  eig : ∀ i r, i < a.length → r < a.length →
    (if i = 0 then 0 else (b[i - 1]?.getD 0) * U (i - 1) r) + (a[i]?.getD 0) * U i r +
      (if i + 1 = a.length then 0 else (b[i]?.getD 0) * U (i + 1) r) = (w[r]?.getD 0) * U i r

/-- `build_gf_coeff_sp`, `edpyt/gf_lanczos.py:96-110`, after `En, Un = eigh_tridiagonal(a, b[1:])`. -/
noncomputable def gfCoeffSp (b w : List ℝ) (U : ℕ → ℕ → ℝ) (Ei exponent sign : ℝ) : Except PyErr (List ℝ × List ℝ) := do
  let b0 ← getItem b 0
  let q := (List.range w.length).map fun r => (U 0 r * b0) ^ 2 * exponent
  let En := w.map (· - Ei)
  let En := if sign < 0 then En.map (· * (-1)) else En
  pure (En, q)

/-- `build_gf_coeff_cf`, `edpyt/gf_lanczos.py:113-129`. -/
noncomputable def gfCoeffCf (a b : List ℝ) (Ei exponent sign : ℝ) : Except PyErr (List ℝ × List ℝ) := do
  let b := b.map (· ^ 2)
  let b0 ← getItem b 0
  let b ← setItem b 0 (b0 * exponent)
  let a := a.map (· - Ei)
  let a := if sign < 0 then a.map (· * (-1)) else a
  pure (a, b)

end Edpyt
