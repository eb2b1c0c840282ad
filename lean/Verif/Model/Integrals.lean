import Verif.Model.Py
import Mathlib.Analysis.SpecialFunctions.Complex.Log
/-!
Model of `edpyt/integrals.py`. Reals are exact; `mpmath.psi` is the parameter `psi`. A division by `epsA - epsB = 0` is not
modelled (floats give `inf` or `nan`, here the quotient is zero).
-/
namespace Edpyt

/-- `Psi`, `edpyt/integrals.py:15-16`. -/
noncomputable def Psi (psi : ℕ → ℂ → ℂ) (n : ℕ) (a b beta : ℝ) : ℂ := psi n (0.5 + (Complex.I * beta) / (2 * Real.pi) * (a - b))

/-- `Taylor`, `edpyt/integrals.py:19-24`. -/
noncomputable def taylor (psi : ℕ → ℂ → ℂ) (n : ℕ) (x a b beta : ℝ) : ℂ :=
  let k := Psi psi n a b beta
  k / x - 0.5 * k + 1 / 12 * x * k - 1 / 720 * x ^ 3 * k

/-- `nB`, `edpyt/integrals.py:33`. -/
noncomputable def nB (x : ℝ) : ℝ := 1 / (Real.exp x - 1)

/-- `I1 = Gamma1`, `edpyt/integrals.py:36-47,99`. -/
noncomputable def integralI1 (psi : ℕ → ℂ → ℂ) (C eps mu0 mu1 beta : ℝ) : ℝ :=
  let x := (mu1 - mu0) * beta
  if |x| < 1e-16 then 0
  else if |x| < 1e-15 then C ^ 2 * beta / (2 * Real.pi) * (taylor psi 1 x mu1 eps beta - taylor psi 1 x mu0 eps beta).im
  else C ^ 2 * beta / (2 * Real.pi) * nB x * (Psi psi 1 mu1 eps beta - Psi psi 1 mu0 eps beta).im

/-- `I2`, `edpyt/integrals.py:63-80`; the calls of `Taylor` on lines 69-72 miss an argument. -/
noncomputable def integralI2 (psi : ℕ → ℂ → ℂ) (A B epsA epsB mu0 mu1 beta : ℝ) : Except PyErr ℝ :=
  let x := (mu1 - mu0) * beta
  if |x| < 1e-16 then .ok 0
  else if |x| < 1e-15 then .error .typeError
  else .ok (A * B * nB x / (epsA - epsB) *
    (Psi psi 0 epsA mu1 beta - Psi psi 0 epsA mu0 beta - Psi psi 0 epsB mu1 beta + Psi psi 0 epsB mu0 beta).re)

/-- `Gamma2`, `edpyt/integrals.py:102-105`. -/
noncomputable def gamma2 (psi : ℕ → ℂ → ℂ) (A B epsA epsB mu0 mu1 beta : ℝ) : Except PyErr ℝ := do
  let y ← integralI2 psi A B epsA epsB mu0 mu1 beta
  pure (integralI1 psi A epsA mu0 mu1 beta + integralI1 psi B epsB mu0 mu1 beta + y)

/-- `Gamma4`, `edpyt/integrals.py:108-114`. -/
noncomputable def gamma4 (psi : ℕ → ℂ → ℂ) (A B C D epsA epsB epsC epsD mu0 mu1 beta : ℝ) : Except PyErr ℝ := do
  let g1 ← gamma2 psi A B epsA epsB mu0 mu1 beta
  let g2 ← gamma2 psi A C epsA epsC mu0 mu1 beta
  let g3 ← gamma2 psi A (-D) epsA epsD mu0 mu1 beta
  let g4 ← gamma2 psi B (-C) epsB epsC mu0 mu1 beta
  let g5 ← gamma2 psi B D epsB epsD mu0 mu1 beta
  let g6 ← gamma2 psi C D epsC epsD mu0 mu1 beta
  pure (g1 + g2 - g3 - g4 + g5 + g6)

end Edpyt
