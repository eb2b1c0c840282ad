import Verif.Model.ZeroFermi
import Verif.Model.Dmft
/-!
`integrate` of the impurity objects, `edpyt/dmft.py:166-168,255-257`.
-/
namespace Edpyt

/-- `Gfimp.integrate(mu)`, `edpyt/dmft.py:166-168`: `integrate_gf` with its defaults `T=300`, `nzp=100`. The attribute `gf` is a function of the complex frequency; `kB` is the Boltzmann
constant in eV/K. -/
def ImpIntegrate (kB : ℝ) (n : ℕ) (s : Imp) (gf : ℂ → ℂ) (mu rho : ℝ) : Prop := ∃ r, IntegrateGf kB (s.call n gf) mu 300 100 r ∧ rho = 2 * r

/-- The argument `mu` of `integrate_gf`: `None`, a number or a one-dimensional array. Source: `edpyt/integrate_gf.py:66-99`. -/
inductive MuArg
  | none
  | scalar (mu : ℝ)
  | array (mus : List ℝ)

/-- `integrate_gf(gf, mu, T, nzp)`, `edpyt/integrate_gf.py:67-99`, for every kind of argument; `gf` acts on each element and the result is a list with one number for each element. What is
not a number is asked for its `shape`, which `None` does not have. For an array of `k` numbers, `np.resize(zp, (nzp, k))` repeats the poles in memory order, so that element `(i, j)` is pole
`(i*k + j) % nzp`; the residues are not resized. -/
def IntegrateGfAny (kB : ℝ) (gf : ℂ → ℂ) (mu : MuArg) (T : ℝ) (nzp : ℕ) (r : Except PyErr (List ℝ)) : Prop :=
  match mu with
  | .none => r = .error .attributeError
  | .scalar mu => ∃ rho, IntegrateGf kB gf mu T nzp rho ∧ r = .ok [rho]
  | .array mus => ∃ zp Rp, ZeroFermi nzp zp Rp ∧
      let beta := 1 / (kB * T)
      let mu0 := Complex.I * (10 ^ 10 : ℝ) * gf (Complex.I * (10 ^ 10 : ℝ))
      r = .ok ((List.range mus.length).map fun j =>
        let mu1 := (List.range nzp).foldl (fun (s : ℂ) i =>
          s + gf (((mus[j]?.getD 0 : ℝ) : ℂ) + Complex.I * ((zp[(i * mus.length + j) % nzp]?.getD 0 : ℝ) : ℂ) / (beta : ℂ)) * ((Rp[i]?.getD 0 : ℝ) : ℂ)) 0
        let mu1 := mu1 * (-Complex.I * 4 / (beta : ℂ))
        (mu0.re + mu1.im) / 2)

/-- `SpinGfimp.integrate(mu=None)`, `edpyt/dmft.py:255-257`: `sum` of `integrate_gf` over the two spins, for `None` or a number. -/
def SpinImpIntegrate (kB : ℝ) (n : ℕ) (s : Bool → Imp) (gf : Bool → ℂ → ℂ) (mu : Option ℝ) (r : Except PyErr ℝ) : Prop :=
  let arg := match mu with | none => MuArg.none | some mu => MuArg.scalar mu
  (∃ e, IntegrateGfAny kB ((s false).call n (gf false)) arg 300 100 (.error e) ∧ r = .error e) ∨
  ∃ a, IntegrateGfAny kB ((s false).call n (gf false)) arg 300 100 (.ok [a]) ∧
    ((∃ e, IntegrateGfAny kB ((s true).call n (gf true)) arg 300 100 (.error e) ∧ r = .error e) ∨
      ∃ b, IntegrateGfAny kB ((s true).call n (gf true)) arg 300 100 (.ok [b]) ∧ r = .ok (0 + a + b))

end Edpyt
