import Verif.Model.Py
import Mathlib.Analysis.Real.Sqrt
import Mathlib.Data.Matrix.Mul
/-!
Model of the simple Lanczos driver of `edpyt/lanczos.py`.
-/
namespace Edpyt

/-- `_sl_step`, `edpyt/lanczos.py:30-50`, in exact arithmetic on vectors of `ℝ^ι`. `scal` and `axpy` work in place on
`v` and `w`; the returned tuple is `(a, b, v, w)`. `1/0` is `0` here (`inf` in the code); the driver never uses the
vectors after a step with `b = 0`. -/
noncomputable def slStep {ι : Type} [Fintype ι] (matvec : (ι → ℝ) → (ι → ℝ)) (v l : ι → ℝ) : ℝ × ℝ × (ι → ℝ) × (ι → ℝ) :=
  let b := Real.sqrt (v ⬝ᵥ v)
  let v := (1 / b) • v
  let w := matvec v
  let a := v ⬝ᵥ w
  let w := w + (-a) • v
  let w := w + (-b) • l
  (a, b, v, w)

/-- Loop variables of `build_sl_tridiag`: the buffers `a`, `b`, the vectors `l`, `v`, the counter `n` and the flag. Source: `edpyt/lanczos.py:73-123`. -/
structure LancSt (K V : Type) where
  n : ℕ
  a : List K
  b : List K
  l : V
  v : V
  converged : Bool

/-- The inner loop `for _ in range(ND)`, `edpyt/lanczos.py:104-111`. `step` is the Lanczos step for a given matvec and
`tiny b` the test `abs(b) < delta`; both are arbitrary. -/
def slPass {K V : Type} (step : V → V → K × K × V × V) (tiny : K → Bool) (maxn : ℕ) : ℕ → LancSt K V → Except PyErr (LancSt K V)
  | 0, st => .ok st
  | k + 1, st => do
    let r := step st.v st.l
    let a ← setItem st.a st.n r.1
    let b ← setItem st.b st.n r.2.1
    let st := { st with a := a, b := b, l := r.2.2.1, v := r.2.2.2 }
    if tiny r.2.1 || decide ((st.n : ℤ) ≥ (maxn : ℤ) - 1) then
      if st.n = 0 then .error .zeroNorm
      else pure { st with converged := true }
    else slPass step tiny maxn k { st with n := st.n + 1 }

/-- Outcome of the `while not converged` loop, `edpyt/lanczos.py:103-120`, as a big-step relation: `SlLoop … st egs r`
holds iff the loop entered with `st` and `egs_prev = egs` ends with `r`. `eg a b` stands for `egs_tridiag(a[:n], b[1:n])`
and `close` for `abs(egs - egs_prev) < tol`; both are arbitrary. -/
inductive SlLoop {K V : Type} (step : V → V → K × K × V × V) (tiny : K → Bool) (eg : List K → List K → K) (close : K → Option K → Bool)
    (maxn ND : ℕ) : LancSt K V → Option K → Except PyErr (LancSt K V) → Prop
  | done {st egs} : st.converged = true → SlLoop step tiny eg close maxn ND st egs (.ok st)
  | raised {st egs e} : st.converged = false → slPass step tiny maxn ND st = .error e → SlLoop step tiny eg close maxn ND st egs (.error e)
  | one {st egs st'} : st.converged = false → slPass step tiny maxn ND st = .ok st' → st'.n = 1 →
      SlLoop step tiny eg close maxn ND st egs (.ok { st' with converged := true })
  | again {st egs st' r} : st.converged = false → slPass step tiny maxn ND st = .ok st' → st'.n ≠ 1 →
      SlLoop step tiny eg close maxn ND
        (if close (eg (st'.a.take st'.n) ((st'.b.take st'.n).drop 1)) egs then { st' with converged := true } else st')
        (if close (eg (st'.a.take st'.n) ((st'.b.take st'.n).drop 1)) egs then egs else some (eg (st'.a.take st'.n) ((st'.b.take st'.n).drop 1))) r →
      SlLoop step tiny eg close maxn ND st egs r

/-- `build_sl_tridiag`, `edpyt/lanczos.py:73-123`. `junk` is the content of `np.empty`; `zero` is `np.zeros_like(phi0)`;
the initial `egs_prev = inf` is `none`. The result is `(a[:n], b[:n])`. -/
inductive BuildSlTridiag {K V : Type} (step : V → V → K × K × V × V) (tiny : K → Bool) (eg : List K → List K → K)
    (close : K → Option K → Bool) (maxn ND : ℕ) (junk : List K) (zero phi0 : V) : Except PyErr (List K × List K) → Prop
  | ok {st} : SlLoop step tiny eg close maxn ND ⟨0, junk, junk, zero, phi0, false⟩ none (.ok st) →
      BuildSlTridiag step tiny eg close maxn ND junk zero phi0 (.ok (st.a.take st.n, st.b.take st.n))
  | error {e} : SlLoop step tiny eg close maxn ND ⟨0, junk, junk, zero, phi0, false⟩ none (.error e) →
      BuildSlTridiag step tiny eg close maxn ND junk zero phi0 (.error e)

end Edpyt
