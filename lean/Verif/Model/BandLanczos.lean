import Verif.Model.Py
import Mathlib.Analysis.Real.Sqrt
import Mathlib.Data.Matrix.Mul
/-!
Model of the band Lanczos driver `build_bd_tridiag` of `edpyt/lanczos.py`, in exact arithmetic on vectors of `ℝ^ι`.
-/
namespace Edpyt

/-- The square array `T = np.zeros((maxn, maxn))`, `edpyt/lanczos.py:227`; outside `[0, maxn)²` the function is not used. -/
abbrev BdMat := ℕ → ℕ → ℝ

/-- `T[i, j] = x` with Python's indexing of both axes (a negative index counts from the end), `edpyt/lanczos.py:254, 258, 262, 265, 267, 270`. -/
def bdSet (maxn : ℕ) (T : BdMat) (i j : ℤ) (x : ℝ) : Except PyErr BdMat := do
  let i ← pyIndex maxn i
  let j ← pyIndex maxn j
  pure fun i' j' => if i' = i ∧ j' = j then x else T i' j'

/-- The value of `T[i, j]`, as read in `edpyt/lanczos.py:259, 262-263, 266, 268, 270`. -/
def bdGet (maxn : ℕ) (T : BdMat) (i j : ℤ) : Except PyErr ℝ := do
  let i ← pyIndex maxn i
  let j ← pyIndex maxn j
  pure (T i j)

/-- The arguments of `build_bd_tridiag` other than `matvec` and `phi0`, `edpyt/lanczos.py:210`. `egs n T` stands for `np.linalg.eigvalsh(T[:n,:n])[0]` and `close egs egs_prev`
for `abs(egs - egs_prev) < tol` (`none` is the initial `inf`); both are arbitrary. -/
structure BdCfg where
  maxn : ℕ
  delta : ℝ
  ND : ℕ
  egs : ℕ → BdMat → ℝ
  close : ℝ → Option ℝ → Bool

/-- The loop variables of `build_bd_tridiag`, `edpyt/lanczos.py:227-238`. -/
structure BdSt (ι : Type) where
  T : BdMat
  converged : Bool
  egsPrev : Option ℝ
  I : List ℕ
  vk : List (ι → ℝ)
  vl : List (ι → ℝ)
  vd : List (ι → ℝ)
  n : ℕ
  Lc : ℕ

variable {ι : Type} [Fintype ι]

/-- Orthogonalize the next candidates against `v`, `edpyt/lanczos.py:257-259`: `k` is `n + 1 + k0`. -/
def bdNext (maxn n Lc : ℕ) (v : ι → ℝ) : BdMat × List (ι → ℝ) → ℕ → Except PyErr (BdMat × List (ι → ℝ)) := fun (T, vk) k0 => do
  let k := n + 1 + k0
  let u ← getItem vk k0
  let T ← bdSet maxn T n ((k : ℤ) - Lc) (v ⬝ᵥ u)
  let t ← bdGet maxn T n ((k : ℤ) - Lc)
  let vk ← setItem vk k0 (u - t • v)
  pure (T, vk)

/-- Orthogonalize the new candidate against the previous Lanczos vectors, `edpyt/lanczos.py:261-263`: `k` is `max(0, n - Lc) + k0`. -/
def bdPrev (maxn n Lc : ℕ) (vl : List (ι → ℝ)) : BdMat × (ι → ℝ) → ℕ → Except PyErr (BdMat × (ι → ℝ)) := fun (T, w) k0 => do
  let k := (n - Lc) + k0
  let t ← bdGet maxn T n k
  let T ← bdSet maxn T k n t
  let t ← bdGet maxn T k n
  let u ← getItem vl k0
  pure (T, w - t • u)

/-- Orthogonalize the new candidate against the deflated vectors, `edpyt/lanczos.py:264-266`. -/
def bdDefl (maxn n : ℕ) (I : List ℕ) (vd : List (ι → ℝ)) : BdMat × (ι → ℝ) → ℕ → Except PyErr (BdMat × (ι → ℝ)) := fun (T, w) k0 => do
  let k ← getItem I k0
  let u ← getItem vd k0
  let T ← bdSet maxn T k n (u ⬝ᵥ w)
  let t ← bdGet maxn T k n
  pure (T, w - t • u)

/-- `for k in I: T[n,k] = np.conj(T[k,n])`, `edpyt/lanczos.py:269-270`. -/
def bdSym (maxn n : ℕ) : BdMat → ℕ → Except PyErr BdMat := fun T k => do
  let t ← bdGet maxn T k n
  bdSet maxn T n k t

/-- Record the Lanczos vector whose candidate is deflated, `edpyt/lanczos.py:243-245`. -/
def bdRecord (st : BdSt ι) : Except PyErr (BdSt ι) :=
  if st.Lc ≤ st.n then do
    let u ← getItem st.vl 0
    pure { st with I := st.I ++ [st.n - st.Lc], vd := st.vd ++ [u] }
  else pure st

/-- The convergence test, `edpyt/lanczos.py:276-281`. -/
def bdCheck (c : BdCfg) (st : BdSt ι) : Except PyErr (BdSt ι) :=
  if c.ND = 0 then .error .zeroDivision
  else if st.n % c.ND = 0 then
    if c.close (c.egs st.n st.T) st.egsPrev then .ok { st with converged := true } else .ok { st with egsPrev := some (c.egs st.n st.T) }
  else .ok st

/-- The pass for a candidate `v` of norm `b` that is not deflated, `edpyt/lanczos.py:254-275`. -/
noncomputable def bdGrow (c : BdCfg) (matvec : (ι → ℝ) → (ι → ℝ)) (st : BdSt ι) (b : ℝ) (v : ι → ℝ) : Except PyErr (BdSt ι) := do
  let T ← bdSet c.maxn st.T st.n ((st.n : ℤ) - st.Lc) b
  let v := (1 / b) • v
  let (T, vk) ← forM' (bdNext c.maxn st.n st.Lc v) (List.range (st.Lc - 1)) (T, st.vk.tail)
  let w := matvec v
  let (T, w) ← forM' (bdPrev c.maxn st.n st.Lc st.vl) (List.range (st.n - (st.n - st.Lc))) (T, w)
  let (T, w) ← forM' (bdDefl c.maxn st.n st.I st.vd) (List.range st.I.length) (T, w)
  let T ← bdSet c.maxn T st.n st.n (v ⬝ᵥ w)
  let t ← bdGet c.maxn T st.n st.n
  let w := w - t • v
  let T ← forM' (bdSym c.maxn st.n) st.I T
  let vl := if st.vl.length = st.Lc then st.vl.tail else st.vl
  pure { st with T := T, vk := vk ++ [w], vl := vl ++ [v], n := st.n + 1 }

/-- One pass of the body of the `while` loop, `edpyt/lanczos.py:240-281`. Vectors are values: the arrays of `phi0` and those returned by `matvec` are taken to be distinct objects.
`x/0` is `0` here (`nan` in the code), which happens for `delta ≤ 0` only. -/
noncomputable def bdStep (c : BdCfg) (matvec : (ι → ℝ) → (ι → ℝ)) (st : BdSt ι) : Except PyErr (BdSt ι) := do
  let v ← getItem st.vk 0
  let b := Real.sqrt (v ⬝ᵥ v)
  if |b| < c.delta then
    let st ← bdRecord st
    let st := { st with Lc := st.Lc - 1 }
    if st.Lc = 0 then pure { st with converged := true }
    else
      let st := { st with vk := st.vk.tail }
      pure { st with vl := if st.Lc < st.vl.length then st.vl.tail else st.vl }
  else
    let st ← bdGrow c matvec st b v
    bdCheck c st

/-- `while (not converged) and (n<(maxn-Lc))`, `edpyt/lanczos.py:239`, cut after `fuel` passes (`C126_ends`: `maxn + L` are enough). -/
noncomputable def bdLoop (c : BdCfg) (matvec : (ι → ℝ) → (ι → ℝ)) : ℕ → BdSt ι → Except PyErr (BdSt ι)
  | 0, st => .ok st
  | fuel + 1, st => if st.converged = false ∧ st.n + st.Lc < c.maxn then do bdLoop c matvec fuel (← bdStep c matvec st) else .ok st

/-- The loop variables before the loop, `edpyt/lanczos.py:227-238`. -/
def bdInit (phi0 : List (ι → ℝ)) : BdSt ι := ⟨fun _ _ => 0, false, none, [], phi0, [], [], 0, phi0.length⟩

/-- `build_bd_tridiag`, `edpyt/lanczos.py:210-283`: the returned block is `(st.n, st.T)`. `vk` is the caller's list `phi0`, which is modified in place. -/
noncomputable def buildBdTridiag (c : BdCfg) (matvec : (ι → ℝ) → (ι → ℝ)) (phi0 : List (ι → ℝ)) : Except PyErr (BdSt ι) :=
  bdLoop c matvec (c.maxn + phi0.length) (bdInit phi0)

end Edpyt
