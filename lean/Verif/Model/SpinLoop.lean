import Verif.Model.SpinImp
import Verif.Model.DmftLoop
import Mathlib.Analysis.SpecialFunctions.Pow.Real
/-!
Model of a run of the `DMFT` object of `edpyt/dmft.py` with a spin-dependent impurity (`SpinGfimp`), of `initialize_magnetic` and of `distance`.
-/
namespace Edpyt

noncomputable section

/-- `wn` of `DMFT.__init__`, `edpyt/dmft.py:408`. -/
def matsFreq (beta : ℝ) (k : ℕ) : ℝ := (2 * k + 1) * Real.pi / beta

/-- `self.z`, `edpyt/dmft.py:409`. -/
def matsZ (beta : ℝ) (k : ℕ) : ℂ := Complex.I * matsFreq beta k

/-- `self.weights`, `edpyt/dmft.py:412`. -/
def distWeight (beta alpha : ℝ) (k : ℕ) : ℝ := matsFreq beta k ^ (-alpha)

/-- `self.weights * (self(delta) - delta)`, `edpyt/dmft.py:440-442`, for a call of `self` that returns `dnew`. -/
def distVec (beta alpha : ℝ) (dnew delta : List ℂ) : List ℂ :=
  (List.zipWith (· - ·) dnew delta).mapIdx fun k d => (distWeight beta alpha k : ℂ) * d

/-- `DMFT.distance(delta)`, `edpyt/dmft.py:440-442`: the outcomes of `self(delta)` that raise pass through. -/
def DmftState.distance (P : DmftPar) (beta alpha : ℝ) (s : DmftState) (delta : List ℂ) : Except PyErr (DmftState × CallOut) := do
  match ← s.call P delta with
  | (s, .value dnew) => pure (s, .value (distVec beta alpha dnew delta))
  | (s, out) => pure (s, out)

/-- An array of shape `(2, N)`: one row per spin. Source: `edpyt/dmft.py:374-414`. -/
abbrev SpinRows (N : ℕ) := Bool → Fin N → ℂ

/-- The local Green function object with a self-energy of two rows, `edpyt/dmft.py:266-346`: `inv` acts on each row by itself. -/
structure SpinLoc where
  inv : ℂ → (ℂ → ℂ) → ℂ → ℂ
  mu : Option ℝ
  sigma : Option (Bool → ℂ → ℂ)
  ed : Option ℝ

/-- `Delta(z)`, `edpyt/dmft.py:278-288`, of spin `s`; all operations are elementwise. -/
def spinDelta (inv : ℂ → (ℂ → ℂ) → ℂ → ℂ) (mu : ℝ) (sig : Bool → ℂ → ℂ) (s : Bool) (z : ℂ) : ℂ := z + mu - (sig s z + inv mu (sig s) z)

/-- `gfloc.Delta(self.z)`. Source: `edpyt/dmft.py:278-283`. -/
def SpinLoc.delta (N : ℕ) (beta : ℝ) (g : SpinLoc) : Except PyErr (SpinRows N) :=
  match g.mu, g.sigma with
  | some mu, some sig => .ok fun s k => spinDelta g.inv mu sig s (matsZ beta k)
  | _, _ => .error .attributeError

/-- The parameters of the `DMFT` object, as in `DmftPar`; `N` is `gfimp.nmats`. Source: `edpyt/dmft.py:394-414`. -/
structure SpinPar (N : ℕ) where
  n : ℕ
  beta : ℝ
  tol : ℝ
  maxIter : ℕ
  goal : Option ℝ
  fit : Imp → (Fin N → ℂ) → Except PyErr ((ℕ → ℝ) × (ℕ → ℝ))
  solve : SpinImp → Except PyErr (Bool → ℂ → ℂ)
  adjust : Option (SpinLoc → Except PyErr ℝ)
  integrate : SpinLoc → Except PyErr ℝ

/-- The mutable state. Source: `edpyt/dmft.py:394-414`. -/
structure SpinState where
  imp : SpinImp
  gf : Bool → ℂ → ℂ
  loc : SpinLoc
  it : ℕ

/-- `dmft_step(delta, gfimp, gfloc)`, `edpyt/dmft.py:349-354`, for a `SpinGfimp`: `fit` takes one row per spin, in order (`edpyt/dmft.py:211-213`). -/
def SpinState.dmftStep {N : ℕ} (P : SpinPar N) (s : SpinState) (delta : SpinRows N) : Except PyErr SpinState := do
  let up ← P.fit (s.imp.get false) (delta false)
  let dw ← P.fit (s.imp.get true) (delta true)
  let imp := s.imp.step P.n (.fit (fun b => if b then dw.1 else up.1) (fun b => if b then dw.2 else up.2))
  match s.loc.mu, s.loc.ed with
  | some mu, some ed => do
    let imp := imp.step P.n (.update (mu - ed))
    let gf ← P.solve imp
    pure { s with imp := imp, gf := gf, loc := { s.loc with sigma := some (imp.sigma P.n gf) } }
  | _, _ => .error .attributeError

/-- `dmft_step_magnetic(delta, gfimp, gfloc, sign, field)`, `edpyt/dmft.py:365-371`: `delta` has one row. -/
def SpinState.magneticStep {N : ℕ} (P : SpinPar N) (s : SpinState) (delta : Fin N → ℂ) (sign field : ℝ) : Except PyErr SpinState := do
  let (ek, vk) ← P.fit (s.imp.get false) delta
  match s.loc.mu, s.loc.ed with
  | some mu, some ed => do
    let imp := s.imp.run P.n (dmftStepMagnetic ek vk mu ed sign field)
    let gf ← P.solve imp
    pure { s with imp := imp, gf := gf, loc := { s.loc with sigma := some (imp.sigma P.n gf) } }
  | _, _ => .error .attributeError

/-- `DMFT.initialize(U, Sigma, mu)`, `edpyt/dmft.py:414-423`, for a `SpinGfimp` and a `Sigma` that returns one row: the state and the one row of `Delta`. -/
def SpinState.initialize {N : ℕ} (P : SpinPar N) (s : SpinState) (U : ℝ) (Sigma : ℂ → ℂ) (mu : Option ℝ) (ek0 vk0 : ℕ → ℝ) : Except PyErr (SpinState × (Fin N → ℂ)) :=
  let m := mu.getD (U / 2)
  let loc := { s.loc with sigma := some fun _ => Sigma, mu := some m }
  match s.loc.ed with
  | some ed => .ok ({ s with imp := s.imp.run P.n [.update (m - ed), .resetBath ek0 vk0], loc := loc }, fun k => spinDelta loc.inv m (fun _ => Sigma) false (matsZ P.beta k))
  | none => .error .attributeError

/-- `DMFT.initialize_magnetic(U, Sigma, sign, field, mu)`, `edpyt/dmft.py:425-428`. -/
def SpinState.initializeMagnetic {N : ℕ} (P : SpinPar N) (s : SpinState) (U : ℝ) (Sigma : ℂ → ℂ) (sign field : ℝ) (mu : Option ℝ) (ek0 vk0 : ℕ → ℝ) :
    Except PyErr (SpinState × SpinRows N) := do
  let (s, delta) ← s.initialize P U Sigma mu ek0 vk0
  let s ← s.magneticStep P delta sign field
  let d ← s.loc.delta N P.beta
  pure (s, d)

/-- `DMFT.step`, `edpyt/dmft.py:428-437`, with `dmft_step_adjust`, `edpyt/dmft.py:357-362`. -/
def SpinState.step {N : ℕ} (P : SpinPar N) (s : SpinState) (delta : SpinRows N) : Except PyErr (SpinState × Option ℝ × SpinRows N) := do
  let s ← s.dmftStep P delta
  let (s, occp) ← match P.adjust with
    | some root => do
      let mu ← root s.loc
      let s := { s with loc := { s.loc with mu := some mu } }
      let o ← P.integrate s.loc
      pure (s, some o)
    | none => pure (s, P.goal)
  let dnew ← s.loc.delta N P.beta
  pure (s, occp, dnew)

/-- Outcome of a call. Source: `edpyt/dmft.py:444-460`. -/
inductive SpinOut (N : ℕ)
  | value (delta : SpinRows N)
  | converged
  | failed
  | typeError

/-- `DMFT.__call__`, `edpyt/dmft.py:444-460`; the assignment to the masked copy of `delta` changes nothing (`clampNonCausal`). -/
def SpinState.call {N : ℕ} (P : SpinPar N) (s : SpinState) (delta : SpinRows N) : Except PyErr (SpinState × SpinOut N) := do
  let (s, occp, dnew) ← s.step P delta
  match occp with
  | none => pure (s, .typeError)
  | some _ =>
    if Real.sqrt (∑ b, ∑ k, Complex.normSq (dnew b k - delta b k)) < P.tol then pure (s, .converged)
    else if s.it + 1 > P.maxIter then pure ({ s with it := s.it + 1 }, .failed)
    else pure ({ s with it := s.it + 1 }, .value dnew)

end

end Edpyt
