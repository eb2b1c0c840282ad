import Verif.Model.Dmft
import Verif.Model.NanoDmft
/-!
Model of the state that a run of the `DMFT` object of `edpyt/dmft.py` goes through: the impurity object, the lattice object and the counter. The
minimiser behind `Gfimp.fit`, the impurity solver behind `Gfimp.solve` and the root finder behind `adjust_mu` are arbitrary functions that may raise.
-/
namespace Edpyt

noncomputable section

/-- The parameters of a `DMFT` object that do not change, `edpyt/dmft.py:391-412`: `n` sites of the impurity model, the frequencies `self.z`,
`self.tol`, `self.max_iter`, `self.occupancy_goal` (its sum), and the routines called. `fit start delta` is the result of the minimisation of
`Delta.fit`, `solve imp` the interacting Green function of `Gfimp.solve`, `adjust` is `none` if `adjust_mu=False`, otherwise the root finder of
`adjust_mu(gfloc, occupancy_goal)`; `integrate` is the sum of `gfloc.integrate(gfloc.mu)`. -/
structure DmftPar where
  n : ℕ
  zs : List ℂ
  tol : ℝ
  maxIter : ℕ
  goal : Option ℝ
  fit : Imp → List ℂ → Except PyErr ((ℕ → ℝ) × (ℕ → ℝ))
  solve : Imp → Except PyErr (ℂ → ℂ)
  adjust : Option (Loc → Except PyErr ℝ)
  integrate : Loc → Except PyErr ℝ

/-- The mutable state: the impurity object with its `gf`, the lattice object, the counter `self.it`. Source: `edpyt/dmft.py:394-414`. -/
structure DmftState where
  imp : Imp
  gf : ℂ → ℂ
  loc : Loc
  it : ℕ

/-- `dmft_step(delta, gfimp, gfloc)`, `edpyt/dmft.py:349-354`. `gfloc.Sigma` becomes the bound method `gfimp.Sigma`: the model stores its value,
which is what the lattice object sees until the impurity object changes again. -/
def DmftState.dmftStep (P : DmftPar) (s : DmftState) (delta : List ℂ) : Except PyErr DmftState := do
  let (ek, vk) ← P.fit s.imp delta
  let imp := s.imp.step P.n (.fit ek vk)
  match s.loc.mu, s.loc.ed with
  | some mu, some ed => do
    let imp := imp.step P.n (.update (mu - ed).re)
    let gf ← P.solve imp
    pure { s with imp := imp, gf := gf, loc := { s.loc with sigma := some (imp.sigma P.n gf) } }
  | _, _ => .error .attributeError

/-- `DMFT.step`, `edpyt/dmft.py:428-437`, with `dmft_step_adjust`, `edpyt/dmft.py:357-362`: the new state, `np.sum(occp)` and `delta_new`. -/
def DmftState.step (P : DmftPar) (s : DmftState) (delta : List ℂ) : Except PyErr (DmftState × Option ℝ × List ℂ) := do
  let s ← s.dmftStep P delta
  let (s, occp) ← match P.adjust with
    | some root => do
      let mu ← root s.loc
      let s := { s with loc := { s.loc with mu := some (mu : ℂ) } }
      let o ← P.integrate s.loc
      pure (s, some o)
    | none => pure (s, P.goal)
  let dnew ← P.zs.mapM s.loc.delta
  pure (s, occp, dnew)

/-- `DMFT.__call__`, `edpyt/dmft.py:444-460`. -/
def DmftState.call (P : DmftPar) (s : DmftState) (delta : List ℂ) : Except PyErr (DmftState × CallOut) := do
  let (s, occp, dnew) ← s.step P (clampNonCausal delta).2
  let r := dmftCall P.tol P.maxIter (fun _ => (occp, dnew)) s.it delta
  pure ({ s with it := r.1 }, r.2)

/-- A driver (`broyden1`, `linearmixing`, `edpyt/dmft.py:462-486`) calls the object with arguments of its choice until a call raises. The result is
the final state, the outcome and the argument of the last call; `none` after `fuel` calls that return. -/
def DmftState.drive (P : DmftPar) (arg : ℕ → List ℂ) : ℕ → ℕ → DmftState → Except PyErr (Option (DmftState × CallOut × List ℂ))
  | 0, _, _ => .ok none
  | fuel + 1, k, s => do
    match ← s.call P (arg k) with
    | (s, .value _) => DmftState.drive P arg fuel (k + 1) s
    | (s, out) => pure (some (s, out, arg k))

/-- `DMFT.initialize`, `edpyt/dmft.py:414-423`, on the whole state: `ek0, vk0` is the bath written by `get_initial_bath`. -/
def DmftState.initialize (P : DmftPar) (s : DmftState) (U : ℂ) (Sigma : ℂ → ℂ) (mu : Option ℂ) (ek0 vk0 : ℕ → ℝ) :
    Except PyErr (DmftState × List ℂ) := do
  let (loc, e) ← dmftInitialize s.loc U Sigma mu
  let imp := (s.imp.step P.n (.update e.re)).step P.n (.resetBath ek0 vk0)
  let d ← P.zs.mapM loc.delta
  pure ({ s with imp := imp, loc := loc }, d)

/-! ### The container of impurities of `nano_dmft.py` -/

/-- `np.broadcast_to(mu, len(self))`, `edpyt/nano_dmft.py:166`: a vector of that length, or one value repeated. -/
def broadcastTo {α : Type} (len : ℕ) (mu : List α) : Except PyErr (List α) :=
  if mu.length = len then .ok mu
  else match mu with
    | [x] => .ok (List.replicate len x)
    | _ => .error .valueError

/-- `Gfimp.update(mu)`, `edpyt/nano_dmft.py:164-168`, for impurities with `n` sites each. -/
def nanoUpdate (n : ℕ) (imps : List Imp) (mu : List ℝ) : Except PyErr (List Imp) := do
  let mu ← broadcastTo imps.length mu
  pure (imps.mapIdx fun i s => s.step n (.update (mu[i]?.getD 0)))

/-- `Gfimp.fit(delta)`, `edpyt/nano_dmft.py:178-181`: `rows` rows of the hybridisation; `delta[i]` raises `IndexError` beyond the last row. `fit` is
the minimiser. -/
def nanoFit (n : ℕ) (fit : Imp → (ℕ → ℂ) → Except PyErr ((ℕ → ℝ) × (ℕ → ℝ))) (rows : ℕ) (delta : ℕ → ℕ → ℂ) (imps : List Imp) :
    Except PyErr (List Imp) :=
  (imps.zipIdx).mapM fun p =>
    if p.2 < rows then do let (ek, vk) ← fit p.1 (delta p.2); pure (p.1.step n (.fit ek vk)) else .error .indexError

/-- `Gfimp.Sigma(z)`, `edpyt/nano_dmft.py:183-185`, at the frequencies `zs`: `np.stack` of no arrays raises `ValueError`. -/
def nanoSigma (n : ℕ) (imps : List (Imp × (ℂ → ℂ))) (zs : List ℂ) : Except PyErr (ℕ → ℕ → ℂ) :=
  if imps.length = 0 then .error .valueError
  else .ok fun u c => match imps[u]? with
    | some (s, gf) => s.sigma n gf (zs[c]?.getD 0)
    | none => 0

/-- `dmft_step(delta, gfimp, gfloc)`, `edpyt/dmft.py:349-354`, for `nano_dmft.Gfimp` and `nano_dmft.Gfloc` (one rank): the impurities with their
Green functions. `gfloc.Sigma` becomes `gfimp.Sigma`. -/
def nanoStep {m : ℕ} (n : ℕ) (fit : Imp → (ℕ → ℂ) → Except PyErr ((ℕ → ℝ) × (ℕ → ℝ))) (solve : Imp → Except PyErr (ℂ → ℂ)) (g : NanoLoc m)
    (rows : ℕ) (delta : ℕ → ℕ → ℂ) (imps : List Imp) : Except PyErr (List (Imp × (ℂ → ℂ))) := do
  let imps ← nanoFit n fit rows delta imps
  let ed ← g.ed
  let imps ← nanoUpdate n imps (ed.map fun e => g.mu - e.re)
  imps.mapM fun s => do let gf ← solve s; pure (s, gf)

end

end Edpyt
