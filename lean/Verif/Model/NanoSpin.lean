import Verif.Model.SpinLoop
import Verif.Model.NanoDmft
/-!
Model of a run of the `DMFT` object of `edpyt/dmft.py` on a nanostructure with spin-dependent impurities: `nano_dmft.Gfloc` with self-energies of shape `(m, 2, nz)` and `nano_dmft.Gfimp`
around `m` objects `SpinGfimp`. One process.
-/
namespace Edpyt

noncomputable section

/-- `[f i for i in range(m)]` where each element may raise; the first that does ends the loop. Source: `edpyt/nano_dmft.py:186-192`. -/
def finM {α : Type} : {m : ℕ} → (Fin m → Except PyErr α) → Except PyErr (Fin m → α)
  | 0, _ => .ok Fin.elim0
  | _ + 1, f => do
    let a ← f 0
    let g ← finM fun i => f i.succ
    pure (Fin.cons a g)

/-- The loop of `__call__`, `edpyt/nano_dmft.py:81-85`, over the chunks `l`: the body gets the part of the output array that belongs to the chunk. -/
def chunkLoop {κ : Type} [DecidableEq κ] (F : κ → (ℕ → ℂ) → Except PyErr (ℕ → ℂ)) (l : List κ) (out : κ → ℕ → ℂ) : Except PyErr (κ → ℕ → ℂ) :=
  forM' (fun out p => do let o ← F p (out p); pure (Function.update out p o)) l out

/-- `__call__`, `edpyt/nano_dmft.py:76-86`, with `sigma` of shape `(m, 2, nz)` in C order. `np.nditer` with `external_loop` and `order='F'` hands out the columns over the first axis, for one
spin and one frequency after the other. A first axis of length one is dropped: then each chunk holds the two spins at one frequency. `junk r s c` is the content of the output array before
the loop. The result has `idxNeq.length` rows. -/
def NanoLoc.callSpin {n : ℕ} (g : NanoLoc n) (m : ℕ) (sigma : ℕ → ℕ → ℕ → ℂ) (zs : List ℂ) (junk : ℕ → ℕ → ℕ → ℂ) : Except PyErr (ℕ → ℕ → ℕ → ℂ) := do
  let out ← if m * zs.length = 0 then .error .valueError
    else if m = 1 then do
      let o ← chunkLoop (fun c => g.body 2 (fun s => sigma 0 s c) (zs[c]?.getD 0)) (List.range zs.length) (fun c s => junk 0 s c)
      pure fun r s c => if r = 0 then o c s else junk r s c
    else do
      let o ← chunkLoop (fun p : ℕ × ℕ => g.body m (fun r => sigma r p.2 p.1) (zs[p.1]?.getD 0)) ((List.range zs.length).flatMap fun c => [(c, 0), (c, 1)]) (fun p r => junk r p.2 p.1)
      pure fun r s c => o (c, s) r
  let _ ← fancyIdx m (fun _ => 0) g.idxNeq
  pure fun u s c => out (g.idxNeq[u]?.getD 0) s c

/-- An array of shape `(m, 2, N)`. Source: `edpyt/dmft.py:374-414`. -/
abbrev NanoRows (m N : ℕ) := Fin m → Bool → Fin N → ℂ

/-- The lattice object; `sigma` is set by `set_local`, `edpyt/nano_dmft.py:94-99`, and returns the array of shape `(m, 2, nz)` element by element. -/
structure NanoSpinLoc (m n : ℕ) where
  g : NanoLoc n
  sigma : Option (Fin m → Bool → ℂ → ℂ)

/-- `self.z` of the `DMFT` object, `edpyt/dmft.py:408-409`. -/
def matsList (beta : ℝ) (N : ℕ) : List ℂ := (List.range N).map (matsZ beta)

/-- `self.Sigma(z)` as an array. Source: `edpyt/nano_dmft.py:186-188`. -/
def sigmaArr {m : ℕ} (sig : Fin m → Bool → ℂ → ℂ) (zs : List ℂ) (r s c : ℕ) : ℂ := if h : r < m then sig ⟨r, h⟩ (s == 1) (zs[c]?.getD 0) else 0

/-- `Delta(self.z)` with spin, `edpyt/nano_dmft.py:101-123`, for one impurity to each inequivalent site (otherwise `fit` meets rows that are missing or left over; here an error). -/
def NanoSpinLoc.delta {m n : ℕ} (L : NanoSpinLoc m n) (N : ℕ) (beta : ℝ) (junk : ℕ → ℕ → ℕ → ℂ) : Except PyErr (NanoRows m N) := do
  match L.sigma with
  | none => .error .attributeError
  | some sig =>
    let zs := matsList beta N
    let G ← L.g.callSpin m (sigmaArr sig zs) zs junk
    let ed ← L.g.ed
    if ed.length = m then pure fun u s k => matsZ beta k + L.g.mu - (ed[(u : ℕ)]?.getD 0) - ((G u (spinIdx s) k)⁻¹ + sig u s (matsZ beta k)) else .error .indexError

/-- The parameters of the `DMFT` object, as in `SpinPar`. Source: `edpyt/dmft.py:394-414`. -/
structure NanoSpinPar (m n N : ℕ) where
  ni : ℕ
  beta : ℝ
  tol : ℝ
  maxIter : ℕ
  goal : Option ℝ
  fit : Imp → (Fin N → ℂ) → Except PyErr ((ℕ → ℝ) × (ℕ → ℝ))
  solve : SpinImp → Except PyErr (Bool → ℂ → ℂ)
  adjust : Option (NanoSpinLoc m n → Except PyErr ℝ)
  integrate : NanoSpinLoc m n → Except PyErr ℝ
  junk : ℕ → ℕ → ℕ → ℂ

/-- The mutable state. Source: `edpyt/dmft.py:394-414`. -/
structure NanoSpinState (m n : ℕ) where
  imps : Fin m → SpinImp
  gf : Fin m → Bool → ℂ → ℂ
  loc : NanoSpinLoc m n
  it : ℕ

/-- `gfloc.ed` for `m` impurities, `edpyt/nano_dmft.py:72-74`, real; `Gfimp.update` broadcasts it over the impurities, `edpyt/nano_dmft.py:164-168`. Any other length is an error here. -/
def NanoSpinLoc.levels {m n : ℕ} (L : NanoSpinLoc m n) : Except PyErr (Fin m → ℝ) := do
  let ed ← L.g.ed
  if ed.length = m then pure fun u => (ed[(u : ℕ)]?.getD 0).re else .error .valueError

/-- `gfimp.solve()` and `gfloc.set_local(gfimp.Sigma)`, `edpyt/dmft.py:353-354`, with `Gfimp.solve` and `Gfimp.Sigma`, `edpyt/nano_dmft.py:186-192`: one impurity after the other. -/
def NanoSpinState.solveAll {m n N : ℕ} (P : NanoSpinPar m n N) (s : NanoSpinState m n) (imps : Fin m → SpinImp) : Except PyErr (NanoSpinState m n) := do
  let gf ← finM fun u => P.solve (imps u)
  pure { s with imps := imps, gf := gf, loc := { s.loc with sigma := some fun u => (imps u).sigma P.ni (gf u) } }

/-- `dmft_step(delta, gfimp, gfloc)`, `edpyt/dmft.py:349-354`, with `Gfimp.fit` and `Gfimp.update` of `edpyt/nano_dmft.py:164-184`. -/
def NanoSpinState.dmftStep {m n N : ℕ} (P : NanoSpinPar m n N) (s : NanoSpinState m n) (delta : NanoRows m N) : Except PyErr (NanoSpinState m n) := do
  let b ← finM fun u => do
    let up ← P.fit ((s.imps u).get false) (delta u false)
    let dw ← P.fit ((s.imps u).get true) (delta u true)
    pure (up, dw)
  let ed ← s.loc.levels
  s.solveAll P fun u => ((s.imps u).step P.ni (.fit (fun t => if t then (b u).2.1 else (b u).1.1) (fun t => if t then (b u).2.2 else (b u).1.2))).step P.ni (.update (s.loc.g.mu - ed u))

/-- `dmft_step_magnetic(delta, gfimp, gfloc, sign, field)`, `edpyt/dmft.py:365-371`, with `up`, `dw` and `spin_symmetrize`, `edpyt/nano_dmft.py:172-180,194-196`: `delta` has one row for each
impurity, `sign` one entry. -/
def NanoSpinState.magneticStep {m n N : ℕ} (P : NanoSpinPar m n N) (s : NanoSpinState m n) (delta : Fin m → Fin N → ℂ) (sign : Fin m → ℝ) (field : ℝ) : Except PyErr (NanoSpinState m n) := do
  let b ← finM fun u => P.fit ((s.imps u).get false) (delta u)
  let ed ← s.loc.levels
  s.solveAll P fun u => (s.imps u).run P.ni (dmftStepMagnetic (b u).1 (b u).2 s.loc.g.mu (ed u) (sign u) field)

/-- `DMFT.initialize(U, Sigma, mu)`, `edpyt/dmft.py:414-423`, for a `Sigma` with one row for each inequivalent site: the state, and `Delta` without spin. -/
def NanoSpinState.initialize {m n N : ℕ} (P : NanoSpinPar m n N) (s : NanoSpinState m n) (U : ℝ) (Sigma : Fin m → ℂ → ℂ) (mu : Option ℝ) (ek0 vk0 : ℕ → ℝ) :
    Except PyErr (NanoSpinState m n × (Fin m → Fin N → ℂ)) := do
  let mu := mu.getD (U / 2)
  let loc : NanoSpinLoc m n := ⟨{ s.loc.g with mu := mu }, some fun u _ => Sigma u⟩
  let ed ← loc.levels
  let zs := matsList P.beta N
  let D ← loc.g.Delta m (fun r c => if h : r < m then Sigma ⟨r, h⟩ (zs[c]?.getD 0) else 0) zs fun r c => P.junk r 0 c
  pure ({ s with imps := fun u => (s.imps u).run P.ni [.update (mu - ed u), .resetBath ek0 vk0], loc := loc }, fun u k => D u k)

/-- `DMFT.initialize_magnetic(U, Sigma, sign, field, mu)`, `edpyt/dmft.py:425-428`. -/
def NanoSpinState.initializeMagnetic {m n N : ℕ} (P : NanoSpinPar m n N) (s : NanoSpinState m n) (U : ℝ) (Sigma : Fin m → ℂ → ℂ) (sign : Fin m → ℝ) (field : ℝ) (mu : Option ℝ) (ek0 vk0 : ℕ → ℝ) :
    Except PyErr (NanoSpinState m n × NanoRows m N) := do
  let (s, delta) ← s.initialize P U Sigma mu ek0 vk0
  let s ← s.magneticStep P delta sign field
  let d ← s.loc.delta N P.beta P.junk
  pure (s, d)

/-- `DMFT.step`, `edpyt/dmft.py:428-437`, with `dmft_step_adjust`, `edpyt/dmft.py:357-362`. -/
def NanoSpinState.step {m n N : ℕ} (P : NanoSpinPar m n N) (s : NanoSpinState m n) (delta : NanoRows m N) : Except PyErr (NanoSpinState m n × Option ℝ × NanoRows m N) := do
  let s ← s.dmftStep P delta
  let (s, occp) ← match P.adjust with
    | some root => do
      let mu ← root s.loc
      let s := { s with loc := { s.loc with g := { s.loc.g with mu := mu } } }
      let o ← P.integrate s.loc
      pure (s, some o)
    | none => pure (s, P.goal)
  let dnew ← s.loc.delta N P.beta P.junk
  pure (s, occp, dnew)

/-- Outcome of a call. Source: `edpyt/dmft.py:444-460`. -/
inductive NanoSpinOut (m N : ℕ)
  | value (delta : NanoRows m N)
  | converged
  | failed
  | typeError

/-- `DMFT.__call__`, `edpyt/dmft.py:444-460`. `np.linalg.norm` of an array with three axes is the root of the sum of squares. -/
def NanoSpinState.call {m n N : ℕ} (P : NanoSpinPar m n N) (s : NanoSpinState m n) (delta : NanoRows m N) : Except PyErr (NanoSpinState m n × NanoSpinOut m N) := do
  let (s, occp, dnew) ← s.step P delta
  match occp with
  | none => pure (s, .typeError)
  | some _ =>
    if Real.sqrt (∑ u, ∑ b, ∑ k, Complex.normSq (dnew u b k - delta u b k)) < P.tol then pure (s, .converged)
    else if s.it + 1 > P.maxIter then pure ({ s with it := s.it + 1 }, .failed)
    else pure ({ s with it := s.it + 1 }, .value dnew)

end

end Edpyt
