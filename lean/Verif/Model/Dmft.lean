import Verif.Model.Py
import Mathlib.Analysis.Complex.Basic
import Mathlib.Analysis.Real.Sqrt
/-!
Model of the impurity and lattice objects and of the self-consistency loop of `edpyt/dmft.py`, and of `build_siam` of
`edpyt/dedlib.py`. Arrays are functions of their indices, complex numbers are exact.
-/
namespace Edpyt

/-! ### The impurity object -/

/-- State of a `Gfimp`: the `n × n` array `H` and the bath parameters `Delta.x`, split in `ek` and `vk` (both of length
`n-1`), `edpyt/dmft.py:36-61,78-88`. -/
structure Imp where
  H : ℕ → ℕ → ℝ
  ek : ℕ → ℝ
  vk : ℕ → ℝ

/-- `Gfimp.__init__`, `edpyt/dmft.py:78-88`: `H` is zero, the bath is the initial bath `ek0, vk0`. -/
def Imp.init (ek0 vk0 : ℕ → ℝ) : Imp := ⟨fun _ _ => 0, ek0, vk0⟩

/-- `H[1:, 0] = H[0, 1:] = vk` on an `n × n` array, `edpyt/dmft.py:116`. -/
def setArms (n : ℕ) (H : ℕ → ℕ → ℝ) (vk : ℕ → ℝ) : ℕ → ℕ → ℝ := fun i j =>
  if j = 0 ∧ 1 ≤ i ∧ i < n then vk (i - 1) else if i = 0 ∧ 1 ≤ j ∧ j < n then vk (j - 1) else H i j

/-- `H.flat[(n + 1) :: (n + 1)] = ek`, `edpyt/dmft.py:117`: element `k` goes to flat position `(k+1)(n+1)`. -/
def setFlatDiag (n : ℕ) (H : ℕ → ℕ → ℝ) (ek : ℕ → ℝ) : ℕ → ℕ → ℝ := fun i j =>
  if j < n ∧ (i * n + j) % (n + 1) = 0 ∧ n + 1 ≤ i * n + j ∧ i * n + j < n * n then ek ((i * n + j) / (n + 1) - 1) else H i j

/-- The methods that change the object. Source: `edpyt/dmft.py:100-125`. -/
inductive ImpOp
  | fit (ek vk : ℕ → ℝ)
  | update (mu : ℝ)
  | resetBath (ek0 vk0 : ℕ → ℝ)

/-- `Gfimp.fit`, `update` and `reset_bath`, `edpyt/dmft.py:98-123`. The parameters found by the minimisation of
`Delta.fit` are arguments (any minimiser). -/
def Imp.step (n : ℕ) (s : Imp) : ImpOp → Imp
  | .fit ek vk => ⟨setFlatDiag n (setArms n s.H vk) ek, ek, vk⟩
  | .update mu => { s with H := fun i j => if i = 0 ∧ j = 0 then -mu else s.H i j }
  | .resetBath ek0 vk0 => { s with ek := ek0, vk := vk0 }

/-- The object after a history of calls. Source: `edpyt/dmft.py:62-171`. -/
def Imp.run (n : ℕ) (s : Imp) (ops : List ImpOp) : Imp := ops.foldl (Imp.step n) s

/-- `_delta(p, z)`, `edpyt/fit_cg.py:9-17`, for one `z`. -/
noncomputable def deltaEval (nb : ℕ) (ek vk : ℕ → ℝ) (z : ℂ) : ℂ :=
  (List.range nb).foldl (fun out j => out + ((vk j : ℂ) ^ 2) / (z - ek j)) 0

/-- `free(z, inverse=True)`, `edpyt/dmft.py:130-138`. -/
noncomputable def Imp.freeInv (n : ℕ) (s : Imp) (z : ℂ) : ℂ := z - s.H 0 0 - deltaEval (n - 1) s.ek s.vk z

/-- `free(z)`. Source: `edpyt/dmft.py:127-135`. -/
noncomputable def Imp.free (n : ℕ) (s : Imp) (z : ℂ) : ℂ := (s.freeInv n z)⁻¹

/-- `Sigma(z)`, `edpyt/dmft.py:147-152`; `gf` is the function set by `solve`. -/
noncomputable def Imp.sigma (n : ℕ) (s : Imp) (gf : ℂ → ℂ) (z : ℂ) : ℂ := s.freeInv n z - (gf z)⁻¹

/-- `__call__(z)`, `edpyt/dmft.py:140-145`. -/
noncomputable def Imp.call (n : ℕ) (s : Imp) (gf : ℂ → ℂ) (z : ℂ) : ℂ :=
  (z - s.H 0 0 - deltaEval (n - 1) s.ek s.vk z - s.sigma n gf z)⁻¹

/-- `build_siam(H, V, U, gfimp)`, `edpyt/dedlib.py:192-201`: the one-body array. `vk = np.sqrt(gfimp.vk2)`. -/
noncomputable def buildSiam (n : ℕ) (H : ℕ → ℕ → ℝ) (e0 : ℝ) (ek vk2 : ℕ → ℝ) : ℕ → ℕ → ℝ :=
  let H := setArms n H fun k => -Real.sqrt (vk2 k)
  let H := setFlatDiag n H ek
  fun i j => if i = 0 ∧ j = 0 then e0 else H i j

/-! ### The lattice objects -/

/-- A local Green function object of `edpyt/dmft.py:266-346`: how `self(z, inverse=True)` depends on `mu` and `Sigma`, and
the attributes, which exist only after they were set. -/
structure Loc where
  inv : ℂ → (ℂ → ℂ) → ℂ → ℂ
  mu : Option ℂ
  sigma : Option (ℂ → ℂ)
  ed : Option ℂ

/-- `Gfhybrid(Hybrid)`, `edpyt/dmft.py:297-320`. -/
noncomputable def gfhybrid (hyb : ℂ → ℂ) : Loc := ⟨fun mu sig z => z + mu - hyb z - sig z, none, none, none⟩

/-- `Gfhilbert(hilbert)`, `edpyt/dmft.py:323-346`. -/
noncomputable def gfhilbert (ht : ℂ → ℂ) : Loc := ⟨fun mu sig z => (ht (z + mu - sig z))⁻¹, none, none, none⟩

/-- `Weiss(z)`, `edpyt/dmft.py:285-288`. -/
noncomputable def Loc.weiss (g : Loc) (z : ℂ) : Except PyErr ℂ :=
  match g.mu, g.sigma with
  | some mu, some sig => .ok (sig z + g.inv mu sig z)
  | _, _ => .error .attributeError

/-- `Delta(z)`, `edpyt/dmft.py:278-283`. -/
noncomputable def Loc.delta (g : Loc) (z : ℂ) : Except PyErr ℂ :=
  match g.mu with
  | some mu => do let w ← g.weiss z; pure (z + mu - w)
  | none => .error .attributeError

/-- `self(z)`: the reciprocal of `self(z, inverse=True)`. Source: `edpyt/dmft.py:309-314,335-340`. -/
noncomputable def Loc.call (g : Loc) (z : ℂ) : Except PyErr ℂ :=
  match g.mu, g.sigma with
  | some mu, some sig => .ok (g.inv mu sig z)⁻¹
  | _, _ => .error .attributeError

/-- `DMFT.initialize`, `edpyt/dmft.py:414-421`, up to and including `self.gfimp.update(mu - self.gfloc.ed)`: the lattice
object and the value passed to `update`. -/
noncomputable def dmftInitialize (g : Loc) (U : ℂ) (Sigma : ℂ → ℂ) (mu : Option ℂ) : Except PyErr (Loc × ℂ) :=
  let m := mu.getD (U / 2)
  let g := { g with sigma := some Sigma, mu := some m }
  match g.ed with
  | some ed => .ok (g, m - ed)
  | none => .error .attributeError

/-! ### The loop -/

/-- `np.linalg.norm(delta_new - delta)`. Source: `edpyt/dmft.py:453`. -/
noncomputable def deltaNorm (dnew d : List ℂ) : ℝ := Real.sqrt ((List.zipWith (fun a b => Complex.normSq (a - b)) dnew d).sum)

/-- Outcome of one call of the `DMFT` object. Source: `edpyt/dmft.py:444-460`. -/
inductive CallOut
  | value (delta : List ℂ)
  | converged
  | failed
  | typeError

/-- `delta[non_causal].imag = -1e-20`, `edpyt/dmft.py:447-448`: indexing with a mask makes a new array, whose imaginary
parts are set; the pair is (the new array, `delta` afterwards). -/
noncomputable def clampNonCausal (delta : List ℂ) : List ℂ × List ℂ :=
  let copy := delta.filter fun d => decide (d.im > 0)
  (copy.map fun d => ⟨d.re, -1e-20⟩, delta)

/-- `DMFT.__call__`, `edpyt/dmft.py:444-460`, as a function of the counter `it`, with the arbitrary result of `self.step`;
the first component of `step`'s result is `np.sum(occp)`, which is `None` when there is no `occupancy_goal` and `adjust_mu` is
off, and then formatting it raises `TypeError`. -/
noncomputable def dmftCall (tol : ℝ) (maxIter : ℕ) (step : List ℂ → Option ℝ × List ℂ) (it : ℕ) (delta : List ℂ) : ℕ × CallOut :=
  let delta := (clampNonCausal delta).2
  let (occp, dnew) := step delta
  match occp with
  | none => (it, .typeError)
  | some _ =>
    if deltaNorm dnew delta < tol then (it, .converged)
    else if it + 1 > maxIter then (it + 1, .failed)
    else (it + 1, .value dnew)

/-- A driver (`broyden1`, `linearmixing`) calls the object again and again, with arguments it chooses, until a call raises:
`step k` is what `self.step` does at call `k` and `arg k` the argument. The result is the number of calls made and the
outcome of the last one, or `none` after `fuel` calls without exception. Source: `edpyt/dmft.py:462-475`. -/
noncomputable def dmftDrive (tol : ℝ) (maxIter : ℕ) (step : ℕ → List ℂ → Option ℝ × List ℂ) (arg : ℕ → List ℂ) :
    ℕ → ℕ → ℕ → Option (ℕ × CallOut)
  | 0, _, _ => none
  | fuel + 1, k, it =>
    match dmftCall tol maxIter (step k) it (arg k) with
    | (it', .value _) => dmftDrive tol maxIter step arg fuel (k + 1) it'
    | (_, out) => some (k + 1, out)

end Edpyt
