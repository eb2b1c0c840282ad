import Verif.Model.Py
import Mathlib.Analysis.SpecialFunctions.Pow.Real
import Mathlib.Data.Complex.Basic
/-!
Model of `Gf0`, `Gfimp`, `build_siam` and `build_moam` of `edpyt/dedlib.py`. The root finder `scipy.optimize.fsolve` is a parameter.
-/
namespace Edpyt

/-- `Gf0.__call__`, `edpyt/dedlib.py:91-92`, at one point. -/
noncomputable def gf0Call {K : Type} [Field K] (poles : List K) (z : K) : K := 1 / (poles.length : K) * (poles.map fun p => (z - p)⁻¹).sum

/-- `Gf0.derivative`, `edpyt/dedlib.py:94-95`. -/
noncomputable def gf0Derivative (poles : List ℝ) (z0 : ℝ) : ℝ := (poles.map fun p => -1 / (z0 - p) ^ 2).sum / poles.length

/-- The attributes of a `Gfimp`. Source: `edpyt/dedlib.py:99-131`. -/
structure Gfimp where
  ek : List ℝ
  vk2 : List ℝ
  e0 : ℝ

/-- `Gfimp.fit`, `edpyt/dedlib.py:112-124`. Each pass of the loop writes its own elements of `ek` and `vk2`; both arrays have `n - 1`
elements, as they have in `siam_solve` and `moam_solve`. -/
noncomputable def gfimpFit (fsolve : (ℝ → ℝ) → ℝ → ℝ) (poles : List ℝ) : Gfimp :=
  let n := poles.length
  let ek := (List.range (n - 1)).map fun i => fsolve (gf0Call poles) ((poles[i + 1]?.getD 0 + poles[i]?.getD 0) / 2)
  { ek := ek, vk2 := ek.map fun e => -1 / gf0Derivative poles e, e0 := poles.sum / n }

/-- `Gfimp.delta` and `Gfimp.__call__`, `edpyt/dedlib.py:126-130`, at one point. -/
noncomputable def gfimpCall (g : Gfimp) (z : ℂ) : ℂ :=
  (z - (g.e0 : ℂ) - (List.zipWith (fun v e : ℝ => (v : ℂ) * (z - (e : ℂ))⁻¹) g.vk2 g.ek).sum)⁻¹

/-- `build_siam`, `edpyt/dedlib.py:192-201`: new contents of the `n × n` arrays `H` and `V`. Bath arrays that do not have `n - 1` elements are
taken to raise (NumPy would repeat an array of one element). -/
noncomputable def dedBuildSiam (n : ℕ) (H V : ℕ → ℕ → ℝ) (U : ℝ) (g : Gfimp) : Except PyErr ((ℕ → ℕ → ℝ) × (ℕ → ℕ → ℝ)) :=
  if g.vk2.length ≠ n - 1 ∨ g.ek.length ≠ n - 1 then .error .valueError else
  let vk := g.vk2.map Real.sqrt
  let H1 : ℕ → ℕ → ℝ := fun i j => if i = 0 ∧ 1 ≤ j then -(vk[j - 1]?.getD 0) else H i j
  let H2 : ℕ → ℕ → ℝ := fun i j => if 1 ≤ i ∧ j = 0 then -(vk[i - 1]?.getD 0) else H1 i j
  let H3 : ℕ → ℕ → ℝ := fun i j => if n + 1 ≤ i * n + j ∧ (i * n + j) % (n + 1) = 0 then g.ek[(i * n + j) / (n + 1) - 1]?.getD 0 else H2 i j
  let H4 : ℕ → ℕ → ℝ := fun i j => if i = 0 ∧ j = 0 then g.e0 else H3 i j
  .ok (H4, fun i j => if i = 0 ∧ j = 0 then U else V i j)

/-- One pass of the loop of `build_moam`, `edpyt/dedlib.py:289-298`, for an `n × n` array. Bath arrays that do not fit raise (NumPy would repeat an array of one element). -/
noncomputable def moamStep (n nimp : ℕ) (H : ℕ → ℕ → ℝ) (gi : Gfimp × ℕ) : Except PyErr (ℕ → ℕ → ℝ) :=
  let g := gi.1
  let i := gi.2
  let vk := g.vk2.map Real.sqrt
  let nbath := vk.length
  let bl := i * nbath + nimp
  let bh := bl + nbath
  if n < bh ∨ g.ek.length ≠ nbath then .error .valueError else
  let H1 : ℕ → ℕ → ℝ := fun r c => if c = i ∧ bl ≤ r ∧ r < bh then -(vk[r - bl]?.getD 0) else H r c
  let H2 : ℕ → ℕ → ℝ := fun r c => if r = i ∧ bl ≤ c ∧ c < bh then -(vk[c - bl]?.getD 0) else H1 r c
  let dl := (nimp + i * nbath) * (n + 1)
  let dh := dl + nbath * (n + 1)
  let H3 : ℕ → ℕ → ℝ := fun r c => if dl ≤ r * n + c ∧ r * n + c < dh ∧ (r * n + c - dl) % (n + 1) = 0 then g.ek[(r * n + c - dl) / (n + 1)]?.getD 0 else H2 r c
  .ok fun r c => if r = i ∧ c = i then g.e0 else H3 r c

/-- `build_moam`, `edpyt/dedlib.py:278-298`: new contents of the `n × n` array `H`. -/
noncomputable def buildMoam (n : ℕ) (H : ℕ → ℕ → ℝ) (gfimp : List Gfimp) : Except PyErr (ℕ → ℕ → ℝ) :=
  forM' (moamStep n gfimp.length) gfimp.zipIdx H

/-- `get_occupation`, `edpyt/dedlib.py:134-153`. `occps[r, c]` of the reshaped array is element `r * dup + c`. -/
def dedOccupation (vector : ℕ → ℝ) (statesUp statesDw : List ℕ) (pos : ℕ) : Except PyErr ℝ := do
  let dup := statesUp.length
  let dwn := statesDw.length
  let occps : ℕ → ℕ → ℝ := fun r c => vector (r * dup + c) ^ 2
  let N ← forM' (fun N iup => do
    let sup ← getItem statesUp (iup : ℕ)
    pure (if (sup >>> pos) &&& 1 ≠ 0 then N + ((List.range dwn).map fun r => occps r iup).sum else N)) (List.range dup) 0
  forM' (fun N idw => do
    let sdw ← getItem statesDw (idw : ℕ)
    pure (if (sdw >>> pos) &&& 1 ≠ 0 then N + ((List.range dup).map fun c => occps idw c).sum else N)) (List.range dwn) N

end Edpyt
