import Verif.Model.NanoOcc
import Verif.Model.NanoSpin
/-!
Occupations of the nano lattice with self-energies of both spins, and with the sites divided among MPI ranks, `edpyt/nano_dmft.py:25-38,136-150`.
-/
namespace Edpyt

noncomputable section

/-- Row `u`, spin `s` of `integrate_gf(self, mu)` in `get_occps`, `edpyt/nano_dmft.py:35-37`, when `self.Sigma(zs)` has shape `(m, 2, nz)`. -/
def NanoLoc.occSpin {n : ℕ} (g : NanoLoc n) (m : ℕ) (Sigma : List ℂ → ℕ → ℕ → ℕ → ℂ) (junk : ℕ → ℕ → ℕ → ℂ) (mu : ℝ) (u s : ℕ) : Except PyErr ℝ :=
  (matsumGf (fun x z =>
    let zs := (List.range 3000).map z
    (NanoLoc.callSpin { g with mu := x } m (Sigma zs) zs junk).map fun G c => G u s c) g.mu mu 3000 70).1

/-- `np.squeeze(occps[self.idx_inv,...])` for an array of shape `(sites, 2)`, followed by `integrate`, `edpyt/nano_dmft.py:37,149-151`. With one site the first axis is dropped: the two
spins are then taken for two sites, and doubled. -/
def squeezeSpins (occ : List (ℝ × ℝ)) : List ℝ :=
  match occ with
  | [x] => [2 * x.1, 2 * x.2]
  | _ => occ.map fun x => x.1 + x.2

/-- `integrate`, `edpyt/nano_dmft.py:136-150`, with self-energies of both spins and without MPI. -/
def NanoLoc.integrateSpin {n : ℕ} (g : NanoLoc n) (m : ℕ) (Sigma : List ℂ → ℕ → ℕ → ℕ → ℂ) (junk : ℕ → ℕ → ℕ → ℂ) (mu : ℝ) : Except PyErr (List ℝ) := do
  let occ ← (List.range g.idxNeq.length).mapM fun u => do
    let a ← g.occSpin m Sigma junk mu u 0
    let b ← g.occSpin m Sigma junk mu u 1
    pure (a, b)
  let rows ← g.idxInv.mapM fun i => match occ[i]? with | some x => .ok x | none => .error .indexError
  pure (squeezeSpins rows)

/-- Row `u` of `integrate_gf(self, mu)` on rank `rank`, `edpyt/nano_dmft.py:26-27`; `SigmaLoc r zs` is `self.Sigma(zs)` on rank `r`. -/
def NanoLoc.occRowMpi {n : ℕ} (g : NanoLoc n) (size rank : ℕ) (SigmaLoc : ℕ → List ℂ → ℕ → ℕ → ℂ) (junk : ℕ → ℕ → ℂ) (mu : ℝ) (u : ℕ) : Except PyErr ℝ :=
  (matsumGf (fun x z =>
    let zs := (List.range 3000).map z
    (NanoLoc.callMpi { g with mu := x } size rank (fun r => SigmaLoc r zs) zs junk).map fun G c => G u c) g.mu mu 3000 70).1

/-- `integrate`, `edpyt/nano_dmft.py:136-150`, with MPI and one spin: `Allgather` collects the rows of all ranks, `edpyt/nano_dmft.py:26-33`, so the result is the same on every rank.
`junk r` is the content of the output array on rank `r`. An exception on any rank is an exception of the program. -/
def NanoLoc.integrateMpi {n : ℕ} (g : NanoLoc n) (size : ℕ) (SigmaLoc : ℕ → List ℂ → ℕ → ℕ → ℂ) (junk : ℕ → ℕ → ℕ → ℂ) (mu : ℝ) : Except PyErr (List ℝ) := do
  let stride := g.idxNeq.length / size
  let occ ← (List.range (size * stride)).mapM (allgather stride fun rank u => g.occRowMpi size rank SigmaLoc (junk rank) mu u)
  g.idxInv.mapM fun i => match occ[i]? with | some x => .ok (2 * x) | none => .error .indexError

end

end Edpyt
