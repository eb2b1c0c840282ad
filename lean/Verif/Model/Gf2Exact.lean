import Verif.Model.GfExact
import Verif.Model.Sector
/-!
Model of `edpyt/gf2_exact.py`.
-/
namespace Edpyt

/-- `[project_exact_up, project_exact_dw][ispin]`, `edpyt/gf2_exact.py:25`; `ispin` is `0` (`false`) or `1` (`true`). -/
noncomputable def projectPick (junk n : ℕ) (ispin : Bool) (pos : ℕ) (op : Ladder) (I J : Sct) : Except PyErr (ℕ → ℕ → ℝ) :=
  if ispin then projectExactDw junk pos n op I J else projectExactUp junk pos n op I J

/-- The loop body over the pairs of sites, `edpyt/gf2_exact.py:41-44`. The state holds `(lambdas[p1,p2], qs[p1,p2])`; a key that a
`defaultdict(list)` does not hold reads as the empty list. -/
noncomputable def gf2ExactPair (junk n : ℕ) (beta egs : ℝ) (ispin : Bool) (I J : Sct) (st : ℕ × ℕ → List ℝ × List ℝ) (p : ℕ × ℕ) :
    Except PyErr (ℕ × ℕ → List ℝ × List ℝ) := do
  let EI := fun k => (I.eigvals[k]?.getD 0) - egs
  let EJ := fun j => (J.eigvals[j]?.getD 0) - egs
  let P1 ← projectPick junk n ispin p.1 .c J I
  let P2 ← projectPick junk n ispin p.2 .cdg I J
  let idx := ndindex2 J.eigvals.length I.eigvals.length
  pure (Function.update st p ((st p).1 ++ idx.map (fun jk => EJ jk.1 - EI jk.2),
    (st p).2 ++ idx.map (fun jk => P1 jk.2 jk.1 * P2 jk.1 jk.2 * (Real.exp (-beta * EJ jk.1) + Real.exp (-beta * EI jk.2)))))

/-- One pass of the loop over the sectors, `edpyt/gf2_exact.py:31-44`. -/
noncomputable def gf2ExactStep (junk n : ℕ) (es : Espace (ℕ × ℕ)) (beta egs : ℝ) (ispin : Bool) (st : ℕ × ℕ → List ℝ × List ℝ)
    (item : (ℕ × ℕ) × Sct) : Except PyErr (ℕ × ℕ → List ℝ × List ℝ) :=
  match getCdgSector n item.1.1 item.1.2 (if ispin then 1 else 0) with
  | .error .outOfHilbert => .ok st
  | .error e => .error e
  | .ok (nupJ, ndwJ) => do
    let sctJ ← dictGet es (nupJ.toNat, ndwJ.toNat)
    forM' (gf2ExactPair junk n beta egs ispin item.2 sctJ) (ndindex2 n n) st

/-- `build_gf2_exact`, `edpyt/gf2_exact.py:23-51`: the array of Green functions held by the `Gf2` that it returns. `Gf2.__call__`,
`edpyt/gf2_exact.py:16-21`, evaluates each of them. -/
noncomputable def buildGf2Exact (junk n : ℕ) (es : Espace (ℕ × ℕ)) (beta egs : ℝ) (ispin : Bool) : Except PyErr (ℕ → ℕ → GfEx) := do
  let st ← forM' (gf2ExactStep junk n es beta egs ispin) es (fun _ => ([], []))
  pure fun p1 p2 => ⟨(st (p1, p2)).2, (st (p1, p2)).1, partition es beta egs⟩

end Edpyt
