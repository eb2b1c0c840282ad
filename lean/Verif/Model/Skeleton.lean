import Verif.Model.Py
import Mathlib.Data.Real.Basic
/-!
Model of `draw_skeleton` and `draw_feynman_dyson_orbital`, `edpyt/cotools.py:7-44`: the lines and circles that are added to the axes. ASE's neighbour list is a parameter:
`nl a` are the indices that `nl.get_neighbors(a)[0]` returns.
-/
namespace Edpyt

/-- `'xyz'.index(c)`, `edpyt/cotools.py:9` and `38`. -/
def axisIndex : Char → Except PyErr ℕ
  | 'x' => .ok 0
  | 'y' => .ok 1
  | 'z' => .ok 2
  | _ => .error .valueError

/-- The loop over the atoms, `edpyt/cotools.py:12-19`: the pairs `(i[k], j[k])`. `nn.any()` asks for an entry that is not zero. -/
def skeletonPairs (n : ℕ) (nl : ℕ → List ℕ) : List (ℕ × ℕ) :=
  (List.range n).foldl (fun ij a =>
    let nn := (nl a).filter (a < ·)
    if nn.any (· ≠ 0) then ij ++ nn.map fun j => (a, j) else ij) []

/-- `pos[i,0]` etc. of a list of pairs, `edpyt/cotools.py:20-21`: the four rows of `vstack`, transposed and reshaped to `links[k] = [[x_i, x_j], [y_i, y_j]]`. -/
def skeletonLinks (pos : ℕ → ℕ → ℝ) (ax : ℕ × ℕ) (ij : List (ℕ × ℕ)) : List ((ℝ × ℝ) × (ℝ × ℝ)) :=
  ij.map fun p => ((pos p.1 ax.1, pos p.2 ax.1), (pos p.1 ax.2, pos p.2 ax.2))

/-- A line drawn by `axes.plot([x, x'], [y, y'])`: its two end points `(x, y)` and `(x', y')`. Source: `edpyt/cotools.py:22-23`. -/
structure Segment where
  start : ℝ × ℝ
  stop : ℝ × ℝ

/-- `draw_skeleton(atoms, axes, plane)`, `edpyt/cotools.py:7-26`: `plane = p0 p1`, `pos i c` is `atoms.positions[i,c]`. -/
def drawSkeleton (n : ℕ) (nl : ℕ → List ℕ) (pos : ℕ → ℕ → ℝ) (p0 p1 : Char) : Except PyErr (List Segment) := do
  let a0 ← axisIndex p0
  let a1 ← axisIndex p1
  pure ((skeletonLinks pos (a0, a1) (skeletonPairs n nl)).map fun l => ⟨(l.1.1, l.2.1), (l.1.2, l.2.2)⟩)

/-- A filled circle: centre, radius and whether its colour is `'r'` (otherwise `'b'`). Source: `edpyt/cotools.py:41-42`. -/
structure Disc where
  centre : ℝ × ℝ
  radius : ℝ
  red : Bool

/-- `draw_feynman_dyson_orbital(atoms, v, subset, axes, plane, scale)`, `edpyt/cotools.py:29-44`: the lines and the circles. `subset` is the list of the atoms that
`atoms[subset]` selects. -/
noncomputable def drawOrbital (n : ℕ) (nl : ℕ → List ℕ) (pos : ℕ → ℕ → ℝ) (subset : List ℕ) (v : List ℝ) (p0 p1 : Char) (scale : ℝ) :
    Except PyErr (List Segment × List Disc) := do
  if subset.length ≠ v.length then .error .assertionError
  else
    let lines ← drawSkeleton n nl pos p0 p1
    let a0 ← axisIndex p0
    let a1 ← axisIndex p1
    pure (lines, (subset.zip v).map fun q => ⟨(pos q.1 a0, pos q.1 a1), scale * q.2 ^ 2, decide (0 < q.2)⟩)

end Edpyt
