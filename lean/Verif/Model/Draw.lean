import Verif.Model.Observs
/-!
Model of `draw_spin_density`, `edpyt/cotools.py:47-65`, without the skeleton: the list of circles that are added to the axes. `scale` does not occur in the body.
-/
namespace Edpyt

/-- `np.atleast_2d(A)`. A vector becomes a view with one row; a contiguous one is contiguous in both orders, so that `flags.f_contiguous` holds. Source: `edpyt/cotools.py:57`. -/
def atleast2d (A : NdArr) : NdArr :=
  match A.shape with
  | [] => { A with shape := [1, 1], lay := .F }
  | [d] => { A with shape := [1, d], lay := if A.lay = .strided then .strided else .F }
  | _ => A

/-- A circle: the site at which it is drawn, its radius, and whether its colour is `'gray'` (otherwise `'black'`). Source: `edpyt/cotools.py:59-64`. -/
structure Circle where
  site : ℕ
  radius : ℝ
  gray : Bool

/-- `draw_spin_density(atoms, evec, states, n, subset)`, `edpyt/cotools.py:47-65`; `npos` is `len(positions)`. -/
def drawSpinDensity (npos : ℕ) (evec : NdArr) (up dw : List ℕ) (n : ℕ) : Except PyErr (List Circle) := do
  if npos ≠ n then .error .assertionError
  else
    let r ← evecsOccupation (atleast2d evec) up dw n none
    pure ((List.range n).map (fun i => ⟨i, r.1 i 0, false⟩) ++ (List.range n).map fun i => ⟨i, r.2.1 i 0, true⟩)

end Edpyt
