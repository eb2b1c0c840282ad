import Verif.Model.Observs
/-!
# `Gfimp.get_local_moments`, `edpyt/nano_dmft.py:198-204`
-/

namespace Edpyt

/-- What `get_local_moments` reads of a solved impurity: `espace` (as `get_occupation` sees it), `egs`, `beta` and `n`. Source: `edpyt/nano_dmft.py:198-204`. -/
structure SolvedImp where
  espace : List OccSct
  egs : ℝ
  beta : ℝ
  n : ℕ

/-- `Gfimp.get_local_moments`, `edpyt/nano_dmft.py:198-204`: `self.beta` and `self.n` are attributes of the first impurity (`__getattr__`, line 159). The arrays that
`get_occupation` may reshape in place are not returned. -/
noncomputable def getLocalMoments (imps : List SolvedImp) : Except PyErr (List ℝ) :=
  imps.mapM fun gf =>
    match imps with
    | [] => .error .indexError
    | first :: _ => do
      let (nup, ndw, _) ← getOccupation gf.espace gf.egs first.beta first.n
      if first.n = 0 then .error .indexError
      pure (nup 0 - ndw 0)

end Edpyt
