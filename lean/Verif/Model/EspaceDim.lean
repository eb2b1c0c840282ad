import Verif.Model.Sector
import Verif.Model.Lookup
import Verif.Model.Py
/-!
Model of `get_espace_dim`, `edpyt/espace.py:89-108`.
-/
namespace Edpyt

/-- The `symmetry` argument after `.lower()`/`.upper()` (`edpyt/espace.py:91,96`). -/
inductive Symm | sz | N | other
  deriving DecidableEq, Repr

/-- The clipping step, `edpyt/espace.py:104-106`; `if neig_max:` skips both `None` and `0`. -/
def clipDim (neigMax : Option ℕ) (a : List ℕ) : List ℕ :=
  match neigMax with
  | some (m + 1) => a.map fun d => if d ≤ m + 1 then d else m + 1
  | _ => a

/-- One pass of the loop `for nup, ndw in np.ndindex(n+1,n+1)`, `edpyt/espace.py:93-94`. -/
def dimStep (n : ℕ) (a : List ℕ) (p : ℕ × ℕ) : Except PyErr (List ℕ) :=
  match getSectorIndex n p.1 p.2 with
  | .ok i => setItem a i (getSectorDim n p.1 p.2)
  | .error e => .error e

/-- `get_espace_dim`, `edpyt/espace.py:89-108`. -/
def getEspaceDim (n : ℕ) (neigMax : Option ℕ) (sym : Symm) : Except PyErr (List ℕ) :=
  match sym with
  | .sz =>
    (forM' (dimStep n) (ndindex2 (n + 1) (n + 1)) (List.replicate ((n + 1) * (n + 1)) 0)).map (clipDim neigMax)
  | .N =>
    (forM' (fun (a : List ℕ) (k : ℕ) => setItem a k (binom (2 * n) k))
      (List.range (2 * n + 1)) (List.replicate (2 * n + 1) 0)).map (clipDim neigMax)
  | .other => .error .notImplemented

end Edpyt
