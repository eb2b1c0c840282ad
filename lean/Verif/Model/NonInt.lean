import Verif.Model.Espace
/-!
Model of `build_non_interacting_espace`, `edpyt/espace.py:174-199`, with `sum_diags_contrib` and `add_onsites` of
`edpyt/build_mb_ham.py`. The decorators of these functions do not enable parallel execution, so `prange` is `range`.
-/
namespace Edpyt

/-- `s >> i` in compiled code: shifts by 64 or more are undefined (modelled by an arbitrary value). Source: `edpyt/build_mb_ham.py:99-102`. -/
def shr64 (junk : ℕ → ℕ → ℕ) (s i : ℕ) : ℕ := if i < 64 then s >>> i else junk s i

/-- `sum_diags_contrib`, `edpyt/build_mb_ham.py:78-102`. -/
noncomputable def sumDiags (junk : ℕ → ℕ → ℕ) (diags : List ℝ) (s : ℕ) : ℝ :=
  (List.range diags.length).foldl (fun res i => if (shr64 junk s i) &&& 1 ≠ 0 then res + diags[i]?.getD 0 else res) 0

/-- `add_onsites`, `edpyt/build_mb_ham.py:105-130`: new content of `vec_diag`. -/
noncomputable def addOnsites (junk : ℕ → ℕ → ℕ) (ener : List ℝ × List ℝ) (ints : List ℝ) (up dw : List ℕ) (vec : List ℝ) (hfshift : ℝ) : List ℝ :=
  let vecUp := up.map fun sup => sumDiags junk ener.1 sup
  runOps (dw.zipIdx.flatMap fun (sdw, idw) => up.zipIdx.map fun (sup, iup) =>
    { loc := iup + idw * up.length,
      f := fun _ => vecUp[iup]?.getD 0 + sumDiags junk ener.2 sdw + sumDiags junk ints (sup &&& sdw) + hfshift }) vec

/-- One row of `np.tile(ek, (2, n))`: `n` copies of `ek`. Source: `edpyt/espace.py:189`. -/
def tileRow (ek : List ℝ) : List ℝ := (List.replicate ek.length ek).flatten

/-- One pass of the loop, `edpyt/espace.py:190-198`; `eigvals = np.empty(d)` is arbitrary, `eigvals.sort()` sorts it.
The field `eigvecs` stays `None` (here: empty). -/
noncomputable def nonIntStep (junk : ℕ → ℕ → ℕ) (fresh : ℕ → ℝ) (ek : List ℝ) (st : Espace (ℕ × ℕ) × WithTop ℝ)
    (x : (ℕ × ℕ) × SectorStates × ℕ) : Except PyErr (Espace (ℕ × ℕ) × WithTop ℝ) :=
  match x.2.1 with
  | .spin up dw =>
    let vals := addOnsites junk (tileRow ek, tileRow ek) (ek.map fun _ => 0) up dw ((List.range x.2.2).map fresh) 0
    let vals := vals.insertionSort (· ≤ ·)
    .ok (dictSet st.1 x.1 ⟨x.2.1, x.2.2, vals, []⟩, min (eigMin vals) st.2)
  | .total _ => .error .attributeError

/-- `build_non_interacting_espace(ek)`. Source: `edpyt/espace.py:174-199`. -/
noncomputable def buildNonInteracting (w : ℕ) (junk : ℕ → ℕ → ℕ) (fresh : ℕ → ℝ) (ek : List ℝ) :
    Except PyErr (Espace (ℕ × ℕ) × WithTop ℝ) := do
  let xs ← szIterSectors w ek.length
  forM' (nonIntStep junk fresh ek) xs ([], ⊤)

end Edpyt
