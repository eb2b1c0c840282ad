import Verif.Model.Lanczos
import Verif.Model.Espace
/-!
# The second Lanczos pass, `edpyt/lanczos.py:126-182`, and `edpyt/tridiag.py`
-/

namespace Edpyt

/-- The tridiagonal matrix with diagonal `a` and off-diagonal `b`, the argument of the LAPACK routines in `edpyt/tridiag.py:13-31`. -/
noncomputable def tridiagDense (a b : List ℝ) : Dense ℝ :=
  ⟨a.length, fun i j => if i = j then a[i]?.getD 0 else if i + 1 = j then b[i]?.getD 0 else if j + 1 = i then b[j]?.getD 0 else 0⟩

/-- `eigh_tridiagonal(a, b, select, select_range)` with eigenvectors, `edpyt/tridiag.py:34-53`, as a contract of the LAPACK routines `stemr` (`select = 0`) and
`stebz`/`stein` (`select = 2`): part of a complete diagonalisation. An index range must lie inside the spectrum; `select_range` is `(lo, hi)`. -/
def EighTridiagonal (a b : List ℝ) (select lo hi : ℕ) (r : Except PyErr (List ℝ × List (ℕ → ℝ))) : Prop :=
  if select = 0 then ∃ W V, Eigh (tridiagDense a b) W V ∧ r = .ok (W, V)
  else if select = 2 then ∃ W V, Eigh (tridiagDense a b) W V ∧ r = .ok ((W.take (hi + 1)).drop lo, (V.take (hi + 1)).drop lo)
  else r = .error .assertionError

/-- What `sl_solve` returns: eigenvalues and vectors, or (see below) one number. Source: `edpyt/lanczos.py:135-182`. -/
inductive SlRes (V : Type)
  | pair (w : List ℝ) (x : List V)
  | number (w : ℝ)

/-- The loop `for n in range(a.size)` of `sl_solve` with `_kron`, `edpyt/lanczos.py:126-132,178-181`: the vectors `v`, `l` and the rows of `r`. -/
noncomputable def slSecond {ι : Type} [Fintype ι] (matvec : (ι → ℝ) → (ι → ℝ)) (U : List (ℕ → ℝ)) (m : ℕ) (v0 : ι → ℝ) : (ι → ℝ) × (ι → ℝ) × List (ι → ℝ) :=
  (List.range m).foldl (fun st n =>
    let s := slStep matvec st.1 st.2.1
    (s.2.2.2, s.2.2.1, List.zipWith (fun u r => r + u n • s.2.2.1) U st.2.2)) (v0, 0, U.map fun _ => 0)

/-- `sl_solve(matvec, a, b, v0, select, select_range, eigvals_only)` without MPI, `edpyt/lanczos.py:135-182`. With `eigvals_only` the array of eigenvalues is
unpacked into `w, U`: a `ValueError` unless it has two elements, of which the first is returned. -/
def SlSolve {ι : Type} [Fintype ι] (matvec : (ι → ℝ) → (ι → ℝ)) (a b : List ℝ) (v0 : Option (ι → ℝ)) (select lo hi : ℕ) (eigvalsOnly : Bool)
    (r : Except PyErr (SlRes (ι → ℝ))) : Prop :=
  (∃ e, EighTridiagonal a (b.drop 1) select lo hi (.error e) ∧ r = .error e) ∨
  ∃ w U, EighTridiagonal a (b.drop 1) select lo hi (.ok (w, U)) ∧
    r = if eigvalsOnly then (match w with | [w0, _] => .ok (.number w0) | _ => .error .valueError)
      else match v0 with
        | none => .error .assertionError
        | some v0 => .ok (.pair w (slSecond matvec U a.length v0).2.2)

end Edpyt
