import Verif.Model.Matvec
import Verif.Model.EspaceDim
import Mathlib.Data.Real.Basic
import Mathlib.Order.WithBot
import Mathlib.Analysis.SpecialFunctions.Exp
/-!
Model of `edpyt/espace.py` and of the calling side of `edpyt/eigh_arpack.py`. Floats are real numbers.
LAPACK and ARPACK are not modelled: `Eigh` is the contract of a complete symmetric eigen-decomposition
and every result meeting it is allowed.
-/
namespace Edpyt

/-- `for x in xs: body` for a body with several possible outcomes. Source: `edpyt/espace.py:156-169`. -/
def ForR {α σ : Type*} (body : σ → α → Except PyErr σ → Prop) : List α → σ → Except PyErr σ → Prop
  | [], st, r => r = .ok st
  | x :: xs, st, r => (∃ st', body st x (.ok st') ∧ ForR body xs st' r) ∨ (∃ e, body st x (.error e) ∧ r = .error e)

/-- Contract of `np.linalg.eigh(D)` for a symmetric array: as many ascending eigenvalues `w` as rows, and
orthonormal eigenvector columns `v` (a column is a function of the row index). Source: `edpyt/espace.py:76`. -/
structure Eigh (D : Dense ℝ) (w : List ℝ) (v : List (ℕ → ℝ)) : Prop where
  wlen : w.length = D.size
  vlen : v.length = D.size
  sorted : w.Pairwise (· ≤ ·)
  orth : ∀ (i j : ℕ) (hi : i < v.length) (hj : j < v.length),
    ∑ r ∈ Finset.range D.size, v[i] r * v[j] r = if i = j then 1 else 0
  eig : ∀ (i : ℕ) (hi : i < v.length) (hi' : i < w.length) (r : ℕ), r < D.size →
    ∑ c ∈ Finset.range D.size, D.val r c * v[i] c = w[i] * v[i] r

/-- Eigenvalues and eigenvector columns. Source: `edpyt/espace.py:56-66`. -/
abbrev EigRes := List ℝ × List (ℕ → ℝ)

/-- Parameters shared by all Hamiltonians of a model: sites, one-body part, interaction, and the global
`params` `z`, `hfmode`, `mu`. Source: `edpyt/build_mb_ham.py:24-76` and `edpyt/shared.py:6-10`. -/
structure HamArgs where
  n : ℕ
  H : ℕ → ℕ → ℕ → ℝ
  V : VArg ℝ
  z : Option (ℕ → ℝ)
  hf : Bool
  mu : ℝ

/-- A run of `build_mb_ham(H, V, sct)`; memory content of fresh arrays is arbitrary. Source: `edpyt/build_mb_ham.py:24-76`. -/
def HamArgs.Build (a : HamArgs) (sct : SectorStates) (r : Except PyErr (List (Op ℝ))) : Prop :=
  ∃ jk bj, BuildMbHam jk bj a.n a.H a.V a.z a.hf a.mu sct r

/-- `_solve_lapack`, `edpyt/espace.py:69-76`. -/
def SolveLapack (a : HamArgs) (sct : SectorStates) (r : Except PyErr EigRes) : Prop :=
  (∃ e, a.Build sct (.error e) ∧ r = .error e) ∨
  ∃ ops, a.Build sct (.ok ops) ∧
    ((∃ e, todense ops = .error e ∧ r = .error e) ∨ ∃ D w v, todense ops = .ok D ∧ Eigh D w v ∧ r = .ok (w, v))

/-- The Krylov space dimension chosen by `eigsh`, `edpyt/eigh_arpack.py:76`. -/
def arpackNcv (n nev : ℕ) : ℕ := min (max (2 * nev + 1) 20) n

/-- The argument check of ARPACK's `dsaupd` (info -1, -2, -3): `n > 0`, `nev > 0`, `nev < ncv ≤ n`. Source: `edpyt/eigh_arpack.py:70-184`. -/
def ArpackArgsOk (n nev ncv : ℕ) : Prop := 0 < n ∧ 0 < nev ∧ nev < ncv ∧ ncv ≤ n

/-- `_solve_arpack`, `edpyt/espace.py:79-86`, with `eigsh` of `edpyt/eigh_arpack.py:70-216`: bad arguments
raise `RuntimeError`; otherwise the contract (`which = 'SA'`, converged) is: the first `k` pairs of a
complete decomposition of the matrix that `matvec` multiplies with. -/
def SolveArpack (a : HamArgs) (sct : SectorStates) (d k : ℕ) (r : Except PyErr EigRes) : Prop :=
  (∃ e, a.Build sct (.error e) ∧ r = .error e) ∨
  ∃ ops, a.Build sct (.ok ops) ∧
    ((¬ ArpackArgsOk d k (arpackNcv d k) ∧ r = .error .runtimeError) ∨
     (ArpackArgsOk d k (arpackNcv d k) ∧ ∃ D w v, D.size = d ∧
       (∀ vec result, vec.length = d → MatvecOperator ops vec result →
         result = (List.range d).map fun r => ∑ c ∈ Finset.range d, D.val r c * (vec[c]?.getD 0)) ∧
       Eigh D w v ∧ r = .ok (w.take k, v.take k)))

/-- `solve_sector`, `edpyt/espace.py:56-66`. -/
def SolveSector (a : HamArgs) (sct : SectorStates) (d : ℕ) (k : Option ℕ) (r : Except PyErr EigRes) : Prop :=
  let k := k.getD d
  if k = d ∨ d ≤ 512 then
    ∃ r1, SolveLapack a sct r1 ∧ r = r1.map fun p => if k < d then (p.1.take k, p.2.take k) else p
  else SolveArpack a sct d k r

/-- A solved sector (`Sector`, `edpyt/espace.py:29-32`). -/
structure Sct where
  states : SectorStates
  d : ℕ
  eigvals : List ℝ
  eigvecs : List (ℕ → ℝ)

/-- A Python dict in insertion order. Source: `edpyt/espace.py:150,166`. -/
abbrev Espace (α : Type) := List (α × Sct)

/-- `espace[q] = s`. Source: `edpyt/espace.py:166`. -/
def dictSet {α β : Type} [DecidableEq α] (es : List (α × β)) (q : α) (s : β) : List (α × β) :=
  if q ∈ es.map Prod.fst then es.map fun p => if p.1 = q then (q, s) else p else es ++ [(q, s)]

/-- `eigvals.min()` of a non-empty array. Source: `edpyt/espace.py:169`. -/
def eigMin : List ℝ → WithTop ℝ
  | [] => ⊤
  | x :: xs => min (x : WithTop ℝ) (eigMin xs)

/-- `_sz_iter_sectors`, `edpyt/espace.py:111-123` (as a list; the generator is consumed in order). -/
def szIterSectors (w n : ℕ) : Except PyErr (List ((ℕ × ℕ) × SectorStates × ℕ)) :=
  forM' (fun (acc : List ((ℕ × ℕ) × SectorStates × ℕ)) (nup : ℕ) => do
    let up ← generateStates w n nup
    forM' (fun (acc : List ((ℕ × ℕ) × SectorStates × ℕ)) (ndw : ℕ) => do
      let dw ← generateStates w n ndw
      pure (acc ++ [((nup, ndw), .spin up dw, up.length * dw.length)])) (List.range (n + 1)) acc)
    (List.range (n + 1)) []

/-- `_N_iter_sectors`, `edpyt/espace.py:125-132`. -/
def nIterSectors (w n : ℕ) : Except PyErr (List (ℕ × SectorStates × ℕ)) :=
  forM' (fun (acc : List (ℕ × SectorStates × ℕ)) (ndu : ℕ) => do
    let st ← generateStates w (2 * n) ndu
    pure (acc ++ [(ndu, .total st, st.length)])) (List.range (2 * n + 1)) []

/-- One pass of the loop of `build_espace`, `edpyt/espace.py:156-169`. -/
def EspaceStep {α : Type} [DecidableEq α] (a : HamArgs) (idx : α → ℕ) (neig : List ℕ) (st : Espace α × WithTop ℝ)
    (x : α × SectorStates × ℕ) (r : Except PyErr (Espace α × WithTop ℝ)) : Prop :=
  match getItem neig (idx x.1) with
  | .error e => r = .error e
  | .ok 0 => r = .ok st
  | .ok (k + 1) =>
    (∃ e, SolveSector a x.2.1 x.2.2 (some (k + 1)) (.error e) ∧ r = .error e) ∨
    ∃ w v, SolveSector a x.2.1 x.2.2 (some (k + 1)) (.ok (w, v)) ∧
      r = .ok (if w.length = 0 then st else
        (dictSet st.1 x.1 ⟨x.2.1, x.2.2, w, v⟩, min (eigMin w) st.2))

/-- The loop of `build_espace` over an iterator. Source: `edpyt/espace.py:156-169`. -/
def EspaceLoop {α : Type} [DecidableEq α] (a : HamArgs) (idx : α → ℕ) (neig : List ℕ)
    (iter : Except PyErr (List (α × SectorStates × ℕ))) (r : Except PyErr (Espace α × WithTop ℝ)) : Prop :=
  match iter with
  | .error e => r = .error e
  | .ok xs => ForR (EspaceStep a idx neig) xs ([], ⊤) r

/-- `neig_sector` after `edpyt/espace.py:151-152`. Requested numbers are non-negative integers here. -/
def neigOrDefault (n : ℕ) (neig : Option (List ℕ)) (sym : Symm) : Except PyErr (List ℕ) :=
  match neig with
  | some l => .ok l
  | none => getEspaceDim n none sym

/-- `build_espace(H, V, neig_sector)`, `edpyt/espace.py:135-171`, with `symmetry='sz'`. -/
def BuildEspace (w : ℕ) (a : HamArgs) (neig : Option (List ℕ)) (r : Except PyErr (Espace (ℕ × ℕ) × WithTop ℝ)) : Prop :=
  match neigOrDefault a.n neig .sz with
  | .error e => r = .error e
  | .ok l => EspaceLoop a (fun q => q.1 * (a.n + 1) + q.2) l (szIterSectors w a.n) r

/-- `build_espace(H, V, neig_sector, symmetry='N')`. Source: `edpyt/espace.py:135-171`. -/
def NBuildEspace (w : ℕ) (a : HamArgs) (neig : Option (List ℕ)) (r : Except PyErr (Espace ℕ × WithTop ℝ)) : Prop :=
  match neigOrDefault a.n neig .N with
  | .error e => r = .error e
  | .ok l => EspaceLoop a (fun q => q) l (nIterSectors w a.n) r

/-- `l[idx]` with an integer index array (numpy fancy indexing). Source: `edpyt/espace.py:216-217`. -/
def fancyIndex {β : Type} (l : List β) : List ℕ → Except PyErr (List β)
  | [] => .ok []
  | i :: is => do
    let x ← getItem l i
    let xs ← fancyIndex l is
    pure (x :: xs)

/-- `diff = np.exp(-beta*(sct.eigvals-egs)) > cutoff`, `edpyt/espace.py:211`. -/
noncomputable def screenDiff (w : List ℝ) (egs beta cutoff : ℝ) : List Bool :=
  w.map fun E => decide (Real.exp (-beta * (E - egs)) > cutoff)

/-- `np.where(diff)[0]`. Source: `edpyt/espace.py:215`. -/
def whereIdx (diff : List Bool) : List ℕ := (List.range diff.length).filter fun i => diff[i]?.getD false

/-- One pass of the loop of `screen_espace`, `edpyt/espace.py:210-220`: the sector object is updated in place,
or its key is put on the `delete` list. `eigvecs` is two-dimensional here. -/
noncomputable def screenStep {α : Type} (egs beta cutoff : ℝ) (st : Espace α × List α) (p : α × Sct) :
    Except PyErr (Espace α × List α) := do
  let diff := screenDiff p.2.eigvals egs beta cutoff
  if diff.any id then
    let w ← fancyIndex p.2.eigvals (whereIdx diff)
    let v ← fancyIndex p.2.eigvecs (whereIdx diff)
    pure (st.1 ++ [(p.1, ⟨p.2.states, p.2.d, w, v⟩)], st.2)
  else pure (st.1 ++ [p], st.2 ++ [p.1])

/-- `espace.pop(qns)`; `KeyError` if absent. Source: `edpyt/espace.py:223`. -/
def dictPop {α β : Type} [DecidableEq α] (es : List (α × β)) (q : α) : Except PyErr (List (α × β)) :=
  if q ∈ es.map Prod.fst then .ok (es.filter fun p => decide (p.1 ≠ q)) else .error .keyError

/-- `screen_espace`, `edpyt/espace.py:202-223`: the new content of `espace`. -/
noncomputable def screenEspace {α : Type} [DecidableEq α] (es : Espace α) (egs beta cutoff : ℝ) : Except PyErr (Espace α) := do
  let st ← forM' (screenStep egs beta cutoff) es ([], [])
  forM' dictPop st.2 st.1

/-- `_increase`, `edpyt/espace.py:242-246`. -/
def neigIncrease (n : ℕ) (neig : List ℕ) (q : ℕ × ℕ) : Except PyErr (List ℕ) := do
  let i ← getSectorIndex n q.1 q.2
  let x ← getItem neig i
  setItem neig i (min (getSectorDim n q.1 q.2) (x + 1))

/-- `_decrease`, `edpyt/espace.py:247-251`. -/
def neigDecrease (n : ℕ) (neig : List ℕ) (q : ℕ × ℕ) : Except PyErr (List ℕ) := do
  let i ← getSectorIndex n q.1 q.2
  let x ← getItem neig i
  setItem neig i (max 1 (x - 1))

/-- The inner `while` of `adjust_neigsector`, `edpyt/espace.py:255-260`: skip (and decrease) keys until `q`;
`next` on the exhausted iterator raises `StopIteration`. Returns the rest of the iterator. -/
def adjustSkip (n : ℕ) (q : ℕ × ℕ) : List (ℕ × ℕ) → List ℕ → Except PyErr (List (ℕ × ℕ) × List ℕ)
  | [], _ => .error .stopIteration
  | k :: ks, neig =>
    if k ≠ q then do
      let neig ← neigDecrease n neig k
      adjustSkip n q ks neig
    else .ok (ks, neig)

/-- One pass of the loop over `espace.keys()`, `edpyt/espace.py:254-266`. -/
def adjustStep (n : ℕ) (st : List (ℕ × ℕ) × List ℕ) (p : (ℕ × ℕ) × Sct) : Except PyErr (List (ℕ × ℕ) × List ℕ) := do
  let (ks, neig) ← adjustSkip n p.1 st.1 st.2
  let i ← getSectorIndex n p.1.1 p.1.2
  let x ← getItem neig i
  let size := p.2.eigvals.length
  if size = x then
    let neig ← neigIncrease n neig p.1
    pure (ks, neig)
  else if size < x then
    let neig ← neigDecrease n neig p.1
    pure (ks, neig)
  else pure (ks, neig)

/-- `adjust_neigsector`, `edpyt/espace.py:226-270`: the new content of `neig` (non-negative integers). -/
def adjustNeigsector (es : Espace (ℕ × ℕ)) (neig : List ℕ) (n : ℕ) : Except PyErr (List ℕ) := do
  let (ks, neig) ← forM' (adjustStep n) es (ndindex2 (n + 1) (n + 1), neig)
  forM' (neigDecrease n) ks neig

/-- One solve/screen/adjust round as in `Gfimp.solve`, `edpyt/dmft.py`: the next content of
`neig`. `egs` is infinite only for an empty espace, where it is not used. -/
def Round (w : ℕ) (neig : List ℕ) (x : HamArgs × ℝ × ℝ) (r : Except PyErr (List ℕ)) : Prop :=
  (∃ e, BuildEspace w x.1 (some neig) (.error e) ∧ r = .error e) ∨
  ∃ es egs, BuildEspace w x.1 (some neig) (.ok (es, egs)) ∧
    r = (do let es' ← screenEspace es (egs.untopD 0) x.2.1 x.2.2
            adjustNeigsector es' neig x.1.n)

end Edpyt
