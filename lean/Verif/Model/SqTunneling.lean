import Verif.Model.GfExact
import Verif.Model.Sector
import Verif.Model.Lookup
/-!
Model of `edpyt/sqtunneling.py`: transition elements, rate and transition matrices of sequential tunnelling. Reals are exact.
-/
namespace Edpyt

/-- Label `(nup, ndw, k)` of an eigenstate. Source: `edpyt/sqtunneling.py:13-43`. -/
abbrev TId := ℤ × ℤ × ℕ

/-- A `Gfe` (`el = true`) or `Gfh` (`el = false`) object, `edpyt/sqtunneling.py:97-134`. -/
structure GfT where
  el : Bool
  idF : TId
  idI : TId
  v : List ℝ
  E : ℝ

/-- A dictionary `gfdict` in insertion order. Source: `edpyt/sqtunneling.py:76,88`. -/
abbrev GfDict := List ((TId × TId) × GfT)

/-- `v.dot(a)` of two one-dimensional arrays: `ValueError` if the sizes differ. Source: `edpyt/sqtunneling.py:124-134`. -/
noncomputable def dotArr (v a : List ℝ) : Except PyErr ℝ :=
  if v.length = a.length then .ok (List.zipWith (· * ·) v a).sum else .error .valueError

/-- `_Gf.nF(E, beta)`, `edpyt/sqtunneling.py:111-114`. -/
noncomputable def fermi (E beta : ℝ) : ℝ := 1 / (Real.exp (beta * E) + 1)

/-- `Gfe.__call__` and `Gfh.__call__`, `edpyt/sqtunneling.py:116-134`. -/
noncomputable def GfT.call (g : GfT) (a : List ℝ) (beta mu : ℝ) : Except PyErr ℝ := do
  let y ← dotArr g.v a
  pure (y ^ 2 * if g.el then fermi (g.E - mu) beta else fermi (-g.E + mu) beta)

/-- `espace[nup, ndw]`. Source: `edpyt/sqtunneling.py:20-21,36-37`. -/
def espaceGet (es : Espace (ℕ × ℕ)) (q : ℤ × ℤ) : Except PyErr Sct :=
  if 0 ≤ q.1 ∧ 0 ≤ q.2 then dictGet es (q.1.toNat, q.2.toNat) else .error .keyError

/-- `project_exact_up if ispin==0 else project_exact_dw`. Source: `edpyt/sqtunneling.py:13-43`. -/
noncomputable def projectSpin (junk : ℕ) (ispin : ℤ) (i n : ℕ) (op : Ladder) (I J : Sct) : Except PyErr (ℕ → ℕ → ℝ) :=
  if ispin = 0 then projectExactUp junk i n op I J else projectExactDw junk i n op I J

/-- The loop filling `v_JI[..., i]`, `edpyt/sqtunneling.py:23-25,39-41`: the list of the slices. -/
noncomputable def projectAll (junk : ℕ) (ispin : ℤ) (n : ℕ) (op : Ladder) (I J : Sct) : Except PyErr (List (ℕ → ℕ → ℝ)) :=
  forM' (fun acc i => do let M ← projectSpin junk ispin i n op I J; pure (acc ++ [M])) (List.range n) []

/-- The list comprehensions of `edpyt/sqtunneling.py:26-27,42-43`. -/
def transitionList (el : Bool) (qJ qI : ℤ × ℤ) (vs : List (ℕ → ℕ → ℝ)) (I J : Sct) : List GfT :=
  (ndindex2 J.eigvals.length I.eigvals.length).map fun ji =>
    ⟨el, (qJ.1, qJ.2, ji.1), (qI.1, qI.2, ji.2), vs.map fun M => M ji.1 ji.2,
      if el then J.eigvals[ji.1]?.getD 0 - I.eigvals[ji.2]?.getD 0 else -(J.eigvals[ji.1]?.getD 0) + I.eigvals[ji.2]?.getD 0⟩

/-- `project_add`, `edpyt/sqtunneling.py:13-27`. -/
noncomputable def sqProjectAdd (junk : ℕ) (ispin : ℤ) (n : ℕ) (q : ℤ × ℤ) (es : Espace (ℕ × ℕ)) : Except PyErr (List GfT) := do
  let qJ ← getCdgSector n q.1 q.2 ispin
  let sctI ← espaceGet es q
  let sctJ ← espaceGet es qJ
  let vs ← projectAll junk ispin n .cdg sctI sctJ
  pure (transitionList true qJ q vs sctI sctJ)

/-- `project_sub`, `edpyt/sqtunneling.py:30-43`. -/
noncomputable def sqProjectSub (junk : ℕ) (ispin : ℤ) (n : ℕ) (q : ℤ × ℤ) (es : Espace (ℕ × ℕ)) : Except PyErr (List GfT) := do
  let qJ ← getCSector q.1 q.2 ispin
  let sctI ← espaceGet es q
  let sctJ ← espaceGet es qJ
  let vs ← projectAll junk ispin n .c sctI sctJ
  pure (transitionList false qJ q vs sctI sctJ)

/-- `getdns`, `edpyt/sqtunneling.py:46`; `//` is floor division. -/
def getdns (d : ℤ × ℤ) : Except PyErr (ℤ × ℤ) :=
  if d.1 + d.2 = 0 then .error .zeroDivision else .ok (d.1 + d.2, (d.1 - d.2).fdiv (d.1 + d.2))

/-- `getdud`, `edpyt/sqtunneling.py:52`. -/
def getdud (dn spin : ℤ) : ℤ × ℤ := ((dn * (spin + 1)).fdiv 2, (dn * (-spin + 1)).fdiv 2)

/-- `[getdud(dn,spin) for dn in [-1,1] for spin in [1,-1]]`. Source: `edpyt/sqtunneling.py:61,85`. -/
def allDns : List (ℤ × ℤ) := [getdud (-1) 1, getdud (-1) (-1), getdud 1 1, getdud 1 (-1)]

/-- `for gf in gflist: gfdict[(gf.idF,gf.idI)] = gf`. Source: `edpyt/sqtunneling.py:75-76`. -/
def insertAll (gd : GfDict) (l : List GfT) : GfDict := l.foldl (fun gd g => dictSet gd (g.idF, g.idI) g) gd

/-- One pass of the loop of `project_sector`, `edpyt/sqtunneling.py:62-76`. -/
noncomputable def sqProjectStep (junk n : ℕ) (q : ℤ × ℤ) (es : Espace (ℕ × ℕ)) (gd : GfDict) (d : ℤ × ℤ) : Except PyErr GfDict := do
  let ds ← getdns d
  let ispin := (-ds.2 + 1).fdiv 2
  match if ds.1 > 0 then sqProjectAdd junk ispin n q es else sqProjectSub junk ispin n q es with
  | .ok l => pure (insertAll gd l)
  | .error .outOfHilbert => pure gd
  | .error e => .error e

/-- `project_sector`, `edpyt/sqtunneling.py:59-76`. -/
noncomputable def sqProjectSector (junk n : ℕ) (q : ℤ × ℤ) (es : Espace (ℕ × ℕ)) (gd : GfDict) (dns : List (ℤ × ℤ)) : Except PyErr GfDict :=
  forM' (sqProjectStep junk n q es) dns gd

/-- Lexicographic order of tuples. Source: `edpyt/sqtunneling.py:89`. -/
def lePair (a b : ℤ × ℤ) : Bool := decide (a.1 < b.1 ∨ (a.1 = b.1 ∧ a.2 ≤ b.2))
/-- Lexicographic order of tuples. Source: `edpyt/sqtunneling.py:154,188`. -/
def leId (a b : TId) : Bool := decide (a.1 < b.1 ∨ (a.1 = b.1 ∧ (a.2.1 < b.2.1 ∨ (a.2.1 = b.2.1 ∧ a.2.2 ≤ b.2.2))))

/-- `np.unique(l, axis=0)`, and `sorted(set(l))`: the distinct elements in order. Source: `edpyt/sqtunneling.py:89,154,188`. -/
def uniqueSorted {α : Type} [DecidableEq α] (le : α → α → Bool) (l : List α) : List α := l.dedup.mergeSort le

/-- `[ns for ns,sct in espace.items() if abs(sct.eigvals.min()-egs)<1e-9]`, `edpyt/sqtunneling.py:84`; `min` of an empty
array raises `ValueError`. -/
noncomputable def groundSectors (es : Espace (ℕ × ℕ)) (egs : ℝ) : Except PyErr (List (ℤ × ℤ)) :=
  forM' (fun acc p => match p.2.eigvals with
    | [] => .error .valueError
    | e :: l => pure (if |l.foldl min e - egs| < 1e-9 then acc ++ [((p.1.1 : ℤ), (p.1.2 : ℤ))] else acc)) es []

/-- `reached_by_gs`, `edpyt/sqtunneling.py:86,218`. -/
def reachedByGs (ngs : List (ℤ × ℤ)) : List (ℤ × ℤ) := ngs.flatMap fun q => allDns.map fun d => (q.1 + d.1, q.2 + d.2)

/-- `find_active_sectors`, `edpyt/sqtunneling.py:215-220`, and the same lines 85-87. -/
def sqActive (n : ℕ) (ngs : List (ℤ × ℤ)) : List (ℤ × ℤ) :=
  (reachedByGs ngs).filter (fun q => decide (0 ≤ q.1 ∧ q.1 ≤ (n : ℤ) ∧ 0 ≤ q.2 ∧ q.2 ≤ (n : ℤ))) ++ ngs

/-- Body of the loop of `build_transition_elements`, `edpyt/sqtunneling.py:89-91`. -/
noncomputable def sqBuildStep (junk n : ℕ) (es : Espace (ℕ × ℕ)) (active : List (ℤ × ℤ)) (gd : GfDict) (q : ℤ × ℤ) : Except PyErr GfDict :=
  sqProjectSector junk n q es gd (allDns.filter fun d => decide ((q.1 + d.1, q.2 + d.2) ∈ active))

/-- `screen_transition_elements`, `edpyt/sqtunneling.py:208-212`: the dictionary comprehension. -/
noncomputable def sqScreen (gd : GfDict) (egs : ℝ) (es : Espace (ℕ × ℕ)) (cutoff : ℝ) : Except PyErr GfDict :=
  let near : TId → Except PyErr Bool := fun id => do
    let s ← espaceGet es (id.1, id.2.1)
    let e ← getItem s.eigvals id.2.2
    pure (decide (|e - egs| < cutoff))
  forM' (fun acc p =>
    if |p.2.E| < cutoff then do
      if ← near p.1.1 then
        if ← near p.1.2 then pure (acc ++ [p]) else pure acc
      else pure acc
    else pure acc) gd []

/-- `build_transition_elements`, `edpyt/sqtunneling.py:79-94`. -/
noncomputable def sqBuild (junk n : ℕ) (egs : ℝ) (es : Espace (ℕ × ℕ)) (cutoff : Option ℝ) : Except PyErr GfDict := do
  let ngs ← groundSectors es egs
  let active := sqActive n ngs
  let gd ← forM' (sqBuildStep junk n es active) (uniqueSorted lePair active) []
  match cutoff with
  | some c => sqScreen gd egs es c
  | none => pure gd

/-- The value `gamma` of the loops of `build_rate_matrix`; `none` when something raised (`except: continue`),
`edpyt/sqtunneling.py:159-164`. -/
noncomputable def sqGamma (gd : GfDict) (beta : ℝ) (mu : List ℝ) (A : List (List ℝ)) (lead : ℕ) (F I : TId) : Option ℝ :=
  Except.toOption (do
    let g ← dictGet gd (F, I)
    let a ← getItem A lead
    let m ← getItem mu lead
    g.call a beta m)

/-- `W[i,i] -= gamma; W[f,i] += gamma`. Source: `edpyt/sqtunneling.py:166-167`. -/
def addFlow (W : ℕ → ℕ → ℝ) (f i : ℕ) (γ : ℝ) : ℕ → ℕ → ℝ :=
  let W1 : ℕ → ℕ → ℝ := fun a b => if a = i ∧ b = i then W a b - γ else W a b
  fun a b => if a = f ∧ b = i then W1 a b + γ else W1 a b

/-- `sorted(set([idF for idF,_ in gfdict.keys()]))`. Source: `edpyt/sqtunneling.py:154,188`. -/
def finalIds (gd : GfDict) : List TId := uniqueSorted leId (gd.map fun p => p.1.1)

/-- Body of the inner loop of `build_rate_matrix`, `edpyt/sqtunneling.py:157-167`. -/
noncomputable def sqRateStep (gd : GfDict) (beta : ℝ) (mu : List ℝ) (A : List (List ℝ)) (lead : ℕ) (W : ℕ → ℕ → ℝ) (p : ℕ × ℕ) : ℕ → ℕ → ℝ :=
  let ids := finalIds gd
  if p.1 ≠ p.2 then
    match ids[p.2]?, ids[p.1]? with
    | some F, some I => match sqGamma gd beta mu A lead F I with
      | some γ => addFlow W p.2 p.1 γ
      | none => W
    | _, _ => W
  else W

/-- `build_rate_matrix`, `edpyt/sqtunneling.py:137-168`. `assert ~odd` never fails: `~0 = -1` and `~1 = -2` are both true. -/
noncomputable def sqRate (gd : GfDict) (beta : ℝ) (mu : List ℝ) (A : List (List ℝ)) : ℕ → ℕ → ℝ :=
  let sz := (finalIds gd).length
  (List.range 2).foldl (fun W lead => (ndindex2 sz sz).foldl (sqRateStep gd beta mu A lead) W) fun _ _ => 0

/-- `build_transition_matrix`, `edpyt/sqtunneling.py:171-205`: element `[f, i]`; each is assigned at most once. -/
noncomputable def sqTransition (gd : GfDict) (beta mu : ℝ) (a : List ℝ) (f i : ℕ) : ℝ :=
  let ids := finalIds gd
  if i ≠ f then
    match ids[f]?, ids[i]? with
    | some F, some I => match dictGet gd (F, I) with
      | .ok g => match g.call a beta mu with
        | .ok γ => if g.el then γ else -γ
        | .error _ => 0
      | .error _ => 0
    | _, _ => 0
  else 0

/-- `get_active_neig`, `edpyt/sqtunneling.py:223-229`. -/
def sqActiveNeig (n : ℕ) (ngs : List (ℤ × ℤ)) (val : ℕ) : Except PyErr (List ℕ) := do
  let idx ← forM' (fun acc q => do let i ← getSectorIndex n q.1 q.2; pure (acc ++ [i])) (sqActive n ngs) []
  forM' (fun neig i => setItem neig i val) idx (List.replicate ((n + 1) * (n + 1)) 0)

end Edpyt
