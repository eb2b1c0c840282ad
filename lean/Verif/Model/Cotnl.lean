import Verif.Model.Cotunneling
import Mathlib.Data.List.Sort
/-!
Model of `edpyt/cotnl.py` and `edpyt/sqtnl.py`: tunnelling for spectra labelled by the total number of electrons. Reals are
exact. `np.reciprocal(0.)`, which gives `inf`, is zero in the model.
-/
namespace Edpyt

/-- Label `(N, k)` of an eigenstate. Source: `edpyt/cotnl.py:88,108`. -/
abbrev NId := ℤ × ℕ

/-- Lexicographic order of tuples. Source: `edpyt/cotnl.py:274`. -/
def leN (a b : NId) : Bool := decide (a.1 < b.1 ∨ (a.1 = b.1 ∧ a.2 ≤ b.2))
/-- Lexicographic order of pairs of tuples. Source: `edpyt/cotnl.py:273-277`. -/
def leNN (a b : NId × NId) : Bool := if a.1 = b.1 then leN a.2 b.2 else leN a.1 b.1

/-- `espace[(N,)]`. Source: `edpyt/cotnl.py:81-82,101-102`. -/
def nGet (es : Espace ℕ) (N : ℤ) : Except PyErr Sct := if 0 ≤ N then dictGet es N.toNat else .error .keyError

/-- `sct.states` of a sector with fixed number of electrons; otherwise the attribute is a tuple without `size`. Source: `edpyt/cotnl.py:24-47`. -/
def totalStates : SectorStates → Except PyErr (List ℕ)
  | .total l => .ok l
  | .spin _ _ => .error .attributeError

/-- One pass of the loop of `project`, `edpyt/cotnl.py:40-47`. Any exception of the operator is swallowed. -/
noncomputable def nProjectStep (junk : ℕ) (op : Ladder) (pos m : ℕ) (sI sJ : List ℕ) (I J : Sct) (v : ℕ → ℕ → ℝ) (i : ℕ) :
    Except PyErr (ℕ → ℕ → ℝ) := do
  let s ← getItem sI i
  match op.apply s pos m with
  | .error _ => pure v
  | .ok (sg, f) =>
    let r ← pyIndex J.d (binsearch junk sJ f)
    pure fun j k => v j k + sg * ((J.eigvecs[j]?.getD 0) r * (I.eigvecs[k]?.getD 0) i)

/-- `project`, `edpyt/cotnl.py:24-48`. -/
noncomputable def nProject (junk : ℕ) (spin pos : ℕ) (op : Ladder) (n : ℕ) (I J : Sct) : Except PyErr (ℕ → ℕ → ℝ) := do
  let sI ← totalStates I.states
  let sJ ← totalStates J.states
  forM' (nProjectStep junk op (pos + spin * n) (2 * n) sI sJ I J) (List.range sI.length) fun _ _ => 0

/-- The loops over the sites, `edpyt/cotnl.py:65-68`, `edpyt/sqtnl.py:37-41`. -/
noncomputable def nProjectAll (junk : ℕ) (spin : ℕ) (op : Ladder) (n : ℕ) (I J : Sct) : Except PyErr (List (ℕ → ℕ → ℝ)) :=
  forM' (fun acc i => do let M ← nProject junk spin i op n I J; pure (acc ++ [M])) (List.range n) []

/-- A `Gfe` (`el = true`) or `Gfh` object of `edpyt/sqtnl.py:101-140`. -/
structure NGf where
  el : Bool
  spin : ℕ
  v : List ℝ
  E : ℝ

/-- `excite_electron` (`el = true`) and `excite_hole` of `edpyt/sqtnl.py:44-63`, in the order of insertion. -/
noncomputable def nExcite (junk : ℕ) (el : Bool) (spin n : ℕ) (N : ℤ) (es : Espace ℕ) : Except PyErr (List ((NId × NId) × NGf)) := do
  let N' := if el then N + 1 else N - 1
  let I ← nGet es N
  let J ← nGet es N'
  let vs ← nProjectAll junk spin (if el then .cdg else .c) n I J
  pure ((ndindex2 J.eigvals.length I.eigvals.length).map fun ji => (((N', ji.1), (N, ji.2)),
    ⟨el, spin, vs.map fun M => M ji.1 ji.2,
      if el then J.eigvals[ji.1]?.getD 0 - I.eigvals[ji.2]?.getD 0 else -(J.eigvals[ji.1]?.getD 0) + I.eigvals[ji.2]?.getD 0⟩))

/-- `sigmadict[k].append(x)` of a `defaultdict(list)`. Source: `edpyt/cotnl.py:143`. -/
def appendN {α : Type} (sd : List ((NId × NId) × List α)) (p : (NId × NId) × α) : List ((NId × NId) × List α) :=
  dictSet sd p.1 ((match dictGet sd p.1 with | .ok l => l | .error _ => []) ++ [p.2])

/-- The search of the ground state sector, `edpyt/sqtnl.py:67-73`, `edpyt/cotnl.py:120-126`; `min` of an empty array raises. -/
noncomputable def nGround (es : Espace ℕ) : Except PyErr (Option ℕ × WithTop ℝ) :=
  forM' (fun (st : Option ℕ × WithTop ℝ) p => match p.2.eigvals with
    | [] => .error .valueError
    | e :: l => pure (if ((l.foldl min e : ℝ) : WithTop ℝ) < st.2 then (some p.1, ((l.foldl min e : ℝ) : WithTop ℝ)) else st)) es (none, ⊤)

/-- `sqtnl.build_transition_elements` after `N` is known, `edpyt/sqtnl.py:74-89`: one pass of the loop over the spins. -/
noncomputable def sqtnlSpin (junk n : ℕ) (es : Espace ℕ) (N : ℤ) (sd : List ((NId × NId) × List NGf)) (spin : ℕ) :
    Except PyErr (List ((NId × NId) × List NGf)) := do
  let sd ← if N + 1 < 2 * n then do
      let le ← nExcite junk true spin n N es
      let lh ← nExcite junk false spin n (N + 1) es
      pure ((le ++ lh).foldl appendN sd)
    else pure sd
  if N - 1 > 0 then do
    let lh ← nExcite junk false spin n N es
    let le ← nExcite junk true spin n (N - 1) es
    pure ((lh ++ le).foldl appendN sd)
  else pure sd

/-- `sqtnl.build_transition_elements`, `edpyt/sqtnl.py:66-89`. If the number of electrons is not given, the argument `egs`
must be given (its value is not used). -/
noncomputable def sqtnlBuild (junk n : ℕ) (es : Espace ℕ) (N : Option ℤ) (egs : Option ℝ) : Except PyErr (List ((NId × NId) × List NGf)) := do
  let N ← match N with
    | some N => pure N
    | none => match egs with
      | none => .error .assertionError
      | some _ => do
        let g ← nGround es
        match g.1 with
        | some N => pure (N : ℤ)
        | none => .error .typeError
  let sd ← forM' (sqtnlSpin junk n es N) (List.range 2) []
  pure (sd.mergeSort fun a b => leNN a.1 b.1)

/-- `nF`, `edpyt/sqtnl.py:96-99`. -/
noncomputable def nFcut (x : ℝ) : ℝ := if x > 100 then 0 else 1 / (Real.exp x + 1)

/-- `Gfe.__call__` and `Gfh.__call__`, `edpyt/sqtnl.py:114-140`. -/
noncomputable def NGf.call (g : NGf) (a : List ℝ) (beta mu : ℝ) : Except PyErr ℝ := do
  let y ← dotArr g.v a
  pure (y ^ 2 * if g.el then nFcut (beta * (g.E - mu)) else nFcut (-beta * (g.E - mu)))

/-- `D[k] += v` of a `defaultdict(lambda: 0.)`. Source: `edpyt/cotnl.py:301-312`. -/
def dictAdd {α : Type} [DecidableEq α] (D : List (α × ℝ)) (k : α) (v : ℝ) : List (α × ℝ) :=
  dictSet D k ((match dictGet D k with | .ok x => x | .error _ => 0) + v)

/-- `get_unique_ids` and the assertion of `check_transition_elements`, `edpyt/cotnl.py:273-282`. -/
def checkElements {α : Type} (sd : List ((NId × NId) × α)) : Except PyErr Unit :=
  if (sd.map fun p => p.1.2).all fun i => decide (i ∈ sd.map fun p => p.1.1) then .ok () else .error .assertionError

/-- `if idF != idI: W[idI,idI] -= gamma; W[idF,idI] += gamma`. Source: `edpyt/cotnl.py:309-311`. -/
def addRate (W : List ((NId × NId) × ℝ)) (k : NId × NId) (γ : ℝ) : List ((NId × NId) × ℝ) :=
  if k.1 ≠ k.2 then dictAdd (dictAdd W (k.2, k.2) (-γ)) k γ else W

/-- The states of the rows and columns of `dict_to_matrix`, `edpyt/cotnl.py:319-320`. -/
def matrixIds (D : List ((NId × NId) × ℝ)) : List NId := uniqueSorted leN (D.map (fun p => p.1.1) ++ D.map (fun p => p.1.2))

/-- `dict_to_matrix`, `edpyt/cotnl.py:318-326`. -/
def dictToMatrix (D : List ((NId × NId) × ℝ)) : ℕ → ℕ → ℝ :=
  D.foldl (fun M p a b => if a = (matrixIds D).idxOf p.1.1 ∧ b = (matrixIds D).idxOf p.1.2 then M a b + p.2 else M a b) fun _ _ => 0

/-- `for gf in gflist: gamma[lead] += gf(A[lead], beta, mu[lead])`. Source: `edpyt/sqtnl.py:159-162`. -/
noncomputable def sqtnlGamma (l : List NGf) (beta : ℝ) (mu : List ℝ) (A : List (List ℝ)) (lead : ℕ) : Except PyErr ℝ :=
  forM' (fun γ g => do
    let a ← getItem A lead
    let m ← getItem mu lead
    let x ← g.call a beta m
    pure (γ + x)) l 0

/-- The state of the loop: the dictionaries `W`, `T` and the class of the variable `gf`, which survives the iteration. Source: `edpyt/sqtnl.py:156-171`. -/
structure NState where
  W : List ((NId × NId) × ℝ)
  T : List ((NId × NId) × ℝ)
  last : Option Bool

/-- Body of the loop of `sqtnl.build_rate_and_transition_matrices`, `edpyt/sqtnl.py:158-171`. -/
noncomputable def sqtnlStep (beta : ℝ) (mu : List ℝ) (A : List (List ℝ)) (inject : ℤ) (st : NState) (p : (NId × NId) × List NGf) :
    Except PyErr NState := do
  let g0 ← sqtnlGamma p.2 beta mu A 0
  let g1 ← sqtnlGamma p.2 beta mu A 1
  let last := match p.2.getLast? with | some g => some g.el | none => st.last
  let gi ← getItem [g0, g1] inject
  match last with
  | none => .error .nameError
  | some el => pure ⟨addRate st.W p.1 (g0 + g1), dictAdd st.T p.1 (if el then -gi else gi), last⟩

/-- `sqtnl.build_rate_and_transition_matrices`, `edpyt/sqtnl.py:143-174`: the dictionaries. -/
noncomputable def sqtnlDicts (gd : List ((NId × NId) × List NGf)) (beta : ℝ) (mu : List ℝ) (A : List (List ℝ)) (inject : ℤ) : Except PyErr NState := do
  checkElements gd
  forM' (sqtnlStep beta mu A inject) gd ⟨[], [], none⟩

/-- A `Gf2e` (`el = true`) or `Gf2h` object, `edpyt/cotnl.py:150-198`. -/
structure NGf2 where
  el : Bool
  vF : List (List ℝ)
  vI : List (List ℝ)
  E : List ℝ
  dE : ℝ

/-- `y`, `edpyt/cotnl.py:184-187,195-198`. -/
noncomputable def NGf2.y (g : NGf2) (A : List (List ℝ)) (extract inject : ℕ) : Except PyErr (List ℝ) := do
  let aI ← getItem A inject
  let aE ← getItem A extract
  let x ← dotRows g.vF (if g.el then aI else aE)
  let x' ← dotRows g.vI (if g.el then aE else aI)
  pure (List.zipWith (· * ·) x x')

/-- `Gf2.__call__` at one point, `edpyt/cotnl.py:172-176`. -/
noncomputable def NGf2.call (g : NGf2) (z : ℝ) (A : List (List ℝ)) (extract inject : ℕ) : Except PyErr ℝ := do
  let y ← g.y A extract inject
  pure (List.zipWith (· * ·) y (g.E.map fun e => (e - z)⁻¹)).sum

/-- A `Sigma` object, `edpyt/cotnl.py:230-235`. -/
structure NSigma where
  spins : ℕ × ℕ
  gf2 : List NGf2
  dE : ℝ

/-- `Sigma.__call__` at one point, `edpyt/cotnl.py:240-242`. -/
noncomputable def NSigma.call (s : NSigma) (z : ℝ) (A : List (List ℝ)) (extract inject : ℕ) : Except PyErr ℝ := do
  let r ← forM' (fun r g => do let x ← g.call z A extract inject; pure (r + x)) s.gf2 0
  pure (r ^ 2)

/-- `Sigma.approximate`, `edpyt/cotnl.py:244-247`. -/
noncomputable def NSigma.approximate (A : List (List ℝ)) (beta : ℝ) (mu : List ℝ) (extract inject : ℕ) (s : NSigma) : Except PyErr ℝ := do
  let me ← getItem mu extract
  let mi ← getItem mu inject
  let r ← s.call (0.5 * (s.dE + mu.sum)) A extract inject
  pure (coG beta (s.dE - me + mi) * r)

/-- `nF`, `edpyt/cotnl.py:206`. -/
noncomputable def nF (x : ℝ) : ℝ := 1 / (Real.exp x + 1)

/-- `np.linspace(a, b, 200, endpoint=True)`. Source: `edpyt/cotnl.py:266`. -/
noncomputable def linspace200 (a b : ℝ) : List ℝ := (List.range 200).map fun k : ℕ => a + (k : ℝ) * ((b - a) / 199)

/-- `np.trapz(y, x)`. Source: `edpyt/cotnl.py:267`. -/
noncomputable def trapz : List ℝ → List ℝ → ℝ
  | y :: y' :: ys, x :: x' :: xs => (x' - x) * (y + y') / 2 + trapz (y' :: ys) (x' :: xs)
  | _, _ => 0

/-- The thermal weight of the integrand, `edpyt/cotnl.py:268-269`, with its parentheses. -/
noncomputable def nWeight (beta e muE muI : ℝ) : ℝ := nF (beta * (e - muE) * nF (-beta * (e - muI)))

/-- `Sigma.integrate`, `edpyt/cotnl.py:262-270`. -/
noncomputable def NSigma.integrate (A : List (List ℝ)) (beta : ℝ) (mu : List ℝ) (extract inject : ℕ) (s : NSigma) : Except PyErr ℝ := do
  let me0 ← getItem mu extract
  let mi ← getItem mu inject
  let me := me0 - s.dE
  let eners := linspace200 (min me mi - 4 / beta) (max me mi + 4 / beta)
  let vals ← eners.mapM fun e => do
    let r ← s.call e A extract inject
    pure (r * nWeight beta e me mi)
  pure (trapz vals eners)

/-- `Sigma.exact`, `edpyt/cotnl.py:249-260`. -/
noncomputable def NSigma.exact (psi : ℕ → ℂ → ℂ) (A : List (List ℝ)) (beta : ℝ) (mu : List ℝ) (extract inject : ℕ) (s : NSigma) : Except PyErr ℝ := do
  let me0 ← getItem mu extract
  let mi ← getItem mu inject
  let me := me0 - s.dE
  let ys ← s.gf2.mapM fun g => g.y A extract inject
  match ys.flatten, (s.gf2.flatMap fun g => g.E.map fun e => -e) with
  | [y], [e] => pure (integralI1 psi y e me mi beta)
  | [y1, y2], [e1, e2] => gamma2 psi y1 y2 e1 e2 me mi beta
  | [y1, y2, y3, y4], [e1, e2, e3, e4] => gamma4 psi y1 y2 y3 y4 e1 e2 e3 e4 me mi beta
  | _, _ => .error .notImplemented

/-- `gamma[lead1,lead2]`, `edpyt/cotnl.py:304-307`. -/
noncomputable def cotnlGamma (l : List NSigma) (integ : ℕ → ℕ → NSigma → Except PyErr ℝ) (l1 l2 : ℕ) : Except PyErr ℝ :=
  forM' (fun γ s => do let x ← integ l1 l2 s; pure (γ + x)) l 0

/-- `gamma[a, b]` of the array with four elements. Source: `edpyt/cotnl.py:304-312`. -/
def gamma22 (g00 g01 g10 g11 : ℝ) (a b : ℤ) : Except PyErr ℝ := do
  let r ← getItem [[g00, g01], [g10, g11]] a
  getItem r b

/-- Body of the loop of `cotnl.build_rate_and_transition_matrices`, `edpyt/cotnl.py:303-312`. -/
noncomputable def cotnlStep (integ : ℕ → ℕ → NSigma → Except PyErr ℝ) (extract inject : ℤ)
    (st : List ((NId × NId) × ℝ) × List ((NId × NId) × ℝ)) (p : (NId × NId) × List NSigma) :
    Except PyErr (List ((NId × NId) × ℝ) × List ((NId × NId) × ℝ)) := do
  let g00 ← cotnlGamma p.2 integ 0 0
  let g01 ← cotnlGamma p.2 integ 0 1
  let g10 ← cotnlGamma p.2 integ 1 0
  let g11 ← cotnlGamma p.2 integ 1 1
  let x ← gamma22 g00 g01 g10 g11 extract inject
  let y ← gamma22 g00 g01 g10 g11 inject extract
  pure (addRate st.1 p.1 (g00 + g01 + g10 + g11), dictAdd st.2 p.1 (x - y))

/-- `cotnl.build_rate_and_transition_matrices`, `edpyt/cotnl.py:286-315`: the dictionaries; `integ` is the chosen method. -/
noncomputable def cotnlDicts (sd : List ((NId × NId) × List NSigma)) (integ : ℕ → ℕ → NSigma → Except PyErr ℝ) (extract inject : ℤ) :
    Except PyErr (List ((NId × NId) × ℝ) × List ((NId × NId) × ℝ)) := do
  checkElements sd
  forM' (cotnlStep integ extract inject) sd ([], [])

/-- `excite_states`, `edpyt/cotnl.py:50-70`: `v_FJ` and `v_JI`, as lists over the sites. -/
noncomputable def nExciteStates (junk : ℕ) (spins : ℕ × ℕ) (opF opI : Ladder) (n : ℕ) (I J : Sct) :
    Except PyErr (List (ℕ → ℕ → ℝ) × List (ℕ → ℕ → ℝ)) := do
  let vJI ← nProjectAll junk spins.2 opI n I J
  let vFJ ← nProjectAll junk spins.1 opF n J I
  pure (vFJ, vJI)

/-- `excite_electron` (`el = true`) and `excite_hole` of `edpyt/cotnl.py:72-109`. -/
noncomputable def nExcite2 (junk : ℕ) (el : Bool) (spins : ℕ × ℕ) (n : ℕ) (N : ℤ) (es : Espace ℕ) : Except PyErr (List ((NId × NId) × NGf2)) := do
  let I ← nGet es N
  let J ← nGet es (if el then N + 1 else N - 1)
  let v ← if el then nExciteStates junk spins .c .cdg n I J else nExciteStates junk spins .cdg .c n I J
  pure ((ndindex2 I.eigvals.length I.eigvals.length).map fun fi => (((N, fi.1), (N, fi.2)),
    ⟨el, (List.range J.eigvals.length).map fun j => v.1.map fun M => M fi.1 j,
      (List.range J.eigvals.length).map fun j => v.2.map fun M => M j fi.2,
      if el then J.eigvals.map fun e => e - I.eigvals[fi.1]?.getD 0 else J.eigvals.map fun e => I.eigvals[fi.2]?.getD 0 - e,
      I.eigvals[fi.1]?.getD 0 - I.eigvals[fi.2]?.getD 0⟩))

/-- `Sigma(spins, gf2e, gf2h)`, `edpyt/cotnl.py:232-235`; without Green functions `self.gf2[0]` raises. -/
def mkNSigma (spins : ℕ × ℕ) (e h : Option NGf2) : Except PyErr NSigma :=
  match e.toList ++ h.toList with
  | [] => .error .indexError
  | g :: l => .ok ⟨spins, g :: l, g.dE⟩

/-- One pass of the loop over the spins, `edpyt/cotnl.py:129-143`. The set of keys is taken in the order electron keys, then the
other hole keys; each key is visited once, so that the order has no effect on the sorted result. -/
noncomputable def cotnlSpin (junk n : ℕ) (es : Espace ℕ) (N : ℤ) (sd : List ((NId × NId) × List NSigma)) (spins : ℕ × ℕ) :
    Except PyErr (List ((NId × NId) × List NSigma)) := do
  let ge ← if N + 1 < 2 * n then nExcite2 junk true spins n N es else pure []
  let gh ← if N - 1 > 0 then nExcite2 junk false (spins.2, spins.1) n N es else pure []
  forM' (fun sd k => do
    let s ← mkNSigma spins (dictGet ge k).toOption (dictGet gh k).toOption
    pure (appendN sd (k, s))) ((ge.map Prod.fst ++ gh.map Prod.fst).dedup) sd

/-- The test of one entry of `screen_transition_elements`, `edpyt/cotnl.py:330-333`. -/
noncomputable def nScreenTest (es : Espace ℕ) (egs : Option (WithTop ℝ)) (cutoff : ℝ) (p : (NId × NId) × List NSigma) : Except PyErr Bool := do
  let s ← getItem p.2 0
  if |s.dE| < cutoff then
    let near := fun (id : NId) => (do
      let sct ← nGet es id.1
      let e ← getItem sct.eigvals id.2
      match egs with
      | none => .error .typeError
      | some ⊤ => pure false
      | some (e0 : ℝ) => pure (decide (|e - e0| < cutoff)) : Except PyErr Bool)
    let bF ← near p.1.1
    if bF then near p.1.2 else pure false
  else pure false

/-- `a[mask]` of the first axis. Source: `edpyt/cotnl.py:342-349`. -/
def maskBy {α : Type} (mask : List Bool) (l : List α) : List α := ((l.zip mask).filter fun p => p.2).map Prod.fst

/-- One Green function of the loop of `screen_transition_elements`, `edpyt/cotnl.py:342-349`. -/
noncomputable def nScreenGf (A : List (List ℝ)) (acc : List NGf2) (g : NGf2) : Except PyErr (List NGf2) := do
  let y ← g.y A 1 0
  let mask := y.map fun x => decide (|x| > 1e-10)
  pure (if mask.any id then acc ++ [⟨g.el, maskBy mask g.vF, maskBy mask g.vI, maskBy mask g.E, g.dE⟩] else acc)

/-- The loop over the elements of one transition, `edpyt/cotnl.py:339-352`. -/
noncomputable def nScreenList (A : List (List ℝ)) (l : List NSigma) : Except PyErr (List NSigma) :=
  forM' (fun acc s => do
    let gfs ← forM' (nScreenGf A) s.gf2 []
    pure (if gfs = [] then acc else acc ++ [⟨s.spins, gfs, s.dE⟩])) l []

/-- `screen_transition_elements`, `edpyt/cotnl.py:329-355`. The number of sites is read from the first row of the first entry; an
array without rows keeps its number of columns in numpy and is taken as zero columns here. -/
noncomputable def nScreen (sd : List ((NId × NId) × List NSigma)) (egs : Option (WithTop ℝ)) (es : Espace ℕ) (cutoff : ℝ) :
    Except PyErr (List ((NId × NId) × List NSigma)) := do
  let kept ← forM' (fun acc p => do let b ← nScreenTest es egs cutoff p; pure (if b then acc ++ [p] else acc)) sd []
  match kept with
  | [] => .error .stopIteration
  | p :: _ => do
    let s ← getItem p.2 0
    let g ← getItem s.gf2 0
    let n := (g.vF.head?.getD []).length
    forM' (fun acc p => do
      let l ← nScreenList (List.replicate 2 (List.replicate n 1)) p.2
      pure (if l = [] then acc else acc ++ [(p.1, l)])) kept []

/-- `cotnl.build_transition_elements`, `edpyt/cotnl.py:112-147`. -/
noncomputable def cotnlBuild (junk n : ℕ) (es : Espace ℕ) (N : Option ℤ) (egs : Option ℝ) (cutoff : Option ℝ) :
    Except PyErr (List ((NId × NId) × List NSigma)) := do
  let g ← match N with
    | some N => pure (N, egs.map fun e => ((e : ℝ) : WithTop ℝ))
    | none => match egs with
      | none => .error .assertionError
      | some _ => do
        let g ← nGround es
        match g.1 with
        | some N => pure ((N : ℤ), some g.2)
        | none => .error .typeError
  let sd ← forM' (cotnlSpin junk n es g.1) (ndindex2 2 2) []
  let sd := sd.mergeSort fun a b => leNN a.1 b.1
  match cutoff with
  | none => pure sd
  | some x => nScreen sd g.2 es x

end Edpyt
