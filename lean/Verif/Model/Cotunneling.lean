import Verif.Model.SqTunneling
import Verif.Model.Integrals
/-!
Model of `edpyt/cotunneling.py`. Reals are exact. `np.reciprocal(0.)`, which gives `inf`, is zero in the model.
-/
namespace Edpyt

/-- A `Gf2` object, `edpyt/cotunneling.py:187-216`; `vF`, `vI` have one row per intermediate state. -/
structure CoGf2 where
  idF : TId
  idI : TId
  vF : List (List ℝ)
  vI : List (List ℝ)
  E : List ℝ
  dE : ℝ

/-- `a.dot(v.T)` for a matrix given by its rows (at least one). Source: `edpyt/cotunneling.py:212-216`. -/
noncomputable def dotRows (v : List (List ℝ)) (a : List ℝ) : Except PyErr (List ℝ) := v.mapM fun r => dotArr r a

/-- `Gf2.__call__` at one point, `edpyt/cotunneling.py:212-216`. -/
noncomputable def CoGf2.call (g : CoGf2) (z : ℝ) (aF aI : List ℝ) : Except PyErr ℝ := do
  let x ← dotRows g.vF aF
  let y ← dotRows g.vI aI
  pure (List.zipWith (· * ·) (List.zipWith (· * ·) x y) (g.E.map fun e => (z - e)⁻¹)).sum

/-- The classes `_Sigmae`, `_Sigmah` and `Sigma`, `edpyt/cotunneling.py:243-307`. -/
inductive CoSigma where
  | e (g : CoGf2)
  | h (g : CoGf2)
  | eh (ge gh : CoGf2)

/-- `sigma.gf2`. Source: `edpyt/cotunneling.py:221-222,288-295`. -/
def CoSigma.gf2 : CoSigma → CoGf2
  | .e g => g
  | .h g => g
  | .eh g _ => g

/-- `sigma.__call__`, `edpyt/cotunneling.py:255-257,272-274,305-307`; all is real, so that `abs2` is the square. -/
noncomputable def CoSigma.call (s : CoSigma) (z : ℝ) (A : List (List ℝ)) (extract inject : ℕ) : Except PyErr ℝ := do
  let aI ← getItem A inject
  let aE ← getItem A extract
  match s with
  | .e g => do let r ← g.call z aI aE; pure (r ^ 2)
  | .h g => do let r ← g.call z aE aI; pure (r ^ 2)
  | .eh ge gh => do let r ← ge.call z aI aE; let r' ← gh.call z aE aI; pure ((r + r') ^ 2)

/-- `_Sigma.G`, `edpyt/cotunneling.py:229-236`, and `G`, `edpyt/cotnl.py:210-216`. -/
noncomputable def coG (beta z : ℝ) : ℝ :=
  if beta * |z| < 1e-18 then 1 else if beta * z > 1000 then 0 else z / (Real.exp (beta * z) - 1)

/-- `_Sigma.approximate`, `edpyt/cotunneling.py:238-240`. -/
noncomputable def CoSigma.approximate (A : List (List ℝ)) (beta : ℝ) (mu : List ℝ) (extract inject : ℕ) (s : CoSigma) : Except PyErr ℝ := do
  let me ← getItem mu extract
  let mi ← getItem mu inject
  let r ← s.call (0.5 * (s.gf2.dE + mu.sum)) A extract inject
  pure (coG beta (s.gf2.dE - me + mi) * r)

/-- `A[l].dot(v[0])`. Source: `edpyt/cotunneling.py:249-253`. -/
noncomputable def dotFirst (v : List (List ℝ)) (a : List ℝ) : Except PyErr ℝ := do
  let r ← getItem v 0
  dotArr r a

/-- `integrate` of the three classes, `edpyt/cotunneling.py:249-253,266-270,297-303`. -/
noncomputable def CoSigma.integrate (psi : ℕ → ℂ → ℂ) (A : List (List ℝ)) (beta : ℝ) (mu : List ℝ) (extract inject : ℕ) (s : CoSigma) :
    Except PyErr ℝ := do
  let aI ← getItem A inject
  let aE ← getItem A extract
  let me ← getItem mu extract
  let mi ← getItem mu inject
  match s with
  | .e g => do
    let x ← dotFirst g.vF aI
    let y ← dotFirst g.vI aE
    let e ← getItem g.E 0
    pure (integralI1 psi (x * y) e (me - g.dE) mi beta)
  | .h g => do
    let x ← dotFirst g.vF aE
    let y ← dotFirst g.vI aI
    let e ← getItem g.E 0
    pure (integralI1 psi (x * y) e (me - g.dE) mi beta)
  | .eh ge gh => do
    let x ← dotFirst ge.vF aI
    let y ← dotFirst ge.vI aE
    let x' ← dotFirst gh.vF aE
    let y' ← dotFirst gh.vI aI
    let e ← getItem ge.E 0
    let e' ← getItem gh.E 0
    gamma2 psi (x * y) (x' * y') e e' (me - ge.dE) mi beta

/-- The loop of lines 76-77 and 111-112. -/
noncomputable def coGf2List (hole : Bool) (qF qI : ℤ × ℤ) (sgnI sgnJ : ℝ) (vFJ vJI : List (ℕ → ℕ → ℝ)) (F J I : Sct) : List CoGf2 :=
  (ndindex2 F.eigvals.length I.eigvals.length).map fun fi =>
    ⟨(qF.1, qF.2, fi.1), (qI.1, qI.2, fi.2),
      (List.range J.eigvals.length).map fun j => vFJ.map fun M => sgnJ * M fi.1 j,
      (List.range J.eigvals.length).map fun j => vJI.map fun M => sgnI * M j fi.2,
      J.eigvals.map fun e => if hole then -e + I.eigvals[fi.2]?.getD 0 else e - I.eigvals[fi.2]?.getD 0,
      F.eigvals[fi.1]?.getD 0 - I.eigvals[fi.2]?.getD 0⟩

/-- `(-1.)**ndw if ispin==0 else 1.`. Source: `edpyt/cotunneling.py:65-66`. -/
def coSgn (ispin : ℤ) (ndw : ℤ) : ℝ := if ispin = 0 then (-1) ^ ndw.toNat else 1

/-- `project_add`, `edpyt/cotunneling.py:34-78`. -/
noncomputable def coProjectAdd (junk : ℕ) (ispinI ispinJ : ℤ) (n : ℕ) (q : ℤ × ℤ) (es : Espace (ℕ × ℕ)) : Except PyErr (List CoGf2) := do
  let qJ ← getCdgSector n q.1 q.2 ispinJ
  let qF ← getCSector qJ.1 qJ.2 ispinI
  let sctI ← espaceGet es q
  let sctJ ← espaceGet es qJ
  let sctF ← espaceGet es qF
  let vJI ← projectAll junk ispinJ n .cdg sctI sctJ
  let vFJ ← projectAll junk ispinI n .c sctJ sctF
  pure (coGf2List false qF q (coSgn ispinJ q.2) (coSgn ispinI qJ.2) vFJ vJI sctF sctJ sctI)

/-- `project_sub`, `edpyt/cotunneling.py:81-114`. -/
noncomputable def coProjectSub (junk : ℕ) (ispinI ispinJ : ℤ) (n : ℕ) (q : ℤ × ℤ) (es : Espace (ℕ × ℕ)) : Except PyErr (List CoGf2) := do
  let qJ ← getCSector q.1 q.2 ispinJ
  let qF ← getCdgSector n qJ.1 qJ.2 ispinI
  let sctI ← espaceGet es q
  let sctJ ← espaceGet es qJ
  let sctF ← espaceGet es qF
  let vJI ← projectAll junk ispinJ n .c sctI sctJ
  let vFJ ← projectAll junk ispinI n .cdg sctJ sctF
  pure (coGf2List true qF q (coSgn ispinJ q.2) (coSgn ispinI qJ.2) vFJ vJI sctF sctJ sctI)

/-- `Sigma(gf2e, gf2h)`, `edpyt/cotunneling.py:281-295`. With two `None` the access to `idF` raises later. -/
def mkSigma : Option CoGf2 → Option CoGf2 → Except PyErr CoSigma
  | none, none => .error .attributeError
  | some g, none => .ok (.e g)
  | none, some g => .ok (.h g)
  | some ge, some gh => if ge.idF = gh.idF ∧ ge.idI = gh.idI then .ok (.eh ge gh) else .error .assertionError

/-- `zip_longest(l, l')` of lists of options. Source: `edpyt/cotunneling.py:155`. -/
def zipLongest {α : Type} : List (Option α) → List (Option α) → List (Option α × Option α)
  | [], l' => l'.map fun b => (none, b)
  | l, [] => l.map fun a => (a, none)
  | a :: l, b :: l' => (a, b) :: zipLongest l l'

/-- `try: l = f() except OutOfHilbertError: l = (None,)`. Source: `edpyt/cotunneling.py:146-153`. -/
def orNone {α : Type} : Except PyErr (List α) → Except PyErr (List (Option α))
  | .ok l => .ok (l.map some)
  | .error .outOfHilbert => .ok [none]
  | .error e => .error e

/-- A dictionary `sigmadict`. Source: `edpyt/cotunneling.py:178`. -/
abbrev SigmaDict := List ((TId × TId) × List CoSigma)

/-- `sigmadict[k].append(s)` of a `defaultdict(list)`. Source: `edpyt/cotunneling.py:157`. -/
def appendAt {α : Type} (sd : List ((TId × TId) × List α)) (k : TId × TId) (s : α) : List ((TId × TId) × List α) :=
  dictSet sd k ((match dictGet sd k with | .ok l => l | .error _ => []) ++ [s])

/-- `sigmalist` for one pair of spins, `edpyt/cotunneling.py:146-156`. -/
noncomputable def coSigmaList (junk n : ℕ) (q : ℤ × ℤ) (es : Espace (ℕ × ℕ)) (ij : ℤ × ℤ) : Except PyErr (List CoSigma) := do
  let le ← orNone (coProjectAdd junk ij.1 ij.2 n q es)
  let lh ← orNone (coProjectSub junk ij.2 ij.1 n q es)
  (zipLongest le lh).mapM fun p => mkSigma p.1 p.2

/-- `project_sector`, `edpyt/cotunneling.py:117-158`. -/
noncomputable def coProjectSector (junk n : ℕ) (q : ℤ × ℤ) (es : Espace (ℕ × ℕ)) (sd : SigmaDict) (ispin : List (ℤ × ℤ)) : Except PyErr SigmaDict := do
  let sigmas ← forM' (fun acc ij => do let l ← coSigmaList junk n q es ij; pure (acc ++ l)) ispin []
  pure (sigmas.foldl (fun sd s => appendAt sd (s.gf2.idF, s.gf2.idI) s) sd)

/-- `zip(ispin, dS)`, `edpyt/cotunneling.py:166-170`. -/
def coSpins : List ((ℤ × ℤ) × (ℤ × ℤ)) := [((0, 0), (0, 0)), ((0, 1), (-1, 1)), ((1, 0), (1, -1)), ((1, 1), (0, 0))]

/-- `reached_by_gs`, `edpyt/cotunneling.py:172-173`. -/
def coReached (n : ℕ) (ngs : List (ℤ × ℤ)) : List (ℤ × ℤ) :=
  (ngs.flatMap fun q => coSpins.map fun s => (q.1 + s.2.1, q.2 + s.2.2)).filter
    fun q => decide (0 ≤ q.1 ∧ q.1 ≤ (n : ℤ) ∧ 0 ≤ q.2 ∧ q.2 ≤ (n : ℤ))

/-- `ispin_subset`, `edpyt/cotunneling.py:180`. -/
def coSubset (reached : List (ℤ × ℤ)) (q : ℤ × ℤ) : List (ℤ × ℤ) :=
  (coSpins.filter fun s => decide ((q.1 + s.2.1, q.2 + s.2.2) ∈ reached)).map Prod.fst

/-- `screen_transition_elements`, `edpyt/cotunneling.py:369-373`: the dictionary comprehension; `sigma[0].dE` is that of `sigma[0].gf2` (`_Sigma.__getattr__`, `edpyt/cotunneling.py:221-227`). -/
noncomputable def coScreen (sd : SigmaDict) (egs : ℝ) (es : Espace (ℕ × ℕ)) (cutoff : ℝ) : Except PyErr SigmaDict :=
  let near : TId → Except PyErr Bool := fun id => do
    let s ← espaceGet es (id.1, id.2.1)
    let e ← getItem s.eigvals id.2.2
    pure (decide (|e - egs| < cutoff))
  forM' (fun acc p => do
    let s ← getItem p.2 0
    if |s.gf2.dE| < cutoff then do
      if ← near p.1.1 then
        if ← near p.1.2 then pure (acc ++ [p]) else pure acc
      else pure acc
    else pure acc) sd []

/-- `build_transition_elements`, `edpyt/cotunneling.py:161-184`. -/
noncomputable def coBuild (junk n : ℕ) (egs : ℝ) (es : Espace (ℕ × ℕ)) (cutoff : Option ℝ) : Except PyErr SigmaDict := do
  let ngs ← groundSectors es egs
  let reached := coReached n ngs
  let sd ← forM' (fun sd q => coProjectSector junk n q es sd (coSubset reached q)) (uniqueSorted lePair reached) []
  match cutoff with
  | some c => coScreen sd egs es c
  | none => pure sd

/-- The sum over `sigmadict[F, I]`; `none` when something raised (`except: continue`). A missing key of a `defaultdict` gives
the empty sum (and inserts the key), of a plain dictionary `KeyError`; both leave the matrix unchanged. Source: `edpyt/cotunneling.py:335-340`. -/
noncomputable def coGamma (sd : SigmaDict) (integ : CoSigma → Except PyErr ℝ) (F I : TId) : Option ℝ :=
  Except.toOption (do
    let l ← dictGet sd (F, I)
    forM' (fun γ s => do let x ← integ s; pure (γ + x)) l 0)

/-- `sorted(set([idF for idF, _ in sigmadict.keys()]))`. Source: `edpyt/cotunneling.py:328,353`. -/
def coFinalIds (sd : SigmaDict) : List TId := uniqueSorted leId (sd.map fun p => p.1.1)

/-- Body of the inner loop of `build_rate_matrix`, `edpyt/cotunneling.py:332-342`. -/
noncomputable def coRateStep (sd : SigmaDict) (integ : CoSigma → Except PyErr ℝ) (W : ℕ → ℕ → ℝ) (p : ℕ × ℕ) : ℕ → ℕ → ℝ :=
  let ids := coFinalIds sd
  if p.1 ≠ p.2 then
    match ids[p.2]?, ids[p.1]? with
    | some F, some I => match coGamma sd integ F I with
      | some γ => addFlow W p.2 p.1 γ
      | none => W
    | _, _ => W
  else W

/-- `build_rate_matrix`, `edpyt/cotunneling.py:310-343`; `integ extract inject` is the chosen method of a `sigma`.
`assert ~odd` never fails. -/
noncomputable def coRate (sd : SigmaDict) (integ : ℕ → ℕ → CoSigma → Except PyErr ℝ) : ℕ → ℕ → ℝ :=
  let sz := (coFinalIds sd).length
  (ndindex2 2 2).foldl (fun W l => (ndindex2 sz sz).foldl (coRateStep sd (integ l.1 l.2)) W) fun _ _ => 0

/-- `build_transition_matrix`, `edpyt/cotunneling.py:346-366`: the element `[f, i]`. -/
noncomputable def coTransition (sd : SigmaDict) (integ : ℕ → ℕ → CoSigma → Except PyErr ℝ) (extract inject : ℕ) (f i : ℕ) : ℝ :=
  match (coFinalIds sd)[f]?, (coFinalIds sd)[i]? with
  | some F, some I =>
    (coGamma sd (fun s => do
      let x ← integ extract inject s
      let y ← integ inject extract s
      pure (x - y)) F I).getD 0
  | _, _ => 0

/-- `find_active_sectors`, `edpyt/cotunneling.py:376-391`. -/
def coActive (ngs : List (ℤ × ℤ)) : List (ℤ × ℤ) :=
  let dS : List (ℤ × ℤ) := [(0, 0), (-1, 1), (1, -1)]
  let dN : List (ℤ × ℤ) := [(0, 1), (0, -1), (1, 0), (-1, 0)]
  let reached := ngs.flatMap fun q => dS.map fun d => (q.1 + d.1, q.2 + d.2)
  let more := (uniqueSorted lePair reached).flatMap fun q =>
    (dS.filter fun d => decide ((q.1 + d.1, q.2 + d.2) ∈ reached)).flatMap fun _ => dN.map fun d => (q.1 + d.1, q.2 + d.2)
  uniqueSorted lePair (reached ++ more)

/-- `get_active_neig`, `edpyt/cotunneling.py:394-400`. -/
def coActiveNeig (n : ℕ) (ngs : List (ℤ × ℤ)) (val : ℕ) : Except PyErr (List ℕ) := do
  let idx ← forM' (fun acc q => do let i ← getSectorIndex n q.1 q.2; pure (acc ++ [i])) (coActive ngs) []
  forM' (fun neig i => setItem neig i val) idx (List.replicate ((n + 1) * (n + 1)) 0)

end Edpyt
