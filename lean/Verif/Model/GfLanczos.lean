import Verif.Model.ContFrac
import Verif.Model.Gf2
import Verif.Model.Gf2Exact
import Verif.Model.Lanczos
/-!
Model of `build_gf_lanczos`, `edpyt/gf_lanczos.py:132-254`, and of `edpyt/gf2_lanczos.py`. The calls with several possible outcomes
(LAPACK, uninitialised memory) make it a relation between the arguments and the outcomes.
-/
namespace Edpyt

/-- Sequencing of computations with several possible outcomes. Source: `edpyt/gf_lanczos.py:168-244`. -/
def BindR {α β : Type} (m : Except PyErr α → Prop) (f : α → Except PyErr β → Prop) (r : Except PyErr β) : Prop :=
  (∃ x, m (.ok x) ∧ f x r) ∨ ∃ e, m (.error e) ∧ r = .error e

/-- A computation with one outcome. Source: `edpyt/gf_lanczos.py:132-254`. -/
def DetR {α : Type} (x r : Except PyErr α) : Prop := r = x

/-- One kernel of a Green function: `continued_fraction(a, b)` or `spectral(l, q)`, `edpyt/gf_lanczos.py:17-36`. -/
inductive GfFn
  | cf (a b : List ℝ)
  | sp (l q : List ℝ)

/-- Its value at one energy. Source: `edpyt/gf_lanczos.py:17-36`. -/
noncomputable def GfFn.eval (junk : ℝ) : GfFn → ℝ → ℝ → ℂ
  | .cf a b => cfEval junk a b
  | .sp l q => spEval l q

/-- `gf_lanczos.Gf`, `edpyt/gf_lanczos.py:42-52`. -/
structure GfL where
  funcs : List GfFn
  Z : ℝ

/-- `Gf.__call__` at one energy, `edpyt/gf_lanczos.py:50-52`. -/
noncomputable def GfL.call (junk : ℝ) (g : GfL) (e eta : ℝ) : ℂ := (g.funcs.map fun f => f.eval junk e eta).sum / (g.Z : ℂ)

/-- The argument `repr`. Source: `edpyt/gf_lanczos.py:132,148-150`. -/
inductive GfRepr
  | cf
  | sp

/-- The parameters of `build_sl_tridiag`, `edpyt/lanczos.py:73`: `eg` is `egs_tridiag` and `close` the test against `tol`. -/
structure LancCfg where
  maxn : ℕ
  ND : ℕ
  delta : ℝ
  eg : List ℝ → List ℝ → ℝ
  close : ℝ → Option ℝ → Bool

/-- Record of one successful call of `build_sl_tridiag` (not part of the program: used to state how accurate a run was). Source: `edpyt/gf_lanczos.py:203,238`. -/
structure LancRun where
  d : ℕ
  mv : (Fin d → ℝ) → Fin d → ℝ
  phi : Fin d → ℝ
  a : List ℝ
  b : List ℝ

/-- `matvec = matvec_operator(*ops)` as a function of vectors of length `d`. The result of each call is one of those the parallel kernels
can give; it is assumed to depend on the vector only (by C24 there is just one). Source: `edpyt/gf_lanczos.py:198-200,233-235`. -/
def IsMatvec (ops : List (Op ℝ)) (d : ℕ) (mv : (Fin d → ℝ) → Fin d → ℝ) : Prop :=
  ∀ x, MatvecOperator ops (List.ofFn x) (List.ofFn (mv x))

/-- `build_gf_coeff(a, b, Ei, exponent, sign)` followed by `gf_kernel`. Source: `edpyt/gf_lanczos.py:149-150,206-209,241-244`. -/
def GfCoeff (rep : GfRepr) (a b : List ℝ) (Ei ex sign : ℝ) (r : Except PyErr GfFn) : Prop :=
  match rep with
  | .cf => r = (gfCoeffCf a b Ei ex sign).map fun p => .cf p.1 p.2
  | .sp => ∃ w U, EighTri a b.tail w U ∧ r = (gfCoeffSp b w U Ei ex sign).map fun p => .sp p.1 p.2

/-- The body of the loop over `iL`, `edpyt/gf_lanczos.py:206-214`, and without `try` (`catch = false`) `edpyt/gf2_lanczos.py:91-96`.
The state holds the functions added and the records. `scal` changes row `iL` of `v0` in place; it is not used again. -/
def LanczosRow (cfg : LancCfg) (rep : GfRepr) (catch_ : Bool) (d : ℕ) (mv : (Fin d → ℝ) → Fin d → ℝ) (v0 : ℕ → ℕ → ℝ) (E : List ℝ) (ex : ℝ → ℝ) (sign : ℝ)
    (st : List GfFn × List LancRun) (iL : ℕ) (r : Except PyErr (List GfFn × List LancRun)) : Prop :=
  ∃ (junk : List ℝ) (t : Except PyErr (List ℝ × List ℝ)), junk.length = cfg.maxn ∧
    BuildSlTridiag (slStep mv) (fun b => decide (|b| < cfg.delta)) cfg.eg cfg.close cfg.maxn cfg.ND junk 0 (fun c : Fin d => v0 iL c) t ∧
    match t with
    | .ok (a, b) => BindR (GfCoeff rep a b (E[iL]?.getD 0) (ex (E[iL]?.getD 0)) sign)
        (fun f => DetR (.ok (st.1 ++ [f], st.2 ++ [⟨d, mv, fun c => v0 iL c, a, b⟩]))) r
    | .error .zeroNorm => if catch_ then r = .ok st else r = .error .zeroNorm
    | .error e => r = .error e

/-- `build_empty_sector(n, nup, ndw)`, `edpyt/espace.py:35-53`: `eigvals` and `eigvecs` are `None` there and are assigned before use. -/
def buildEmptySector (w n : ℕ) (q : ℕ × ℕ) : Except PyErr Sct := do
  let up ← generateStates w n q.1
  let dw ← generateStates w n q.2
  pure ⟨.spin up dw, up.length * dw.length, [], []⟩

/-- `espace.get(q, None) or build_empty_sector(n, *q)`, and whether the object is held by `espace`. Source: `edpyt/gf_lanczos.py:181,216`. -/
def arrivalSector (w n : ℕ) (es : Espace (ℕ × ℕ)) (q : ℕ × ℕ) : Except PyErr (Sct × Bool) :=
  match dictGet es q with
  | .ok s => .ok (s, true)
  | .error _ => (buildEmptySector w n q).map fun s => (s, false)

/-- `[project_up, project_dw][ispin]`. Source: `edpyt/gf_lanczos.py:152`. -/
noncomputable def projectPickL (junk n : ℕ) (ispin : Bool) (pos : ℕ) (op : Ladder) (I J : Sct) : Except PyErr (ℕ → ℕ → ℝ) :=
  if ispin then projectDw junk pos n op I J else projectUp junk pos n op I J

/-- Arguments that stay the same during a call. Source: `edpyt/gf_lanczos.py:132`. -/
structure GfLArgs where
  cfg : LancCfg
  rep : GfRepr
  w : ℕ
  junk : ℕ
  ham : HamArgs
  beta : ℝ
  egs : ℝ
  ispin : Bool

/-- Sign of the pole energies: `EJ - EI` after adding, `EI - EJ` after removing an electron. Source: `edpyt/gf_lanczos.py:188,223,243`. -/
def Ladder.sign : Ladder → ℝ
  | .c => -1
  | .cdg => 1

/-- The `else` branches of `edpyt/gf_lanczos.py:177-214` (`op = cdg`) and `:220-248` (`op = c`): the contribution of the sector `sctI` through
the arrival sector `qJ`. A small arrival sector is diagonalised and its object updated in place, which changes the caller's `espace` if it
is held there. The outcome is the content of `espace`, the functions added and the records. -/
def GfHalf (g : GfLArgs) (pos : ℕ) (op : Ladder) (sctI : Sct) (qJ : ℕ × ℕ) (es : Espace (ℕ × ℕ)) :
    Except PyErr (Espace (ℕ × ℕ) × List GfFn × List LancRun) → Prop :=
  BindR (DetR (arrivalSector g.w g.ham.n es qJ)) fun sctJ =>
    if sctJ.1.d ≤ 10 then
      BindR (SolveSector g.ham sctJ.1.states sctJ.1.d none) fun wv =>
        let J : Sct := ⟨sctJ.1.states, sctJ.1.d, wv.1, wv.2⟩
        BindR (DetR (projectPick g.junk g.ham.n g.ispin pos op sctI J)) fun bJ =>
          let idx := ndindex2 J.eigvals.length sctI.eigvals.length
          let l := idx.map fun jk => op.sign * ((J.eigvals[jk.1]?.getD 0) - (sctI.eigvals[jk.2]?.getD 0))
          let q := idx.map fun jk => bJ jk.1 jk.2 ^ 2 * Real.exp (-g.beta * ((sctI.eigvals[jk.2]?.getD 0) - g.egs))
          DetR (.ok (if sctJ.2 then dictSet es qJ J else es, [.sp l q], []))
    else
      BindR (DetR (projectPickL g.junk g.ham.n g.ispin pos op sctI sctJ.1)) fun v0 =>
        BindR (g.ham.Build sctJ.1.states) fun ops r =>
          ∃ mv, IsMatvec ops sctJ.1.d mv ∧
            BindR (ForR (LanczosRow g.cfg g.rep true sctJ.1.d mv v0 sctI.eigvals (fun E => Real.exp (-g.beta * (E - g.egs))) op.sign)
                (List.range sctI.eigvals.length) ([], []))
              (fun st => DetR (.ok (es, st.1, st.2))) r

/-- Loop variables of `build_gf_lanczos`: the content of `espace`, of `gfe.funcs` and `gfh.funcs` (when `separate` is false these are the same
list and everything is put in the first), and the records. Source: `edpyt/gf_lanczos.py:153-168`. -/
structure GfLSt where
  es : Espace (ℕ × ℕ)
  fe : List GfFn
  fh : List GfFn
  log : List LancRun

/-- `try: get_cdg_sector(...) except OutOfHilbertError: pass else: ...`, and the same for `get_c_sector`. Source: `edpyt/gf_lanczos.py:175-179,210-214`. -/
def gfArrival (n : ℕ) (op : Ladder) (ispin : Bool) (q : ℕ × ℕ) : Except PyErr (ℤ × ℤ) :=
  match op with
  | .cdg => getCdgSector n q.1 q.2 (if ispin then 1 else 0)
  | .c => getCSector q.1 q.2 (if ispin then 1 else 0)

/-- One of the two halves of the loop body. Source: `edpyt/gf_lanczos.py:175-209,210-244`. -/
def GfStepHalf (half : Ladder → Sct → ℕ × ℕ → Espace (ℕ × ℕ) → Except PyErr (Espace (ℕ × ℕ) × List GfFn × List LancRun) → Prop)
    (g : GfLArgs) (separate : Bool) (op : Ladder) (q : ℕ × ℕ) (sctI : Sct) (st : GfLSt) (r : Except PyErr GfLSt) : Prop :=
  match gfArrival g.ham.n op g.ispin q with
  | .error .outOfHilbert => r = .ok st
  | .error e => r = .error e
  | .ok (nupJ, ndwJ) => BindR (half op sctI (nupJ.toNat, ndwJ.toNat) st.es) (fun out => DetR (.ok
      (if separate ∧ op = .c then ⟨out.1, st.fe, st.fh ++ out.2.1, st.log ++ out.2.2⟩ else ⟨out.1, st.fe ++ out.2.1, st.fh, st.log ++ out.2.2⟩))) r

/-- One pass of the loop over `espace.keys()`, `edpyt/gf_lanczos.py:168-248`. -/
def GfStep (half : Ladder → Sct → ℕ × ℕ → Espace (ℕ × ℕ) → Except PyErr (Espace (ℕ × ℕ) × List GfFn × List LancRun) → Prop)
    (g : GfLArgs) (separate : Bool) (st : GfLSt) (q : ℕ × ℕ) : Except PyErr GfLSt → Prop :=
  BindR (DetR (dictGet st.es q)) fun sctI =>
    BindR (GfStepHalf half g separate .cdg q sctI st) fun st => GfStepHalf half g separate .c q sctI st

/-- What a call returns and leaves behind. `gfh` is `gfe` when `separate` is false. Source: `edpyt/gf_lanczos.py:246-254`. -/
structure GfLOut where
  gfe : GfL
  gfh : GfL
  es : Espace (ℕ × ℕ)
  log : List LancRun

/-- `build_gf_lanczos(H, V, espace, beta, egs, pos, repr, ispin, separate)`. Source: `edpyt/gf_lanczos.py:132-254`. -/
def BuildGfLanczos (g : GfLArgs) (pos : ℕ) (separate : Bool) (es : Espace (ℕ × ℕ)) : Except PyErr GfLOut → Prop :=
  BindR (ForR (GfStep (GfHalf g pos) g separate) (es.map Prod.fst) ⟨es, [], [], []⟩) fun st =>
    let Z := partition st.es g.beta g.egs
    DetR (.ok ⟨⟨st.fe, Z⟩, if separate then ⟨st.fh, Z⟩ else ⟨st.fe, Z⟩, st.es, st.log⟩)

/-- The contribution of `sctI` through the arrival sector `qJ` in `build_gf_offdiag`, `edpyt/gf2_lanczos.py:82-96` and `:103-118`: always by Lanczos, from the
sum of two projections, and without `try`. -/
def GfOffHalf (g : GfLArgs) (ipos jpos : ℕ) (op : Ladder) (sctI : Sct) (qJ : ℕ × ℕ) (es : Espace (ℕ × ℕ)) :
    Except PyErr (Espace (ℕ × ℕ) × List GfFn × List LancRun) → Prop :=
  BindR (DetR (arrivalSector g.w g.ham.n es qJ)) fun sctJ =>
    BindR (DetR (projectPickL g.junk g.ham.n g.ispin ipos op sctI sctJ.1)) fun v1 =>
      BindR (DetR (projectPickL g.junk g.ham.n g.ispin jpos op sctI sctJ.1)) fun v2 =>
        BindR (g.ham.Build sctJ.1.states) fun ops r =>
          ∃ mv, IsMatvec ops sctJ.1.d mv ∧
            BindR (ForR (LanczosRow g.cfg g.rep false sctJ.1.d mv (fun k c => v1 k c + v2 k c) sctI.eigvals (fun E => Real.exp (-g.beta * (E - g.egs))) op.sign)
                (List.range sctI.eigvals.length) ([], []))
              (fun st => DetR (.ok (es, st.1, st.2))) r

/-- `build_gf_offdiag(H, V, espace, beta, ipos, jpos, ispin, egs, repr, separate)`, `edpyt/gf2_lanczos.py:59-127`. -/
def BuildGfOffdiag (g : GfLArgs) (ipos jpos : ℕ) (separate : Bool) (es : Espace (ℕ × ℕ)) : Except PyErr GfLOut → Prop :=
  BindR (ForR (GfStep (GfOffHalf g ipos jpos) g separate) (es.map Prod.fst) ⟨es, [], [], []⟩) fun st =>
    let Z := partition st.es g.beta g.egs
    DetR (.ok ⟨⟨st.fe, Z⟩, if separate then ⟨st.fh, Z⟩ else ⟨st.fe, Z⟩, st.es, st.log⟩)

/-- The object arrays `gfe`, `gfh` of `build_gf2_lanczos`, the content of `espace` and the records. Source: `edpyt/gf2_lanczos.py:130-161`. -/
structure Gf2LSt where
  es : Espace (ℕ × ℕ)
  gfe : ℕ → ℕ → Option GfL
  gfh : ℕ → ℕ → Option GfL
  log : List LancRun

/-- `add(i, j, gf)`, `edpyt/gf2_lanczos.py:138-145`: without `separate` there is no array `gfh`. -/
def gf2Add (separate : Bool) (st : Gf2LSt) (i j : ℕ) (out : GfLOut) : Gf2LSt :=
  ⟨out.es, upd2 st.gfe i j (some out.gfe), if separate then upd2 st.gfh i j (some out.gfh) else st.gfh, st.log ++ out.log⟩

/-- Body of the first loop, `edpyt/gf2_lanczos.py:150-153`. -/
def Gf2Diag (g : GfLArgs) (separate : Bool) (st : Gf2LSt) (i : ℕ) : Except PyErr Gf2LSt → Prop :=
  BindR (BuildGfLanczos g i separate st.es) fun out => DetR (.ok (gf2Add separate st i i out))

/-- Body of the second loop, `edpyt/gf2_lanczos.py:158-161`. -/
def Gf2Off (g : GfLArgs) (separate : Bool) (i : ℕ) (st : Gf2LSt) (j : ℕ) : Except PyErr Gf2LSt → Prop :=
  BindR (BuildGfOffdiag g i j separate st.es) fun out => DetR (.ok (gf2Add separate st i j out))

/-- `build_gf2_lanczos(H, V, espace, beta, egs, ispin, repr, separate)`, `edpyt/gf2_lanczos.py:130-161`. -/
def BuildGf2Lanczos (g : GfLArgs) (separate : Bool) (es : Espace (ℕ × ℕ)) : Except PyErr Gf2LSt → Prop :=
  BindR (ForR (Gf2Diag g separate) (List.range g.ham.n) ⟨es, fun _ _ => none, fun _ _ => none, []⟩) fun st =>
    ForR (fun st i => ForR (Gf2Off g separate i) (List.range' (i + 1) (g.ham.n - (i + 1))) st) (List.range g.ham.n) st

/-- An object array of callables, as `_Gf2` uses it. Source: `edpyt/gf2_lanczos.py:8-38`. -/
noncomputable def gArrOf (junk : ℝ) (gf : ℕ → ℕ → Option GfL) : GArr := fun i j => (gf i j).map fun g => g.call junk

end Edpyt
