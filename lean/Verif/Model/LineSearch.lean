import Verif.Model.Err
import Mathlib.Algebra.Order.Field.Basic
import Mathlib.Algebra.BigOperators.Fin
import Mathlib.Data.Fintype.BigOperators
/-!
Model of the conjugate-gradient minimiser of `edpyt_backend`: `mnbrak.c`, `dbrent.c`, `dlinmin.c`, `f1dim.c`, `df1dim.c`, `frprmn.c`.
Floating-point arithmetic is replaced by an ordered field. `nrerror`, which ends the process, is the error `runtimeError`.
-/
namespace Edpyt

variable {K : Type} [Field K] [LinearOrder K]

/-- `SIGN(a, b)`, `edpyt_backend/util.h:43`. -/
def cSign (a b : K) : K := if 0 ≤ b then |a| else -|a|

/-- `FMAX(a, b)`, `edpyt_backend/util.h:19-20`. -/
def cMax (a b : K) : K := if b < a then a else b

/-- The output arguments of `mnbrak`. Source: `edpyt_backend/mnbrak.c:9-10`. -/
structure Brak (K : Type) where
  ax : K
  bx : K
  cx : K
  fa : K
  fb : K
  fc : K

/-- `GOLD`, `edpyt_backend/mnbrak.c:4`. -/
def gold : K := 1618034 / 1000000

/-- `edpyt_backend/mnbrak.c:14-21`. -/
def mnInit (f : K → K) (ax bx : K) : Brak K :=
  let fa := f ax
  let fb := f bx
  let (ax, bx, fa, fb) := if fb > fa then (bx, ax, fb, fa) else (ax, bx, fa, fb)
  let cx := bx + gold * (bx - ax)
  ⟨ax, bx, cx, fa, fb, f cx⟩

/-- One pass of the loop, `edpyt_backend/mnbrak.c:23-57`; `true` stands for `return`. -/
def mnStep (f : K → K) (s : Brak K) : Brak K × Bool :=
  let r := (s.bx - s.ax) * (s.fb - s.fc)
  let q := (s.bx - s.cx) * (s.fb - s.fa)
  let u := s.bx - ((s.bx - s.cx) * q - (s.bx - s.ax) * r) / (2 * cSign (cMax |q - r| (1 / 10 ^ 20)) (q - r))
  let ulim := s.bx + 100 * (s.cx - s.bx)
  if (s.bx - u) * (u - s.cx) > 0 then
    let fu := f u
    if fu < s.fc then (⟨s.bx, u, s.cx, s.fb, fu, s.fc⟩, true)
    else if fu > s.fb then (⟨s.ax, s.bx, u, s.fa, s.fb, fu⟩, true)
    else
      let u := s.cx + gold * (s.cx - s.bx)
      (⟨s.bx, s.cx, u, s.fb, s.fc, f u⟩, false)
  else if (s.cx - u) * (u - ulim) > 0 then
    let fu := f u
    if fu < s.fc then
      let bx := s.cx
      let cx := u
      let u := cx + gold * (cx - bx)
      (⟨bx, cx, u, s.fc, fu, f u⟩, false)
    else (⟨s.bx, s.cx, u, s.fb, s.fc, fu⟩, false)
  else if (u - ulim) * (ulim - s.cx) ≥ 0 then (⟨s.bx, s.cx, ulim, s.fb, s.fc, f ulim⟩, false)
  else
    let u := s.cx + gold * (s.cx - s.bx)
    (⟨s.bx, s.cx, u, s.fb, s.fc, f u⟩, false)

/-- The loop `while (*fb > *fc)`, `edpyt_backend/mnbrak.c:22-58`: `MnLoop f s s'` says that it ends in the state `s'`. It need not end. -/
inductive MnLoop (f : K → K) : Brak K → Brak K → Prop
  | stop {s} (h : ¬ s.fb > s.fc) : MnLoop f s s
  | ret {s s'} (h : s.fb > s.fc) (hs : mnStep f s = (s', true)) : MnLoop f s s'
  | again {s s' s''} (h : s.fb > s.fc) (hs : mnStep f s = (s', false)) (hl : MnLoop f s' s'') : MnLoop f s s''

/-- `mnbrak`, `edpyt_backend/mnbrak.c:9-59`. -/
def Mnbrak (f : K → K) (ax bx : K) (s : Brak K) : Prop := MnLoop f (mnInit f ax bx) s

/-- The local variables of `dbrent` that live from one pass to the next. Source: `edpyt_backend/dbrent.c:8-20`. -/
structure DbSt (K : Type) where
  a : K
  b : K
  d : K
  e : K
  x : K
  w : K
  v : K
  fx : K
  fw : K
  fv : K
  dx : K
  dw : K
  dv : K

/-- `ZEPS`, `edpyt_backend/dbrent.c:5`. -/
def zeps : K := 1 / 10 ^ 10

/-- `edpyt_backend/dbrent.c:16-20`; `d` is not initialised. -/
def dbInit (junk : K) (f df : K → K) (ax bx cx : K) : DbSt K :=
  ⟨if ax < cx then ax else cx, if ax > cx then ax else cx, junk, 0, bx, bx, bx, f bx, f bx, f bx, df bx, df bx, df bx⟩

/-- `edpyt_backend/dbrent.c:29-62`: the new `d` and `e`. -/
def dbMove (tol1 tol2 xm : K) (s : DbSt K) : K × K :=
  let bisect : K × K := let e := if s.dx ≥ 0 then s.a - s.x else s.b - s.x; (1 / 2 * e, e)
  if |s.e| > tol1 then
    let d0 := 2 * (s.b - s.a)
    let d1 := if s.dw ≠ s.dx then (s.w - s.x) * s.dx / (s.dx - s.dw) else d0
    let d2 := if s.dv ≠ s.dx then (s.v - s.x) * s.dx / (s.dx - s.dv) else d0
    let u1 := s.x + d1
    let u2 := s.x + d2
    let ok1 := (s.a - u1) * (u1 - s.b) > 0 ∧ s.dx * d1 ≤ 0
    let ok2 := (s.a - u2) * (u2 - s.b) > 0 ∧ s.dx * d2 ≤ 0
    let olde := s.e
    let e := s.d
    if ok1 ∨ ok2 then
      let d := if ok1 ∧ ok2 then (if |d1| < |d2| then d1 else d2) else if ok1 then d1 else d2
      if |d| ≤ |1 / 2 * olde| then
        let u := s.x + d
        if u - s.a < tol2 ∨ s.b - u < tol2 then (cSign tol1 (xm - s.x), e) else (d, e)
      else bisect
    else bisect
  else bisect

/-- `edpyt_backend/dbrent.c:75-91`: the bookkeeping after the new point `u`. -/
def dbUpdate (s : DbSt K) (u fu du : K) : DbSt K :=
  if fu ≤ s.fx then
    let s := if u ≥ s.x then { s with a := s.x } else { s with b := s.x }
    { s with v := s.w, fv := s.fw, dv := s.dw, w := s.x, fw := s.fx, dw := s.dx, x := u, fx := fu, dx := du }
  else
    let s := if u < s.x then { s with a := s.x } else { s with b := u }
    if fu ≤ s.fw ∨ s.w = s.x then { s with v := s.w, fv := s.fw, dv := s.dw, w := u, fw := fu, dw := du }
    else if fu < s.fv ∨ s.v = s.x ∨ s.v = s.w then { s with v := u, fv := fu, dv := du }
    else s

/-- One pass of the loop, `edpyt_backend/dbrent.c:22-91`; `inl (xmin, fx)` stands for `return`. -/
def dbStep (f df : K → K) (tol : K) (s : DbSt K) : (K × K) ⊕ DbSt K :=
  let xm := 1 / 2 * (s.a + s.b)
  let tol1 := tol * |s.x| + zeps
  let tol2 := 2 * tol1
  if |s.x - xm| ≤ tol2 - 1 / 2 * (s.b - s.a) then .inl (s.x, s.fx) else
  let m := dbMove tol1 tol2 xm s
  let s := { s with d := m.1, e := m.2 }
  if |m.1| ≥ tol1 then
    let u := s.x + m.1
    .inr (dbUpdate s u (f u) (df u))
  else
    let u := s.x + cSign tol1 m.1
    if f u > s.fx then .inl (s.x, s.fx) else .inr (dbUpdate s u (f u) (df u))

/-- The loop of `dbrent` with the given number of passes left. Source: `edpyt_backend/dbrent.c:21-95`. -/
def dbLoop (f df : K → K) (tol : K) : ℕ → DbSt K → Except PyErr (K × K)
  | 0, _ => .error .runtimeError
  | i + 1, s => match dbStep f df tol s with
    | .inl r => .ok r
    | .inr s' => dbLoop f df tol i s'

/-- `dbrent`, `edpyt_backend/dbrent.c:8-95`, with `ITMAX = 2000`: `(xmin, return value)`. -/
def dbrent (junk : K) (ax bx cx : K) (f df : K → K) (tol : K) : Except PyErr (K × K) := dbLoop f df tol 2000 (dbInit junk f df ax bx cx)

/-- `f1dim`, `edpyt_backend/f1dim.c`. -/
def f1dim {n : ℕ} (func : (Fin n → K) → K) (p xi : Fin n → K) (x : K) : K := func fun j => p j + x * xi j

/-- `df1dim`, `edpyt_backend/df1dim.c`. -/
def df1dim {n : ℕ} (dfunc : (Fin n → K) → Fin n → K) (p xi : Fin n → K) (x : K) : K := ∑ j, dfunc (fun j => p j + x * xi j) j * xi j

/-- `dlinmin`, `edpyt_backend/dlinmin.c:9-34`: the new `p`, the new `xi` and `fret`. The relation says that the call ends with this
result. -/
def Dlinmin {n : ℕ} (junk : K) (func : (Fin n → K) → K) (dfunc : (Fin n → K) → Fin n → K) (p xi : Fin n → K)
    (r : Except PyErr ((Fin n → K) × (Fin n → K) × K)) : Prop :=
  ∃ s, Mnbrak (f1dim func p xi) 0 1 s ∧
    r = (dbrent junk s.ax s.bx s.cx (f1dim func p xi) (df1dim dfunc p xi) (2 / 10 ^ 4)).map fun m =>
      (fun j => p j + xi j * m.1, fun j => xi j * m.1, m.2)

/-- The arrays of `frprmn`. Source: `edpyt_backend/frprmn.c:10-34`. -/
structure FrSt (K : Type) (n : ℕ) where
  p : Fin n → K
  xi : Fin n → K
  g : Fin n → K
  h : Fin n → K
  fp : K

/-- `edpyt_backend/frprmn.c:43-58`: after a line search with the new `p`, `xi` and `fret`; `none` stands for `return`. -/
def frNext {n : ℕ} (dfunc : (Fin n → K) → Fin n → K) (s : FrSt K n) (p : Fin n → K) (fret : K) : Option (FrSt K n) :=
  let xi := dfunc p
  let gg := ∑ j, s.g j * s.g j
  let dgg := ∑ j, (xi j + s.g j) * xi j
  if gg = 0 then none else
  let gam := dgg / gg
  let g := fun j => -xi j
  let h := fun j => g j + gam * s.h j
  some ⟨p, h, g, h, fret⟩

/-- The loop of `frprmn`, `edpyt_backend/frprmn.c:35-58`, with `left` passes left: `FrLoop … left s r` says that it ends with the result
`(p, its, fret)` or in `nrerror`. The tolerance is the constant of line 34. -/
inductive FrLoop {n : ℕ} (junk : K) (func : (Fin n → K) → K) (dfunc : (Fin n → K) → Fin n → K) :
    ℕ → FrSt K n → Except PyErr ((Fin n → K) × ℕ × K) → Prop
  | exhausted {s} : FrLoop junk func dfunc 0 s (.error .runtimeError)
  | fail {left s e} (h : Dlinmin junk func dfunc s.p s.xi (.error e)) : FrLoop junk func dfunc (left + 1) s (.error e)
  | conv {left s p xi fret} (h : Dlinmin junk func dfunc s.p s.xi (.ok (p, xi, fret)))
      (hc : 2 * |fret - s.fp| ≤ 1 / 10 ^ 5 * (|fret| + |s.fp| + 2 / 10 ^ 4)) : FrLoop junk func dfunc (left + 1) s (.ok (p, 2000 - left, fret))
  | zero {left s p xi fret} (h : Dlinmin junk func dfunc s.p s.xi (.ok (p, xi, fret)))
      (hc : ¬ 2 * |fret - s.fp| ≤ 1 / 10 ^ 5 * (|fret| + |s.fp| + 2 / 10 ^ 4)) (hn : frNext dfunc s p fret = none) :
      FrLoop junk func dfunc (left + 1) s (.ok (p, 2000 - left, fret))
  | again {left s p xi fret s' r} (h : Dlinmin junk func dfunc s.p s.xi (.ok (p, xi, fret)))
      (hc : ¬ 2 * |fret - s.fp| ≤ 1 / 10 ^ 5 * (|fret| + |s.fp| + 2 / 10 ^ 4)) (hn : frNext dfunc s p fret = some s')
      (hl : FrLoop junk func dfunc left s' r) : FrLoop junk func dfunc (left + 1) s r

/-- `frprmn`, `edpyt_backend/frprmn.c:10-60`. The argument `ftol` is overwritten in line 34. -/
def Frprmn {n : ℕ} (junk : K) (func : (Fin n → K) → K) (dfunc : (Fin n → K) → Fin n → K) (_ftol : K) (p : Fin n → K)
    (r : Except PyErr ((Fin n → K) × ℕ × K)) : Prop :=
  let g := fun j => -dfunc p j
  FrLoop junk func dfunc 2000 ⟨p, g, g, g, func p⟩ r

end Edpyt
