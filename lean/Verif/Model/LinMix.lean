import Verif.Model.SpinLoop
/-!
Model of `DMFT.solve_with_linear_mixing`, `edpyt/dmft.py:481-482`: `scipy.optimize.linearmixing` with `iter` and `alpha` given and its line search as by default ('armijo').
`scipy` is not part of the repository: modelled is its documented algorithm, over exact numbers.
-/
namespace Edpyt

noncomputable section

/-- `norm(v)**2`. Source: `edpyt/dmft.py:474-475`. -/
def vecSq (v : List ℂ) : ℝ := (v.map Complex.normSq).sum

/-- `x + s * dx`. Source: `edpyt/dmft.py:474-475`. -/
def stepTo (x : List ℂ) (s : ℝ) (dx : List ℂ) : List ℂ := List.zipWith (fun x d => x + s * d) x dx

/-- How a run of `linearmixing` ends: after its `iter` steps (or at a zero of the function) at a point `x`, by an outcome of `DMFT.__call__` that raises, or by another exception. Source: `edpyt/dmft.py:474-475`. -/
inductive LinOut
  | finished (s : DmftState) (x : List ℂ)
  | raised (s : DmftState) (out : CallOut) (d : List ℂ)
  | error (e : PyErr)

/-- The end of the line search after the full step was rejected: the function is evaluated at `x + t * dx` for further `t` (by quadratic and cubic interpolation; here for any `t`), and the last of
these points is taken. The function is `DMFT.distance`, `edpyt/dmft.py:440-442`, so each evaluation is an iteration of the loop. The result is the new state, point and value, or the end of the run. -/
inductive LinSearch (P : DmftPar) (beta a : ℝ) (x dx : List ℂ) : DmftState → (DmftState × List ℂ × List ℂ) ⊕ LinOut → Prop
  | take {s s' : DmftState} {F : List ℂ} (t : ℝ) (h : s.distance P beta a (stepTo x t dx) = .ok (s', .value F)) : LinSearch P beta a x dx s (.inl (s', stepTo x t dx, F))
  | again {s s' : DmftState} {F : List ℂ} {r} (t : ℝ) (h : s.distance P beta a (stepTo x t dx) = .ok (s', .value F)) (h' : LinSearch P beta a x dx s' r) : LinSearch P beta a x dx s r
  | raise {s s' : DmftState} {out : CallOut} (t : ℝ) (h : s.distance P beta a (stepTo x t dx) = .ok (s', out)) (h' : ∀ v, out ≠ .value v) :
      LinSearch P beta a x dx s (.inr (.raised s' out (stepTo x t dx)))
  | error {s : DmftState} {e : PyErr} (t : ℝ) (h : s.distance P beta a (stepTo x t dx) = .error e) : LinSearch P beta a x dx s (.inr (.error e))

/-- The loop of `linearmixing`: `k` steps are left, `x` is the current point, `F` the value of the function there. The step is `alpha * F`; the full step is taken if the square of the norm of the function
decreases by at least the factor `1 - 1e-4`, otherwise the line search goes on. Source: `edpyt/dmft.py:474-475`. -/
inductive LinLoop (P : DmftPar) (beta a alpha : ℝ) : ℕ → DmftState → List ℂ → List ℂ → LinOut → Prop
  | zero {k s x F} (h : vecSq F = 0) : LinLoop P beta a alpha k s x F (.finished s x)
  | done {s x F} (h : vecSq F ≠ 0) : LinLoop P beta a alpha 0 s x F (.finished s x)
  | stuck {k s x F} (h : vecSq F ≠ 0) (h' : alpha = 0) : LinLoop P beta a alpha (k + 1) s x F (.error .valueError)
  | error {k s x F e} (h : vecSq F ≠ 0) (h' : alpha ≠ 0) (hd : s.distance P beta a (stepTo x alpha F) = .error e) : LinLoop P beta a alpha (k + 1) s x F (.error e)
  | raise {k s s' x F out} (h : vecSq F ≠ 0) (h' : alpha ≠ 0) (hd : s.distance P beta a (stepTo x alpha F) = .ok (s', out)) (ho : ∀ v, out ≠ .value v) :
      LinLoop P beta a alpha (k + 1) s x F (.raised s' out (stepTo x alpha F))
  | accept {k s s' x F F' r} (h : vecSq F ≠ 0) (h' : alpha ≠ 0) (hd : s.distance P beta a (stepTo x alpha F) = .ok (s', .value F')) (ha : vecSq F' ≤ (1 - 1e-4) * vecSq F)
      (hr : LinLoop P beta a alpha k s' (stepTo x alpha F) F' r) : LinLoop P beta a alpha (k + 1) s x F r
  | search {k s s' x F F' s2 x2 F2 r} (h : vecSq F ≠ 0) (h' : alpha ≠ 0) (hd : s.distance P beta a (stepTo x alpha F) = .ok (s', .value F')) (ha : ¬ vecSq F' ≤ (1 - 1e-4) * vecSq F)
      (hs : LinSearch P beta a x (F.map fun f => alpha * f) s' (.inl (s2, x2, F2))) (hr : LinLoop P beta a alpha k s2 x2 F2 r) : LinLoop P beta a alpha (k + 1) s x F r
  | searchEnd {k s s' x F F' r} (h : vecSq F ≠ 0) (h' : alpha ≠ 0) (hd : s.distance P beta a (stepTo x alpha F) = .ok (s', .value F')) (ha : ¬ vecSq F' ≤ (1 - 1e-4) * vecSq F)
      (hs : LinSearch P beta a x (F.map fun f => alpha * f) s' (.inr r)) : LinLoop P beta a alpha (k + 1) s x F r

/-- `solve_with_linear_mixing(delta, iter, alpha)`, `edpyt/dmft.py:481-482`; `a` is the `alpha` of the constructor, which sets the weights of `distance`. -/
inductive LinearMixing (P : DmftPar) (beta a : ℝ) (iter : ℕ) (alpha : ℝ) (s : DmftState) (x : List ℂ) : LinOut → Prop
  | error {e} (h : s.distance P beta a x = .error e) : LinearMixing P beta a iter alpha s x (.error e)
  | raise {s' out} (h : s.distance P beta a x = .ok (s', out)) (ho : ∀ v, out ≠ .value v) : LinearMixing P beta a iter alpha s x (.raised s' out x)
  | run {s' F r} (h : s.distance P beta a x = .ok (s', .value F)) (hr : LinLoop P beta a alpha iter s' x F r) : LinearMixing P beta a iter alpha s x r

end
end Edpyt
