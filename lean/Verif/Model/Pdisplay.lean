import Verif.Model.Espace
/-!
# `pdisplay`, `edpyt/eshow.py:6-19`, and `lorentzian_function`, `edpyt/ded.py:24-29`
-/
namespace Edpyt

/-- `sum(key)`, `edpyt/eshow.py:16`: the sum of a pair; iterating over an integer, the key of a sector of a total number of particles, raises. -/
def sumKey : (ℕ × ℕ) ⊕ ℕ → Except PyErr ℕ
  | .inl q => .ok (q.1 + q.2)
  | .inr _ => .error .typeError

/-- `pspace[k].extend(l)` of a `defaultdict(list)`, `edpyt/eshow.py:14-16`, in the order of insertion. -/
def extendAt (ps : List (ℕ × List ℝ)) (k : ℕ) (l : List ℝ) : List (ℕ × List ℝ) :=
  if k ∈ ps.map Prod.fst then ps.map fun p => if p.1 = k then (p.1, p.2 ++ l) else p else ps ++ [(k, l)]

/-- `pdisplay`, `edpyt/eshow.py:6-19`: the horizontal lines `(y, xmin, xmax)` given to `hlines`, in order. The plotting is left out. -/
noncomputable def pdisplay (espace : Espace ((ℕ × ℕ) ⊕ ℕ)) : Except PyErr (List (ℝ × ℝ × ℝ)) := do
  let pspace ← forM' (fun (ps : List (ℕ × List ℝ)) (kv : ((ℕ × ℕ) ⊕ ℕ) × Sct) => do
    let k ← sumKey kv.1
    pure (extendAt ps k kv.2.eigvals)) espace []
  let xavg := pspace.flatMap fun x => List.replicate x.2.length x.1
  let y := pspace.flatMap fun x => x.2
  pure (List.zipWith (fun (y : ℝ) (x : ℕ) => (y, (x : ℝ) - 1 / 5, (x : ℝ) + 1 / 5)) y xavg)

/-- `lorentzian_function`, `edpyt/ded.py:24-29`, as the function of `z` that it returns. -/
noncomputable def lorentzian (π γ z0 z : ℝ) : ℝ := 1 / π * (1 / 2 * γ) / ((z - z0) ^ 2 + (1 / 2 * γ) ^ 2)

end Edpyt
