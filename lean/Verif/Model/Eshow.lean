import Verif.Model.Lookup
import Verif.Model.Espace
/-!
Model of `edpyt/eshow.py`.
-/
namespace Edpyt

/-- The body of the loop of `fock` for one site, `edpyt/eshow.py:80-89`. -/
def fockSite (a b : Bool) : List Char :=
  (if !(a || b) then ['o'] else []) ++ (if a then ['↑'] else []) ++ (if b then ['↓'] else []) ++ [',']

/-- `fock`, `edpyt/eshow.py:53-90`. The elements `nup[i]`, `ndw[i]` for `i < n` exist, because `binrep` has at least `n` digits. -/
def fock (sup sdw n : ℕ) : String :=
  let nup := binrep sup n
  let ndw := binrep sdw n
  let state := ['|'] ++ (List.range n).flatMap fun i => fockSite (nup[i]?.getD false) (ndw[i]?.getD false)
  String.ofList (state.dropLast ++ ['>'])

/-- The inner function `fockstates` of `eprint`, `edpyt/eshow.py:24-39`. `hasattr(states, 'up')` asks the new list `states`, not
`sct.states`, and is always false. Iterating over the tuple of a spin sector gives two arrays, and `np.binary_repr` of an array raises
(`TypeError` or `ValueError`, depending on the NumPy version; modelled as the former). -/
def fockstates (n : ℕ) (states : SectorStates) : Except PyErr (List String) :=
  match states with
  | .spin _ _ => .error .typeError
  | .total states =>
    let maskUp := (1 <<< n) - 1
    let maskDw := maskUp <<< n
    .ok (states.map fun s => fock (s &&& maskUp) ((s &&& maskDw) >>> n) n)

/-- One line of the output of `eprint`: quantum numbers, energy and the coefficient and text of each term. Rounding and number formats
are left out. Source: `edpyt/eshow.py:40-48`. -/
structure EprintLine (α : Type) where
  ns : α
  energy : ℝ
  terms : List (ℝ × String)

/-- `eprint`, `edpyt/eshow.py:22-47`: the lines in the order in which they are printed. -/
noncomputable def eprint {α : Type} (espace : Espace α) (n : ℕ) : Except PyErr (List (EprintLine α)) := do
  let estates ← forM' (fun (acc : List (EprintLine α)) (kv : α × Sct) => do
    let texts ← fockstates n kv.2.states
    let evecs := kv.2.eigvecs.map fun v => List.zipWith (fun k s => (v k, s)) (List.range kv.2.d) texts
    pure (acc ++ List.zipWith (fun e v => ⟨kv.1, e, v⟩) kv.2.eigvals evecs)) espace []
  pure (estates.mergeSort fun x y => decide (x.energy ≤ y.energy))

end Edpyt
