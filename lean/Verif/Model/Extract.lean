import Verif.Model.Cotnl
/-!
Model of `extract_sequential_from_cotunneling`, `edpyt/sqtnl.py:10-34`.
-/
namespace Edpyt

/-- `D[k].extend(xs)` of a `defaultdict(list)`; `D[k].append(x)` is the case of one element. Source: `edpyt/sqtnl.py:24-33`. -/
def dictExtend {κ α : Type} [DecidableEq κ] (D : List (κ × List α)) (k : κ) (xs : List α) : List (κ × List α) :=
  dictSet D k ((match dictGet D k with | .ok l => l | .error _ => []) ++ xs)

/-- The dictionaries `gfedict` and `gfhdict`, with keys `(idF, idI, spin)`. Source: `edpyt/sqtnl.py:12-13`. -/
abbrev SpinDict := List (((NId × NId) × ℕ) × List NGf)

/-- One pass of the loops over `j`, `edpyt/sqtnl.py:22-24` for an electron and `edpyt/sqtnl.py:26-28` for a hole. An index out of range raises the same exception in either of the two lines, so
that the three rows are read first here. -/
def extractElem (N : ℤ) (i f : ℕ) (spins : ℕ × ℕ) (g : NGf2) (st : SpinDict × SpinDict) (j : ℕ) : Except PyErr (SpinDict × SpinDict) := do
  let vI ← getItem g.vI j
  let vF ← getItem g.vF j
  let E ← getItem g.E j
  pure (if g.el then
      (dictExtend st.1 (((N + 1, j), (N, i)), spins.2) [⟨true, spins.2, vI, E⟩],
        dictExtend st.2 (((N, f), (N + 1, j)), spins.1) [⟨false, spins.1, vF, E⟩])
    else
      (dictExtend st.1 (((N, f), (N - 1, j)), spins.1) [⟨true, spins.1, vF, E⟩],
        dictExtend st.2 (((N - 1, j), (N, i)), spins.2) [⟨false, spins.2, vI, E⟩]))

/-- The loops over the elements of one pair of states, `edpyt/sqtnl.py:14-28`. -/
def extractEntry (st : SpinDict × SpinDict) (p : (NId × NId) × List NSigma) : Except PyErr (SpinDict × SpinDict) :=
  if p.1.2.2 ≠ p.1.1.2 then pure st
  else forM' (fun st s => forM' (fun st g => forM' (extractElem p.1.1.1 p.1.2.2 p.1.1.2 s.spins g) (List.range g.vI.length) st) s.gf2 st) p.2 st

/-- `extract_sequential_from_cotunneling`, `edpyt/sqtnl.py:10-34`. -/
def nExtract (sd : List ((NId × NId) × List NSigma)) : Except PyErr (List ((NId × NId) × List NGf)) := do
  let st ← forM' extractEntry sd ([], [])
  let gd := st.1.foldl (fun gd p => dictExtend gd p.1.1 p.2) []
  pure (st.2.foldl (fun gd p => dictExtend gd p.1.1 p.2) gd)

end Edpyt
