import Verif.Model.Py
import Mathlib.Analysis.Real.Sqrt
/-!
Model of the bath initialisation: `get_initial_bath` of `edpyt/fit_cg.py` and `init_bath` of `edpyt_backend/bath.c`.
-/
namespace Edpyt

/-- The couplings, `edpyt/fit_cg.py:92` and `edpyt_backend/bath.c:27-29`: `max(0.1, 1/sqrt(nbath))`. -/
noncomputable def initialVk (nbath : ℕ) : List ℝ := List.replicate nbath (max 0.1 (1 / Real.sqrt nbath))

/-- Body of the loops `edpyt/fit_cg.py:104-106` and `110-112`. -/
noncomputable def fillEk (nbath : ℕ) (bw de : ℝ) (ek : List ℝ) (i : ℕ) : Except PyErr (List ℝ) := do
  let ek ← setItem ek i (-bw + i * de)
  setItem ek ((nbath : ℤ) - i - 1) (bw - i * de)

/-- `edpyt/fit_cg.py:101-106`. -/
noncomputable def evenEk (nbath : ℕ) (bw : ℝ) (ek : List ℝ) : Except PyErr (List ℝ) := do
  let nhalf := nbath / 2
  let de := bw / (max (nhalf - 1) 1 : ℕ)
  let ek ← setItem ek ((nhalf : ℤ) - 1) (-0.1)
  let ek ← setItem ek nhalf 0.1
  forM' (fillEk nbath bw de) (List.range' 1 (nhalf - 1 - 1)) ek

/-- `edpyt/fit_cg.py:108-112`. -/
noncomputable def oddEk (nbath : ℕ) (bw : ℝ) (ek : List ℝ) : Except PyErr (List ℝ) := do
  let nhalf := nbath / 2
  let de := bw / nhalf
  let ek ← setItem ek nhalf 0
  forM' (fillEk nbath bw de) (List.range' 1 (nhalf - 1)) ek

/-- The energies of `get_initial_bath`, `edpyt/fit_cg.py:76-113`, for the memory `junk` of length `nbath`. -/
noncomputable def initialEk (nbath : ℕ) (bw : ℝ) (junk : List ℝ) : Except PyErr (List ℝ) := do
  let ek ← setItem junk 0 (-bw)
  let ek ← setItem ek (-1) bw
  let ek ← if nbath % 2 = 0 ∧ nbath ≥ 4 then evenEk nbath bw ek else pure ek
  if nbath % 2 = 1 ∧ nbath ≥ 3 then oddEk nbath bw ek else pure ek

/-- Body of the loops `edpyt_backend/bath.c:37-40` and `46-49` (C array writes). -/
noncomputable def fillEkC (nbath : ℕ) (bw de : ℝ) (ek : List ℝ) (j : ℕ) : List ℝ :=
  (ek.set j (-bw + j * de)).set (nbath - j - 1) (bw - j * de)

/-- The energies of `init_bath`, `edpyt_backend/bath.c:20-51`, with `BANDWIDTH = bw`. -/
noncomputable def initBathC (nbath : ℕ) (bw : ℝ) (junk : List ℝ) : List ℝ :=
  let nhalf := nbath / 2
  let ek := (junk.set 0 (-bw)).set (nbath - 1) bw
  if nbath % 2 = 0 ∧ nbath ≥ 4 then
    let de := bw / (max (nhalf - 1) 1 : ℕ)
    (List.range' 1 (nhalf - 1 - 1)).foldl (fillEkC nbath bw de) ((ek.set (nhalf - 1) (-0.1)).set nhalf 0.1)
  else if nbath % 2 = 1 ∧ nbath > 3 then
    let de := bw / nhalf
    (List.range' 1 (nhalf - 1)).foldl (fillEkC nbath bw de) (ek.set nhalf 0)
  else ek

end Edpyt
