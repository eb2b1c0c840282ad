import Verif.Model.Py
import Mathlib.Data.Complex.Basic
/-!
Model of the two-point Green function container of `edpyt/gf2_lanczos.py`.
-/
namespace Edpyt

/-- `np.ndarray((n,n), object)`: every entry is a callable or `None`. Source: `edpyt/gf2_lanczos.py:130-161`. -/
abbrev GArr := ℕ → ℕ → Option (ℝ → ℝ → ℂ)

/-- `g(e, eta)`; calling `None` raises `TypeError`. One energy. Source: `edpyt/gf2_lanczos.py:20,24,33-35`. -/
noncomputable def callG (g : Option (ℝ → ℝ → ℂ)) (e eta : ℝ) : Except PyErr ℂ :=
  match g with
  | some f => .ok (f e eta)
  | none => .error .typeError

/-- `G[i, j] = x`. Source: `edpyt/gf2_lanczos.py:20-25`. -/
def upd2 {K : Type} (G : ℕ → ℕ → K) (i j : ℕ) (x : K) : ℕ → ℕ → K := fun a b => if a = i ∧ b = j then x else G a b

/-- First loop of `_Gf2.evaluate`, `edpyt/gf2_lanczos.py:19-20`. -/
noncomputable def gf2DiagStep (gf : GArr) (e eta : ℝ) (G : ℕ → ℕ → ℂ) (i : ℕ) : Except PyErr (ℕ → ℕ → ℂ) := do
  let x ← callG (gf i i) e eta
  pure (upd2 G i i x)

/-- Body of the second loop, `edpyt/gf2_lanczos.py:24-25`. -/
noncomputable def gf2OffStep (gf : GArr) (e eta : ℝ) (i : ℕ) (G : ℕ → ℕ → ℂ) (j : ℕ) : Except PyErr (ℕ → ℕ → ℂ) := do
  let x ← callG (gf i j) e eta
  let G := upd2 G i j (1 / 2 * (x - G i i - G j j))
  pure (upd2 G j i (G i j))

/-- `_Gf2.evaluate`, `edpyt/gf2_lanczos.py:13-27`. `junk` is the content of `np.empty`. -/
noncomputable def gf2Evaluate (junk : ℕ → ℕ → ℂ) (n : ℕ) (gf : GArr) (e eta : ℝ) : Except PyErr (ℕ → ℕ → ℂ) := do
  let G ← forM' (gf2DiagStep gf e eta) (List.range n) junk
  forM' (fun G i => forM' (gf2OffStep gf e eta i) (List.range' (i + 1) (n - (i + 1))) G) (List.range n) G

/-- `_Gf2.__getitem__((i, j))(e, eta)`, `edpyt/gf2_lanczos.py:29-35`. -/
noncomputable def gf2Item (gf : GArr) (i j : ℕ) (e eta : ℝ) : Except PyErr ℂ :=
  if i = j then callG (gf i j) e eta
  else do
    let x ← callG (gf i j) e eta
    let y ← callG (gf i i) e eta
    let w ← callG (gf j j) e eta
    pure (1 / 2 * (x - y - w))

/-- `Gf2.__getitem__((i, j))(e, eta)` with separate electron and hole parts, `edpyt/gf2_lanczos.py:51-53`; `build_gf2_lanczos(separate=True)`
fills the two arrays side by side (`add`, `edpyt/gf2_lanczos.py:135-139`), each is modelled as its own `buildGf2`. -/
noncomputable def gf2ItemSep (gfe gfh : GArr) (i j : ℕ) (e eta : ℝ) : Except PyErr ℂ := do
  let x ← gf2Item gfe i j e eta
  let y ← gf2Item gfh i j e eta
  pure (x + y)

/-- `build_gf2_lanczos`, `edpyt/gf2_lanczos.py:130-161`, given the functions built for each site (`diag`, by
`build_gf_lanczos`) and for each pair (`off`, by `build_gf_offdiag`); either builder may raise. -/
def buildGf2 (n : ℕ) (diag : ℕ → Except PyErr (ℝ → ℝ → ℂ)) (off : ℕ → ℕ → Except PyErr (ℝ → ℝ → ℂ)) : Except PyErr GArr := do
  let gf : GArr := fun _ _ => none
  let gf ← forM' (fun (gf : GArr) i => do let g ← diag i; pure (upd2 gf i i (some g))) (List.range n) gf
  forM' (fun gf i => forM' (fun (gf : GArr) j => do let g ← off i j; pure (upd2 gf i j (some g))) (List.range' (i + 1) (n - (i + 1))) gf)
    (List.range n) gf

end Edpyt
