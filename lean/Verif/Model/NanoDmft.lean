import Verif.Model.Py
import Mathlib.Data.Complex.Basic
import Mathlib.LinearAlgebra.Matrix.NonsingularInverse
/-!
Model of `edpyt/nano_dmft.py`. Arrays over sites and frequencies are functions of their indices together with their lengths; complex numbers are
exact.
-/
namespace Edpyt

noncomputable section

/-- `np.linalg.inv`: `LinAlgError` (a subclass of `ValueError`) for a singular matrix. Source: `edpyt/nano_dmft.py:85,133`. -/
def linalgInv {n : ℕ} (x : Matrix (Fin n) (Fin n) ℂ) : Except PyErr (Matrix (Fin n) (Fin n) ℂ) :=
  open Classical in if IsUnit x.det then .ok x⁻¹ else .error .valueError

/-- `x[idx]` for a list of non-negative indices and an array of length `len`: `IndexError` beyond the end. Source: `edpyt/nano_dmft.py:81-85`. -/
def fancyIdx (len : ℕ) (x : ℕ → ℂ) (idx : List ℕ) : Except PyErr (List ℂ) := idx.mapM fun i => if i < len then .ok (x i) else .error .indexError

/-- Attributes of `Gfloc`, `edpyt/nano_dmft.py:49-70`, for one rank: `idxNeq` is `self.idx_neq`, already cut to the rank. `mu` is set by `update`. -/
structure NanoLoc (n : ℕ) where
  H : Matrix (Fin n) (Fin n) ℂ
  S : Matrix (Fin n) (Fin n) ℂ
  Hybrid : ℂ → Matrix (Fin n) (Fin n) ℂ
  idxNeq : List ℕ
  idxInv : List ℕ
  mu : ℝ

/-- `free(z, inverse=True)`, `edpyt/nano_dmft.py:125-133`. -/
def NanoLoc.freeInv {n : ℕ} (g : NanoLoc n) (z : ℂ) : Matrix (Fin n) (Fin n) ℂ := (z + g.mu) • g.S - g.H - g.Hybrid z

/-- `x.flat[::(n+1)] -= v`, `edpyt/nano_dmft.py:84`: one value is broadcast, any other length but `n` raises `ValueError`. -/
def subDiag {n : ℕ} (x : Matrix (Fin n) (Fin n) ℂ) (v : List ℂ) : Except PyErr (Matrix (Fin n) (Fin n) ℂ) :=
  if v.length = n then .ok (x - Matrix.diagonal fun i : Fin n => v[(i : ℕ)]?.getD 0)
  else if v.length = 1 then .ok (x - Matrix.diagonal fun _ : Fin n => v[0]?.getD 0)
  else .error .valueError

/-- One pass of the loop body of `__call__`, `edpyt/nano_dmft.py:83-85`, on a chunk of length `len`: `sig` is `sigma_`, `z0` is `z_[0]`. -/
def NanoLoc.body {n : ℕ} (g : NanoLoc n) (len : ℕ) (sig : ℕ → ℂ) (z0 : ℂ) (out : ℕ → ℂ) : Except PyErr (ℕ → ℂ) := do
  let s ← fancyIdx len sig g.idxInv
  let x ← subDiag (g.freeInv z0) s
  let xi ← linalgInv x
  let d ← fancyIdx n (fun i => if h : i < n then xi ⟨i, h⟩ ⟨i, h⟩ else 0) g.idxNeq
  -- `out[self.idx_neq,...] = d`
  forM' (fun out (p : ℕ × ℂ) => if p.1 < len then .ok (Function.update out p.1 p.2) else .error .indexError) (g.idxNeq.zip d) out

/-- `__call__`, `edpyt/nano_dmft.py:76-86`, for one spin, with `sigma = self.get_sigma(z)` of shape `(m, zs.length)` in C order. `np.nditer` with
`external_loop` and `order='F'` hands out the columns one after the other; if there is only one row it joins the axes and hands out that row as one
chunk; operands without elements raise `ValueError`. `junk` is the content of the output array before the loop. The result has `idxNeq.length`
rows. -/
def NanoLoc.call {n : ℕ} (g : NanoLoc n) (m : ℕ) (sigma : ℕ → ℕ → ℂ) (zs : List ℂ) (junk : ℕ → ℕ → ℂ) : Except PyErr (ℕ → ℕ → ℂ) := do
  let nz := zs.length
  let out ← if m * nz = 0 then .error .valueError
    else if m = 1 then do
      let o ← g.body nz (fun c => sigma 0 c) (zs[0]?.getD 0) (fun c => junk 0 c)
      pure fun r c => if r = 0 then o c else junk r c
    else
      forM' (fun (out : ℕ → ℕ → ℂ) c => do
        let o ← g.body m (fun r => sigma r c) (zs[c]?.getD 0) (fun r => out r c)
        pure fun r c' => if c' = c then o r else out r c') (List.range nz) junk
  -- `it.operands[2][self.idx_neq,...]`
  let _ ← fancyIdx m (fun _ => 0) g.idxNeq
  pure fun u c => out (g.idxNeq[u]?.getD 0) c

/-- `_get_idx_world(comm, n)` applied to a list, `edpyt/nano_dmft.py:41-46,65-66`. -/
def idxWorld {α : Type} (size rank : ℕ) (xs : List α) : List α :=
  let stride := xs.length / size
  (xs.drop (rank * stride)).take stride

/-- `comm.Allgather` of arrays with `stride` rows followed by `reshape`, `edpyt/nano_dmft.py:9-18,26-34`: row `r` comes from rank `r / stride`. -/
def allgather {α : Type} (stride : ℕ) (loc : ℕ → ℕ → α) : ℕ → α := fun r => loc (r / stride) (r % stride)

/-- `Gfloc(H, S, Hybrid, idx_neq, idx_inv, comm)` on rank `rank` of a communicator of size `size`. Source: `edpyt/nano_dmft.py:41-46,60-70`. -/
def NanoLoc.onRank {n : ℕ} (g : NanoLoc n) (size rank : ℕ) : NanoLoc n := { g with idxNeq := idxWorld size rank g.idxNeq }

/-- `__call__` on rank `rank`, where rank `r` holds the self-energies `sigmaLoc r` of its impurities: `get_sigma` gathers them. Source: `edpyt/nano_dmft.py:8-22,76-86`. -/
def NanoLoc.callMpi {n : ℕ} (g : NanoLoc n) (size rank : ℕ) (sigmaLoc : ℕ → ℕ → ℕ → ℂ) (zs : List ℂ) (junk : ℕ → ℕ → ℂ) : Except PyErr (ℕ → ℕ → ℂ) :=
  let stride := g.idxNeq.length / size
  (g.onRank size rank).call (size * stride) (allgather stride sigmaLoc) zs junk

/-- `ed`, `edpyt/nano_dmft.py:72-74`. -/
def NanoLoc.ed {n : ℕ} (g : NanoLoc n) : Except PyErr (List ℂ) :=
  fancyIdx n (fun i => if h : i < n then g.H ⟨i, h⟩ ⟨i, h⟩ else 0) g.idxNeq

/-- `Weiss`, `edpyt/nano_dmft.py:117-123`, given the result of `self(z)`; `sigma` is `self.Sigma(z)`, with one row for each index of the rank. -/
def nanoWeiss (gloc sigma : ℕ → ℕ → ℂ) : ℕ → ℕ → ℂ := fun u c => (gloc u c)⁻¹ + sigma u c

/-- `Delta`, `edpyt/nano_dmft.py:101-115`, on one rank (`comm=None`): the element-wise loop gives `z + mu - ed - weiss`. -/
def NanoLoc.Delta {n : ℕ} (g : NanoLoc n) (m : ℕ) (sigma : ℕ → ℕ → ℂ) (zs : List ℂ) (junk : ℕ → ℕ → ℂ) : Except PyErr (ℕ → ℕ → ℂ) := do
  let gl ← g.call m sigma zs junk
  let ed ← g.ed
  pure fun u c => (zs[c]?.getD 0) + g.mu - (ed[u]?.getD 0) - nanoWeiss gl sigma u c

end

end Edpyt
