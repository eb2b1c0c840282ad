import Verif.Model.Matvec
/-!
Model of the distributed matrix-vector product: `edpyt/vector_transpose.py` and `_matvec_operator_mpi` of
`edpyt/matvec_product.py`. All ranks of the communicator run the same function; a function `ℕ → List K` gives the flat
(C ordered) buffer of every rank. Collective calls are blocking, so the state of all ranks between two collectives is a
function of the state before.
-/
namespace Edpyt

variable {K : Type} [Field K]

/-- `a[i]` of a flat buffer, 0 outside. Source: `edpyt/vector_transpose.py:49,97`. -/
def at0 (a : List K) (i : ℕ) : K := a[i]?.getD 0

/-- `comm.Alltoall([send,chunk], [recv,chunk])`: block `q` of the receive buffer of rank `r` is block `r` of the send buffer
of rank `q`. Source: `edpyt/vector_transpose.py:49,97`. -/
def alltoall (size chunk : ℕ) (send : ℕ → List K) : ℕ → List K := fun r =>
  (List.range (size * chunk)).map fun t => at0 (send (t / chunk)) (r * chunk + t % chunk)

/-- The loop `b[p*batch:(p+1)*batch,:] = a[:,p*batch:(p+1)*batch]`, `edpyt/vector_transpose.py:46-47`, on flat buffers: `b` is
an `n × m` array, `a` an `m × n` array; `junk` is the content of `np.empty`. -/
def packDw (size m n batch : ℕ) (junk : ℕ → K) (a : List K) : ℕ → K :=
  (List.range size).foldl (fun b p t =>
    if p * batch * m ≤ t ∧ t < (p + 1) * batch * m then at0 a ((t - p * batch * m) / m * n + (p * batch + (t - p * batch * m) % m))
    else b t) junk

/-- `collect_dw`, `edpyt/vector_transpose.py:5-51`, on all ranks, for local arrays of shape `(m, n)`. The receive buffer is
the argument's own memory: the result is the new content of that memory, reshaped to `(n, m)`. -/
def collectDw (size m n : ℕ) (junk : ℕ → ℕ → K) (a : ℕ → List K) : Except PyErr (ℕ → List K) :=
  if m * size ≠ n then .error .assertionError
  else
    let batch := n / size
    let chunk := batch * m
    .ok (alltoall size chunk fun r => (List.range (n * m)).map (packDw size m n batch (junk r) (a r)))

/-- The loop `a[p,:] = b[:,p*n:(p+1)*n].flat`, `edpyt/vector_transpose.py:100-101`: `b` has shape `(size, batch*n)`, `a` has shape
`(n, m)`. -/
def unpackUp (size m n batch : ℕ) (b : List K) (a : ℕ → K) : ℕ → K :=
  (List.range batch).foldl (fun a p t =>
    if p * m ≤ t ∧ t < (p + 1) * m then at0 b ((t - p * m) / n * (batch * n) + (p * n + (t - p * m) % n)) else a t) a

/-- `collect_up`, `edpyt/vector_transpose.py:54-103`, on all ranks, for local arrays of shape `(m, n)`; the argument's memory
is overwritten with the result. -/
def collectUp (size m n : ℕ) (a : ℕ → List K) : Except PyErr (ℕ → List K) :=
  if m ≠ n * size then .error .assertionError
  else
    let batch := m / size
    let chunk := batch * n
    let b := alltoall size chunk a
    .ok fun r => (List.range (n * m)).map (unpackUp size m n batch (b r) (at0 (a r)))

/-- What the ranks hold after a call of the distributed `matvec`: the results and the callers' vectors. Source: `edpyt/matvec_product.py:63-71`. -/
structure MpiOut (K : Type) where
  res : ℕ → List K
  vec : ℕ → List K

/-- `matvec(vec)` of `_matvec_operator_mpi`, `edpyt/matvec_product.py:45-72`, on all ranks; `diag r` is the local part of rank
`r`. The two kernels are parallel loops. `reshape` gives views, so `collect_dw(vec.reshape(..))` acts on the caller's
vector. -/
inductive MatvecMpi (size : ℕ) (diag : ℕ → List K) (A B : Csr K) (vec : ℕ → List K) : Except PyErr (MpiOut K) → Prop
  | shape (h : A.rows ≠ B.rows) : MatvecMpi size diag A B vec (.error .notImplemented)
  | ranks (h : A.rows = B.rows) (h2 : B.rows % size ≠ 0) : MatvecMpi size diag A B vec (.error .valueError)
  | run (h : A.rows = B.rows) (h2 : B.rows % size = 0) (j1 j2 : ℕ → ℕ → K) (res1 vec2 res2 res3 vec4 res4 : ℕ → List K)
      (h3 : ∀ r < size, KRun (upMultiplyOps A (vec r).length) (vec r) (List.zipWith (· * ·) (diag r) (vec r)) (res1 r))
      (h4 : collectDw size (B.rows / size) A.rows j1 vec = .ok vec2)
      (h5 : collectDw size (B.rows / size) A.rows j2 res1 = .ok res2)
      (h6 : ∀ r < size, KRun (dwMultiplyOps B (vec2 r).length) (vec2 r) (res2 r) (res3 r))
      (h7 : collectUp size A.rows (B.rows / size) vec2 = .ok vec4)
      (h8 : collectUp size A.rows (B.rows / size) res3 = .ok res4) :
      MatvecMpi size diag A B vec (.ok ⟨res4, vec4⟩)

end Edpyt
