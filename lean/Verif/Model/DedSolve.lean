import Verif.Model.Ded
/-!
Model of the sampling loops of `siam_solve` and `moam_solve` of `edpyt/dedlib.py` and of the script `edpyt/ded.py`. A sample is a row of results `S`
(self-energy on the mesh, occupations, entropy). What one pass of the `while` loop computes from the poles that it draws is the parameter `trial`:
`none` when the DED condition fails. Pass number `t` since the generator was seeded is `trial t`.
-/
namespace Edpyt

variable {S : Type} [AddCommMonoid S]

/-- The loop `while not found` of `siam_solve`, `edpyt/dedlib.py:243-268`, from pass `t` on: it ends before pass `t'` with the sample `x`. -/
inductive SiamFind (trial : ℕ → Option S) : ℕ → ℕ → S → Prop
  | found {t x} (h : trial t = some x) : SiamFind trial t (t + 1) x
  | again {t t' x} (h : trial t = none) (hl : SiamFind trial (t + 1) t' x) : SiamFind trial t t' x

/-- The loop `for _ in range(N)` of `siam_solve`, `edpyt/dedlib.py:242-268`, with the accumulated sum. -/
inductive SiamRun (trial : ℕ → Option S) : ℕ → ℕ → S → ℕ → S → Prop
  | done {t acc} : SiamRun trial 0 t acc t acc
  | step {N t t' t'' acc acc' x} (h : SiamFind trial t t' x) (hl : SiamRun trial N t' (acc + x) t'' acc') : SiamRun trial (N + 1) t acc t'' acc'

/-- `siam_solve` with `N` samples, `edpyt/dedlib.py:204-275`, from pass `t` of the generator on. `start` holds the initial values: the argument `sigma` (zeros if it
is not given) and zeros. For `N = 0` the division `imp_occp0 /= N` raises. The factor `1/kB` of the entropy is left out. -/
def SiamSolve {K S : Type} [Field K] [AddCommGroup S] [Module K S] (trial : ℕ → Option S) (N t : ℕ) (start : S) (r : Except PyErr S) : Prop :=
  if N = 0 then r = .error .zeroDivision else ∃ t' acc, SiamRun trial N t start t' acc ∧ r = .ok ((N : K)⁻¹ • acc)

/-- The type of the argument `U` of `moam_solve`. Source: `edpyt/dedlib.py:335-341`. -/
inductive MoamU
  | scalar
  | array
  | dict
  deriving DecidableEq

/-- The loop `while not found` of `moam_solve`, `edpyt/dedlib.py:358-390`: `trial t i` is the sample of impurity `i` if it fulfils its condition. Each pass adds the
samples of all impurities that do, and it is the last if there is one. -/
inductive MoamFind {nimp : ℕ} (trial : ℕ → Fin nimp → Option S) : ℕ → (Fin nimp → S) → ℕ → (Fin nimp → S) → Prop
  | found {t acc} (h : ∃ i, trial t i ≠ none) : MoamFind trial t acc (t + 1) (fun i => acc i + (trial t i).getD 0)
  | again {t acc t' acc'} (h : ∀ i, trial t i = none) (hl : MoamFind trial (t + 1) acc t' acc') : MoamFind trial t acc t' acc'

/-- The loop `for _ in range(N)` of `moam_solve`, `edpyt/dedlib.py:357-390`. -/
inductive MoamRun {nimp : ℕ} (trial : ℕ → Fin nimp → Option S) : ℕ → ℕ → (Fin nimp → S) → ℕ → (Fin nimp → S) → Prop
  | done {t acc} : MoamRun trial 0 t acc t acc
  | step {N t t' t'' acc acc' acc''} (h : MoamFind trial t acc t' acc') (hl : MoamRun trial N t' acc' t'' acc'') : MoamRun trial (N + 1) t acc t'' acc''

/-- `moam_solve` for `N ≥ 1` samples, `edpyt/dedlib.py:301-398`. For a number `U` the variable `V1` is not bound when it is used (`UnboundLocalError`, a `NameError`). -/
def MoamSolve {K S : Type} [Field K] [AddCommGroup S] [Module K S] {nimp : ℕ} (U : MoamU) (trial : ℕ → Fin nimp → Option S) (N t : ℕ)
    (r : Except PyErr (Fin nimp → S)) : Prop :=
  if U = .scalar then r = .error .nameError else ∃ t' acc, MoamRun trial N t (fun _ => 0) t' acc ∧ r = .ok fun i => (N : K)⁻¹ • acc i

/-- `my_N`, `edpyt/ded.py:58-59`. -/
def dedMyN (N size rank : ℕ) : ℕ := N / size + if rank = size - 1 then N % size else 0

/-- `my_start`, `edpyt/ded.py:66`: the number of random numbers that a rank skips, for `n` poles. -/
def dedMyStart (n N size rank : ℕ) : ℕ := 2 * n * (N / size) * rank

/-- One iteration of `edpyt/ded.py:97-123`, up to the average on rank 0. Each rank seeds the same generator, skips `my_start` numbers, that is `my_start / n` passes of `n`
poles, and averages over its samples; `Reduce` adds the averages. The script imports `ded_solve`, which `dedlib` does not define; `siam_solve` takes its place here. -/
def DedAverage {K S : Type} [Field K] [AddCommGroup S] [Module K S] (trial : ℕ → Option S) (n N size : ℕ) (r : S) : Prop :=
  ∃ part : ℕ → S, (∀ rank < size, SiamSolve (K := K) trial (dedMyN N size rank) (dedMyStart n N size rank / n) 0 (.ok (part rank))) ∧
    r = (size : K)⁻¹ • ((List.range size).map part).sum

end Edpyt
