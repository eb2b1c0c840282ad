import Verif.Model.DedPass
/-!
Model of `edpyt/dedlib_dev.py`: the loops of `ded_solve` and `ded_solve_multi`. The classes `RandomSampler`, `Gf0` and `Gfimp` and the function `build_moam` are copies of those in
`edpyt/dedlib.py`, see `Model/Ded` and `Model/Moam`.
-/
namespace Edpyt

/-- `get_occupation(espace, egs, beta, pos)`, `edpyt/dedlib_dev.py:162-173`. For each sector it calls `get_evecs_occupation` with five arguments, but that takes four
(`edpyt/dedlib_dev.py:134`), so the first sector raises. Without sectors `N /= Z` divides zero by zero. -/
def devOccupation (es : Espace (ℕ × ℕ)) : Except PyErr ℝ :=
  match es with
  | [] => .error .zeroDivision
  | _ :: _ => .error .typeError

/-- `build_siam(H, gfimp)`, `edpyt/dedlib_dev.py:219-227`, after `V[0,0] = 0.`, `edpyt/dedlib_dev.py:276-277`: the same assignments as `build_siam` of `edpyt/dedlib.py` with `U = 0`. -/
noncomputable def devBuildSiam (n : ℕ) (H V : ℕ → ℕ → ℝ) (g : Gfimp) : Except PyErr ((ℕ → ℕ → ℝ) × (ℕ → ℕ → ℝ)) := dedBuildSiam n H V 0 g

/-- `ded_solve`, `edpyt/dedlib_dev.py:230-307`, with `N` samples. `neig` is `get_espace_dim(n, neig_max=3)`, `poles` the first draw. Everything after the first call of `get_occupation` is
left open: `rest` is any continuation. For `N = 0` the division `imp_occp0 /= Q` of Python floats raises. -/
def DevDedSolve {R : Type} (fsolve : (ℝ → ℝ) → ℝ → ℝ) (w n : ℕ) (neig : List ℕ) (poles : List ℝ) (rest : ℝ → Except PyErr R → Prop) (N : ℕ) : Except PyErr R → Prop :=
  if N = 0 then DetR (.error .zeroDivision) else
    BindR (DetR (devBuildSiam n (fun _ _ => 0) (fun _ _ => 0) (gfimpFit fsolve poles))) fun hv =>
      BindR (BuildEspace w (siamArgs n hv.1 hv.2) (some neig)) fun p0 =>
        BindR (DetR (firstGround (p0.2.untopD 0) p0.1)) fun _ =>
          BindR (DetR (devOccupation p0.1)) rest

/-- The types of the argument `sigma0`. Source: `edpyt/dedlib_dev.py:230-231,343-344`. -/
inductive Sigma0Arg
  | default
  | given
  deriving DecidableEq

/-- The error, if any, that the handling of `U` and `sigma0` raises in `ded_solve_multi`, `edpyt/dedlib_dev.py:369-415`, and `moam_solve`, `edpyt/dedlib.py:329-378`. By default
`sigma0 = U/2.`, which raises for a dictionary. The interaction as an array is a matrix (number of impurities squared); `H.flat[:nimp*(n+1):n+1] -= sigma0` cannot subtract a matrix from a
vector in place. For a number the variable `V1` is not bound. A given `sigma0` is taken to be a number. -/
def multiArgsError (U : MoamU) (s : Sigma0Arg) : Option PyErr :=
  match U, s with
  | .dict, .default => some .typeError
  | .array, .default => some .valueError
  | .scalar, _ => some .nameError
  | _, .given => none

/-- `ded_solve_multi`, `edpyt/dedlib_dev.py:343-443`, from pass `t` of the generator on: as `moam_solve`, but with one counter `Q[i]` for each impurity, and `sigma[:] = 0.` for a given array
`sigma`. `trial t i` is the sample of impurity `i` in pass `t` if it fulfils the condition. `np.where(Q > 0, Q, 1)` is `max Q 1`. -/
def DevMultiSolve {K S : Type} [Field K] [AddCommGroup S] [Module K S] {nimp : ℕ} (U : MoamU) (s : Sigma0Arg) (trial : ℕ → Fin nimp → Option S) (N t : ℕ)
    (r : Except PyErr (Fin nimp → S)) : Prop :=
  match multiArgsError U s with
  | some e => 0 < N ∧ r = .error e
  | none => ∃ t' acc, MoamRun (fun t i => (trial t i).map fun x => (x, (1 : ℕ))) N t (fun _ => (0, 0)) t' acc ∧ r = .ok fun i => ((max (acc i).2 1 : ℕ) : K)⁻¹ • (acc i).1

end Edpyt
