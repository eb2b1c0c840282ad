import Verif.Model.DedPass
/-!
Model of one pass of the loop `while not found` of `moam_solve`, `edpyt/dedlib.py:359-390`: what `trial` in `MoamFind` stands for.
-/
namespace Edpyt

/-- `V1`, `edpyt/dedlib.py:336-342`: `U` (an array, or a dictionary of arrays) in the block of the impurities, zeros elsewhere. -/
def moamV (nimp : ℕ) (U : VArg ℝ) : VArg ℝ :=
  let pad : (ℕ → ℕ → ℝ) → ℕ → ℕ → ℝ := fun A i j => if i < nimp ∧ j < nimp then A i j else 0
  ⟨U.U.map pad, U.Jx.map pad, U.Jp.map pad⟩

/-- `subsystem_pos[i]`, `edpyt/dedlib.py:344-349`: impurity `i`, then its `nbath` bath sites. -/
def subsystemPos (nimp nbath i : ℕ) : List ℕ := i :: List.range' (i * nbath + nimp) nbath

/-- `evec = sct.eigvecs[:,0]` and the list `occps`, `edpyt/dedlib.py:368-370` and `:378-380`. -/
def moamOccs (nimp nbath : ℕ) (sct : Sct) : Except PyErr (List (List ℝ)) :=
  match sct.states, sct.eigvecs with
  | .spin up dw, v :: _ => (List.range nimp).mapM fun i => (subsystemPos nimp nbath i).mapM fun pos => dedOccupation v up dw pos
  | .spin _ _, [] => .error .indexError
  | _, _ => .error .attributeError

/-- `H.flat[:nimp*(n+1):n+1] -= sigma0` of an `n × n` array, `edpyt/dedlib.py:373`; `sigma0` a number or one number for each impurity. -/
def subImp (n nimp : ℕ) (sigma0 : ℕ → ℝ) (H : ℕ → ℕ → ℝ) : ℕ → ℕ → ℝ := fun r c =>
  if r * n + c < nimp * (n + 1) ∧ (r * n + c) % (n + 1) = 0 then H r c - sigma0 ((r * n + c) / (n + 1)) else H r c

/-- `np.allclose(N1[i], N0[i])` of two numbers, `edpyt/dedlib.py:385`. -/
def npClose (a b : ℝ) : Prop := |a - b| ≤ 1 / 10 ^ 8 + 1 / 10 ^ 5 * |b|

/-- What one pass adds to the row of an impurity in `sigma` (as a function of `z`), `imp_occp0` and `imp_occp1`. `gf` is the Green function, and `log` records the Lanczos runs; neither is kept by the program. Source: `edpyt/dedlib.py:384-390`. -/
structure MoamSample where
  gf : GfL
  sigma : ℂ → ℂ
  occ0 : ℝ
  occ1 : ℝ
  log : List LancRun

/-- The loop over the impurities, `edpyt/dedlib.py:384-390`. `acc i` is the condition; the calls of `build_gf_lanczos` share `espace`, and each sees what those before it left there. -/
def MoamLoop (g : GfLArgs) (acc : ℕ → Prop) (mk : ℕ → GfLOut → MoamSample) : List ℕ → Espace (ℕ × ℕ) → Except PyErr (List (Option MoamSample)) → Prop
  | [], _ => DetR (.ok [])
  | i :: l, es => fun r =>
    (acc i ∧ BindR (BuildGfLanczos g i false es) (fun out => BindR (MoamLoop g acc mk l out.es) fun rest => DetR (.ok (some (mk i out) :: rest))) r) ∨
    (¬ acc i ∧ BindR (MoamLoop g acc mk l es) (fun rest => DetR (.ok (none :: rest))) r)

/-- The arguments of `build_espace(H, V, None)` and `build_gf_lanczos` in `moam_solve`: `H` serves both spins, no chemical potential. Source: `edpyt/dedlib.py:364,374,385`. -/
def moamArgs (n : ℕ) (H : ℕ → ℕ → ℝ) (V : VArg ℝ) : HamArgs := ⟨n, fun _ => H, V, none, false, 0⟩

/-- One pass, `edpyt/dedlib.py:360-390`, with the sampled `poles` of each impurity: new content of the array `H`, which the next pass finds, and the samples of the impurities whose
numbers of electrons agree. `w` is the word length, `junk` and `jk` the content of uninitialised memory, `cfg` the parameters of the Lanczos runs. -/
def MoamPass (fsolve : (ℝ → ℝ) → ℝ → ℝ) (cfg : LancCfg) (w junk : ℕ) (jk : ℝ) (n : ℕ) (U : VArg ℝ) (sigma0 : ℕ → ℝ) (beta : ℝ) (poles : List (List ℝ)) (H : ℕ → ℕ → ℝ) :
    Except PyErr ((ℕ → ℕ → ℝ) × List (Option MoamSample)) → Prop :=
  let nimp := poles.length
  let nbath := (n - nimp) / nimp
  BindR (DetR (buildMoam n H (poles.map (gfimpFit fsolve)))) fun H1 =>
    BindR (BuildEspace w (moamArgs n H1 (.array fun _ _ => 0)) none) fun p0 =>
      BindR (DetR (firstGround (p0.2.untopD 0) p0.1)) fun s0 =>
        BindR (DetR (moamOccs nimp nbath s0.2)) fun o0 =>
          BindR (BuildEspace w (moamArgs n (subImp n nimp sigma0 H1) (moamV nimp U)) none) fun p1 =>
            BindR (DetR (firstGround (p1.2.untopD 0) p1.1)) fun s1 =>
              BindR (DetR (moamOccs nimp nbath s1.2)) fun o1 =>
                BindR (DetR (screenEspace p1.1 (p1.2.untopD 0) beta (1 / 10 ^ 9))) fun es =>
                  BindR (MoamLoop ⟨cfg, .cf, w, junk, moamArgs n (subImp n nimp sigma0 H1) (moamV nimp U), beta, p1.2.untopD 0, false⟩
                    (fun i => npClose (o1[i]?.getD []).sum (o0[i]?.getD []).sum)
                    (fun i out => ⟨out.gfe, fun z => (gf0Call ((poles[i]?.getD []).map Complex.ofReal) z)⁻¹ - (out.gfe.call jk z.re z.im)⁻¹,
                      (o0[i]?.getD [])[0]?.getD 0, (o1[i]?.getD [])[0]?.getD 0, out.log⟩)
                    (List.range nimp) es) fun smps => DetR (.ok (subImp n nimp sigma0 H1, smps))

end Edpyt
