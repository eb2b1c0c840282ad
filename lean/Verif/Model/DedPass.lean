import Verif.Model.DedSolve
import Verif.Model.Espace
import Verif.Model.GfExact
import Verif.Model.GfLanczos
/-!
Model of one pass of the loop `while not found` of `siam_solve`, `edpyt/dedlib.py:244-268`: what `trial` in `Model/DedSolve` stands for.
-/
namespace Edpyt

/-- `next((k,v) for k,v in espace.items() if abs(v.eigvals[0]-egs)<1e-7)`, `edpyt/dedlib.py:251` and `:259`. -/
noncomputable def firstGround (egs : ℝ) : Espace (ℕ × ℕ) → Except PyErr ((ℕ × ℕ) × Sct)
  | [] => .error .stopIteration
  | p :: l => match p.2.eigvals with
    | [] => .error .indexError
    | x :: _ => if |x - egs| < 1 / 10 ^ 7 then .ok p else firstGround egs l

/-- `evec = sct.eigvecs[:,0]` and `get_occupation(evec, sct.states.up, sct.states.dw, 0)`, `edpyt/dedlib.py:252-253` and `:263-264`. -/
def siamOcc (sct : Sct) : Except PyErr ℝ :=
  match sct.states, sct.eigvecs with
  | .spin up dw, v :: _ => dedOccupation v up dw 0
  | .spin _ _, [] => .error .indexError
  | _, _ => .error .attributeError

/-- `np.allclose(N1, N0)` of two pairs of numbers, `edpyt/dedlib.py:260`: `|N1 - N0| <= 1e-8 + 1e-5 |N0|` for both entries. -/
def npAllclose (N1 N0 : ℕ × ℕ) : Prop :=
  |(N1.1 : ℝ) - N0.1| ≤ 1 / 10 ^ 8 + 1 / 10 ^ 5 * |(N0.1 : ℝ)| ∧ |(N1.2 : ℝ) - N0.2| ≤ 1 / 10 ^ 8 + 1 / 10 ^ 5 * |(N0.2 : ℝ)|

/-- What one accepted pass adds to `sigma` (as a function of `z`), `imp_occp0` and `imp_occp1`. The entropy is left out. Source: `edpyt/dedlib.py:260-268`. -/
structure SiamSample where
  sigma : ℂ → ℂ
  occ0 : ℝ
  occ1 : ℝ

/-- The arguments of `build_espace(H, V, None)` in `siam_solve`: `H` serves both spins, no chemical potential. Source: `edpyt/dedlib.py:248,256,261`. -/
def siamArgs (n : ℕ) (H V : ℕ → ℕ → ℝ) : HamArgs := ⟨n, fun _ => H, .array V, none, false, 0⟩

/-- `A[0,0] = x`. Source: `edpyt/dedlib.py:200-201,254-255`. -/
def setCorner (A : ℕ → ℕ → ℝ) (x : ℝ) : ℕ → ℕ → ℝ := fun i j => if i = 0 ∧ j = 0 then x else A i j

/-- One pass, `edpyt/dedlib.py:245-268`, with the sampled `poles`: new contents of the arrays `H` and `V`, which the next pass finds, and the sample if the numbers of
electrons agree. `w` is the word length and `junk` the content of uninitialised memory. -/
def SiamPass (fsolve : (ℝ → ℝ) → ℝ → ℝ) (w junk n : ℕ) (U sigma0 beta : ℝ) (poles : List ℝ) (H V : ℕ → ℕ → ℝ) :
    Except PyErr (((ℕ → ℕ → ℝ) × (ℕ → ℕ → ℝ)) × Option SiamSample) → Prop :=
  BindR (DetR (dedBuildSiam n H V 0 (gfimpFit fsolve poles))) fun hv =>
    BindR (BuildEspace w (siamArgs n hv.1 hv.2) none) fun p0 =>
      BindR (DetR (firstGround (p0.2.untopD 0) p0.1)) fun s0 =>
        BindR (DetR (siamOcc s0.2)) fun o0 =>
          BindR (BuildEspace w (siamArgs n (setCorner hv.1 (hv.1 0 0 - sigma0)) (setCorner hv.2 U)) none) fun p1 =>
            BindR (DetR (firstGround (p1.2.untopD 0) p1.1)) fun s1 => fun r =>
              (npAllclose s1.1 s0.1 ∧
                BindR (DetR (buildGfExact junk n p1.1 beta (p1.2.untopD 0) 0 false)) (fun gf =>
                  BindR (DetR (siamOcc s1.2)) fun o1 =>
                    DetR (.ok ((setCorner hv.1 (hv.1 0 0 - sigma0), setCorner hv.2 U),
                      some ⟨fun z => (gf0Call (poles.map Complex.ofReal) z)⁻¹ - (gf.call z.re z.im)⁻¹, o0, o1⟩))) r) ∨
              (¬ npAllclose s1.1 s0.1 ∧ r = .ok ((setCorner hv.1 (hv.1 0 0 - sigma0), setCorner hv.2 U), none))

end Edpyt
