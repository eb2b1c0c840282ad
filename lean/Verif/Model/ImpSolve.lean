import Verif.Model.Dmft
import Verif.Model.GfLanczos
import Verif.Model.Espace
/-!
# `Gfimp.solve` and `SpinGfimp.solve`, `edpyt/dmft.py`

The two objects keep the Hamiltonian arrays, `beta`, `spin`, `neig` and the flag `adjust_neig`. What they pass to `build_espace` and `build_gf_lanczos` is a
`HamArgs`; `Imp.args` (Props/SelfEnergy) gives the one of a `Gfimp`.
-/

namespace Edpyt

/-- What `Gfimp.solve` stores: `self.gf`, `self.espace`, `self.egs` and the content of `self.neig`; the records of the Lanczos runs are not part of the program. Source: `edpyt/dmft.py:151-162`. -/
structure SolveOut where
  gf : GfL
  es : Espace (ℕ × ℕ)
  egs : ℝ
  neig : Option (List ℕ)
  log : List LancRun

/-- `screen_espace(espace, egs)` with its default arguments `beta=1e6, cutoff=1e-9`, `edpyt/espace.py:202` and `edpyt/dmft.py:155`. -/
noncomputable def screenDefault (es : Espace (ℕ × ℕ)) (egs : ℝ) : Except PyErr (Espace (ℕ × ℕ)) := screenEspace es egs (10 ^ 6) (1 / 10 ^ 9)

/-- `if self.adjust_neig: adjust_neigsector(espace, self.neig, self.n)`, `edpyt/dmft.py:156-157`. Indexing `None` is a `TypeError`. -/
def adjustIf (adjust : Bool) (es : Espace (ℕ × ℕ)) (neig : Option (List ℕ)) (n : ℕ) : Except PyErr (Option (List ℕ)) :=
  if adjust then
    match neig with
    | none => .error .typeError
    | some l => (adjustNeigsector es l n).map some
  else .ok neig

/-- `Gfimp.solve`, `edpyt/dmft.py:151-164`: `w` is the word length, `junk` the content of uninitialised memory, `cfg` the options and numerical parameters of
the Lanczos runs. `egs` is infinite only for an empty espace, where it is not used. -/
def ImpSolve (cfg : LancCfg) (w junk : ℕ) (a : HamArgs) (beta : ℝ) (spin : Bool) (neig : Option (List ℕ)) (adjust : Bool) : Except PyErr SolveOut → Prop :=
  BindR (BuildEspace w a neig) fun p =>
    BindR (DetR (screenDefault p.1 (p.2.untopD 0))) fun es =>
      BindR (DetR (adjustIf adjust es neig a.n)) fun neig' =>
        BindR (BuildGfLanczos ⟨cfg, .sp, w, junk, a, beta, p.2.untopD 0, spin⟩ 0 false es) fun out =>
          DetR (.ok ⟨out.gfe, out.es, p.2.untopD 0, neig', out.log⟩)

/-- What `SpinGfimp.solve` stores. Source: `edpyt/dmft.py:237-247`. -/
structure SpinSolveOut where
  up : GfL
  dw : GfL
  es : Espace (ℕ × ℕ)
  egs : ℝ
  neig : Option (List ℕ)
  log : List LancRun

/-- `SpinGfimp.solve`, `edpyt/dmft.py:236-247`: one espace, screened once; the two calls of `build_gf_lanczos` share it, and the second one sees what the first
one left in it. -/
def SpinImpSolve (cfg : LancCfg) (w junk : ℕ) (a : HamArgs) (beta : ℝ) (neig : Option (List ℕ)) (adjust : Bool) : Except PyErr SpinSolveOut → Prop :=
  BindR (BuildEspace w a neig) fun p =>
    BindR (DetR (screenDefault p.1 (p.2.untopD 0))) fun es =>
      BindR (DetR (adjustIf adjust es neig a.n)) fun neig' =>
        BindR (BuildGfLanczos ⟨cfg, .sp, w, junk, a, beta, p.2.untopD 0, false⟩ 0 false es) fun out =>
          BindR (BuildGfLanczos ⟨cfg, .sp, w, junk, a, beta, p.2.untopD 0, true⟩ 0 false out.es) fun out' =>
            DetR (.ok ⟨out.gfe, out'.gfe, out'.es, p.2.untopD 0, neig', out.log ++ out'.log⟩)

end Edpyt
