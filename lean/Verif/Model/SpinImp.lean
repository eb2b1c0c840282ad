import Verif.Model.Dmft
/-!
Model of the spin-dependent impurity object `SpinGfimp` and of the DMFT steps of `edpyt/dmft.py`.
-/
namespace Edpyt

/-- State of a `SpinGfimp`, `edpyt/dmft.py:187-214`: the array `H` of shape `(2, n, n)` and the bath parameters of the two `Gfimp` objects. Their arrays `H` are views
`self.H[s]` (`dmft.py:211`), so they are not stored again. -/
structure SpinImp where
  H : ℕ → ℕ → ℕ → ℝ
  ek : Bool → ℕ → ℝ
  vk : Bool → ℕ → ℝ

/-- The index of a spin in the first axis. Source: `edpyt/dmft.py:187-197`. -/
def spinIdx (s : Bool) : ℕ := if s then 1 else 0

/-- `SpinGfimp.__init__`, `edpyt/dmft.py:201-212`. -/
def SpinImp.init (ek0 vk0 : ℕ → ℝ) : SpinImp := ⟨fun _ _ _ => 0, fun _ => ek0, fun _ => vk0⟩

/-- `self.gfimp[s]`: its `H` is `self.H[s]`. Source: `edpyt/dmft.py:187-197,262-263`. -/
def SpinImp.get (p : SpinImp) (s : Bool) : Imp := ⟨p.H (spinIdx s), p.ek s, p.vk s⟩

/-- Effect on the shared memory of a method of `self.gfimp[s]` that leaves it in the state `i`: all the methods write into the arrays in place. Source: `edpyt/dmft.py:187-197`. -/
def SpinImp.put (p : SpinImp) (s : Bool) (i : Imp) : SpinImp :=
  ⟨Function.update p.H (spinIdx s) i.H, Function.update p.ek s i.ek, Function.update p.vk s i.vk⟩

/-- The methods that change the object; `spin s op` is a method of `self.gfimp[s]` (`up` or `dw`). Source: `edpyt/dmft.py:203-228`. -/
inductive SpinOp
  | spin (s : Bool) (op : ImpOp)
  | fit (ek vk : Bool → ℕ → ℝ)
  | update (mu : ℝ)
  | fitUpdate (ek vk : Bool → ℕ → ℝ) (mu : ℝ)
  | resetBath (ek0 vk0 : ℕ → ℝ)
  | symmetrize

/-- `for gf in self: gf.op(...)`. Source: `edpyt/dmft.py:203-220`. -/
def SpinImp.each (n : ℕ) (p : SpinImp) (op : Bool → List ImpOp) : SpinImp :=
  [false, true].foldl (fun p s => p.put s ((p.get s).run n (op s))) p

/-- `fit`, `update`, `fit_update`, `reset_bath`, `spin_symmetrize`, `edpyt/dmft.py:218-236,253-255`, and the methods of one spin. -/
def SpinImp.step (n : ℕ) (p : SpinImp) : SpinOp → SpinImp
  | .spin s op => p.put s ((p.get s).step n op)
  | .fit ek vk => p.each n fun s => [.fit (ek s) (vk s)]
  | .update mu => { p with H := fun s i j => if s < 2 ∧ i = 0 ∧ j = 0 then -mu else p.H s i j }
  | .fitUpdate ek vk mu => p.each n fun s => [.fit (ek s) (vk s), .update mu]
  | .resetBath ek0 vk0 => p.each n fun _ => [.resetBath ek0 vk0]
  | .symmetrize => ⟨Function.update p.H 1 (p.H 0), Function.update p.ek true (p.ek false), Function.update p.vk true (p.vk false)⟩

/-- The object after a history of calls. Source: `edpyt/dmft.py:174-263`. -/
def SpinImp.run (n : ℕ) (p : SpinImp) (ops : List SpinOp) : SpinImp := ops.foldl (SpinImp.step n) p

/-- `dmft_step_magnetic(delta, gfimp, gfloc, sign, field)`, `edpyt/dmft.py:365-371`, the changes of the impurity object; `mu`, `ed` are the attributes of the lattice object and
`ek, vk` the result of the fit. -/
def dmftStepMagnetic (ek vk : ℕ → ℝ) (mu ed sign field : ℝ) : List SpinOp :=
  [.spin false (.fit ek vk), .symmetrize, .spin false (.update (mu + sign * field - ed)), .spin true (.update (mu - sign * field - ed))]

/-- `dmft_step(delta, gfimp, gfloc)`, `edpyt/dmft.py:349-354`, the changes of a spin-dependent impurity object. -/
def dmftStepSpin (ek vk : Bool → ℕ → ℝ) (mu ed : ℝ) : List SpinOp := [.fit ek vk, .update (mu - ed)]

/-- `Sigma(z)`, `edpyt/dmft.py:237-238`, of spin `s`; `gf s` is the function set by `solve`. -/
noncomputable def SpinImp.sigma (n : ℕ) (p : SpinImp) (gf : Bool → ℂ → ℂ) (s : Bool) (z : ℂ) : ℂ := (p.get s).sigma n (gf s) z

end Edpyt
