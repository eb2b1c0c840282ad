import Verif.Spec.Espace
/-!
Specification for C194: the same system in a uniform potential or magnetic field.
-/
namespace Edpyt.Spec

/-- The input with all levels of the up electrons raised by `hu` and all levels of the down electrons by `hd`. A change of the chemical potential or of the gate voltage has
`hu = hd`, a magnetic field has `hu = -hd`. -/
def inField (hu hd : ℝ) (a : HamArgs) : HamArgs :=
  ⟨a.n, fun s i j => a.H s i j + if i = j then (if s = 0 then hu else hd) else 0, a.V, a.z, a.hf, a.mu⟩

end Edpyt.Spec
