import Verif.Model.Espace
/-!
Energies of adding an electron, read off a dictionary of solved sectors.
-/
namespace Edpyt.Spec

/-- `ω` is the energy it takes to add an electron of spin `s` (`true` is down) to some state in the dictionary `es`: the energy of a state with one
more electron of that spin minus the energy of a state without it. -/
def AddEnergy (es : Espace (ℕ × ℕ)) (s : Bool) (ω : ℝ) : Prop :=
  ∃ p ∈ es, ∃ p' ∈ es, p'.1 = (if s then (p.1.1, p.1.2 + 1) else (p.1.1 + 1, p.1.2)) ∧ ∃ E ∈ p.2.eigvals, ∃ E' ∈ p'.2.eigvals, ω = E' - E

end Edpyt.Spec
