import Verif.Spec.Resolvent
import Verif.Props.Free
import Verif.Props.SelfEnergy
/-!
Specification for C179: two inputs with the same impurity and the same hybridisation function.
-/
namespace Edpyt.Spec
open Matrix

/-- Two inputs on the same number of sites whose interaction lives on site `i`, with the same interaction there and with the same non-interacting Green function of that site. The one-body
matrices may differ: other levels, other couplings, couplings between the other sites. -/
structure SameBath (a a' : HamArgs) (i : ℕ) : Prop where
  n : a'.n = a.n
  hf : a'.hf = a.hf
  lt : i < a.n
  lt' : i < a'.n
  only : a.ImpurityOnly ⟨i, lt⟩
  only' : a'.ImpurityOnly ⟨i, lt'⟩
  U : a'.V.U.getD 0 i i = a.V.U.getD 0 i i
  green : ∀ (s : Bool) (z : ℂ), z.im ≠ 0 → resolvent z (a.oneBody s) ⟨i, lt⟩ ⟨i, lt⟩ = resolvent z (a'.oneBody s) ⟨i, lt'⟩ ⟨i, lt'⟩

end Edpyt.Spec
