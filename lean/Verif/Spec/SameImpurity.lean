import Verif.Spec.SameBath
/-!
Specification for C179: two inputs with the same impurity and the same hybridisation function, on any numbers of sites.
-/
namespace Edpyt.Spec
open Matrix

/-- Two inputs, possibly with different numbers of sites, whose interaction lives on site `i`, with the same interaction there and with the same non-interacting Green function of that site. -/
structure SameImpurity (a a' : HamArgs) (i : ℕ) : Prop where
  hf : a'.hf = a.hf
  lt : i < a.n
  lt' : i < a'.n
  only : a.ImpurityOnly ⟨i, lt⟩
  only' : a'.ImpurityOnly ⟨i, lt'⟩
  U : a'.V.U.getD 0 i i = a.V.U.getD 0 i i
  green : ∀ (s : Bool) (z : ℂ), z.im ≠ 0 → resolvent z (a.oneBody s) ⟨i, lt⟩ ⟨i, lt⟩ = resolvent z (a'.oneBody s) ⟨i, lt'⟩ ⟨i, lt'⟩

end Edpyt.Spec
