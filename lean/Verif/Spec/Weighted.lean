import Verif.Model.GfExact
/-!
Specification for C184: multiplying every residue of a Green function by a function of its pole.
-/
namespace Edpyt

/-- The Green function `g` with the residue of every pole `l` multiplied by `f l`. -/
noncomputable def GfEx.weighted (f : ℝ → ℝ) (g : GfEx) : GfEx := ⟨List.zipWith (fun q l => q * f l) g.q g.l, g.l, g.Z⟩

end Edpyt
