import Verif.Spec.Weighted
/-!
Averages over the poles of a Green function.
-/
namespace Edpyt

/-- The sum of `f` over the poles of a Green function, each with its residue. -/
noncomputable def GfEx.mean (f : ℝ → ℝ) (g : GfEx) : ℝ := (List.zipWith (fun q l => q * f l) g.q g.l).sum / g.Z

end Edpyt
