import Verif.Model.NanoDmft
import Verif.Model.IntegrateGf
import Mathlib.Topology.ContinuousOn
import Mathlib.Topology.Algebra.Order.LiminfLimsup
/-!
Occupations of the nano lattice, `edpyt/nano_dmft.py:25-38,136-150`, and `adjust_mu`, `edpyt/dmft.py:14-23`.
-/
namespace Edpyt

noncomputable section

/-- One row of `integrate_gf(self, mu)` in `get_occps`, `edpyt/nano_dmft.py:35-37`, which is `matsum_gf` with its defaults `nmats=3000`, `beta=70.`: the lattice
is called with `self.mu = mu` at all frequencies and row `u` is summed. `Sigma zs` is the array `self.Sigma(zs)` with `m` rows. -/
def NanoLoc.occRow {n : ℕ} (g : NanoLoc n) (m : ℕ) (Sigma : List ℂ → ℕ → ℕ → ℂ) (junk : ℕ → ℕ → ℂ) (mu : ℝ) (u : ℕ) : Except PyErr ℝ :=
  (matsumGf (fun x z =>
    let zs := (List.range 3000).map z
    (NanoLoc.call { g with mu := x } m (Sigma zs) zs junk).map fun G c => G u c) g.mu mu 3000 70).1

/-- `integrate`, `edpyt/nano_dmft.py:136-150`, with `get_occps`, `edpyt/nano_dmft.py:35-37`, for one spin and without MPI: `np.squeeze(occps[self.idx_inv])` has at
most one axis, so the result is twice the row of the representative of each site. -/
def NanoLoc.integrate {n : ℕ} (g : NanoLoc n) (m : ℕ) (Sigma : List ℂ → ℕ → ℕ → ℂ) (junk : ℕ → ℕ → ℂ) (mu : ℝ) : Except PyErr (List ℝ) := do
  let occ ← (List.range g.idxNeq.length).mapM (g.occRow m Sigma junk mu)
  g.idxInv.mapM fun i => match occ[i]? with | some x => .ok (2 * x) | none => .error .indexError

/-- `root_scalar(f, bracket=(lo, hi), method="brentq").root` as a contract: a `ValueError` if the values at the ends have the same sign; otherwise a number
inside the bracket, which for a continuous function is within `xtol = 2e-12` plus `rtol = 8.881784197001252e-16` times its size of a root. Source: `edpyt/dmft.py:23`. -/
def Brentq (f : ℝ → ℝ) (lo hi : ℝ) (r : Except PyErr ℝ) : Prop :=
  if 0 < f lo * f hi then r = .error .valueError
  else ∃ x, r = .ok x ∧ lo ≤ x ∧ x ≤ hi ∧ (ContinuousOn f (Set.Icc lo hi) →
    ∃ x0, lo ≤ x0 ∧ x0 ≤ hi ∧ f x0 = 0 ∧ |x - x0| ≤ 2 / 10 ^ 12 + 9 / 10 ^ 16 * |x0|)

/-- `adjust_mu(gf, occupancy_goal)`, `edpyt/dmft.py:14-23`, with the default bracket: an exception of `gf.integrate` passes through. -/
def AdjustMu (integrate : ℝ → Except PyErr (List ℝ)) (goal : List ℝ) (r : Except PyErr ℝ) : Prop :=
  (∃ mu e, -20 ≤ mu ∧ mu ≤ 20 ∧ integrate mu = .error e ∧ r = .error e) ∨
  ∃ N : ℝ → List ℝ, (∀ mu l, -20 ≤ mu → mu ≤ 20 → integrate mu = .ok l → N mu = l) ∧ Brentq (fun mu => (N mu).sum - goal.sum) (-20) 20 r

end

end Edpyt
