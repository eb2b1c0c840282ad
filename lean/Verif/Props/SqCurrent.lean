import Verif.Props.SqBuild
import Mathlib.Analysis.SpecialFunctions.Log.Basic
/-!
Properties C94, C95: currents of sequential tunnelling.
-/
namespace Edpyt
open Spec

/-- Number of electrons of a state. -/
def idCharge (id : TId) : ℝ := ((id.1 + id.2.1 : ℤ) : ℝ)

/-- `T.dot(P).sum()` with `T = build_transition_matrix(gfdict, beta, mu, a)`: the particle current out of a lead with chemical potential
`mu` and couplings `a`, as in `tests/test_sqtunneling.py:110-111`. -/
noncomputable def leadCurrent (gd : GfDict) (beta mu : ℝ) (a : List ℝ) (p : ℕ → ℝ) : ℝ :=
  ∑ f ∈ Finset.range (finalIds gd).length, ∑ i ∈ Finset.range (finalIds gd).length, sqTransition gd beta mu a f i * p i

/-- A quantity attached to the states. -/
def atId (gd : GfDict) (X : TId → ℝ) (i : ℕ) : ℝ := if h : i < (finalIds gd).length then X (finalIds gd)[i] else 0

theorem lead_items {m0 m1 : ℝ} {a0 a1 : List ℝ} {lead : ℕ} (hl : lead < 2) :
    getItem [m0, m1] (lead : ℤ) = .ok (if lead = 0 then m0 else m1) ∧ getItem [a0, a1] (lead : ℤ) = .ok (if lead = 0 then a0 else a1) := by
  have : lead = 0 ∨ lead = 1 := by omega
  rcases this with rfl | rfl <;> exact ⟨rfl, rfl⟩

theorem sqTransition_flow {gd : GfDict} {En : TId → ℝ} (hc : Conjugate gd En) (beta m0 m1 : ℝ) (a0 a1 : List ℝ) {lead : ℕ} (hl : lead < 2) {f i : ℕ}
    (hf : f < (finalIds gd).length) (hi : i < (finalIds gd).length) :
    sqTransition gd beta (if lead = 0 then m0 else m1) (if lead = 0 then a0 else a1) f i =
      if i ≠ f then sqFlow gd beta [m0, m1] [a0, a1] lead (i, f) * (atId gd idCharge f - atId gd idCharge i) else 0 := by
  unfold sqTransition
  by_cases h : i = f
  · simp [h]
  simp only [ne_eq, h, not_false_eq_true, if_true, List.getElem?_eq_getElem hf, List.getElem?_eq_getElem hi, sqFlow, atId, dif_pos hf, dif_pos hi]
  obtain ⟨e1, e2⟩ := lead_items (m0 := m0) (m1 := m1) (a0 := a0) (a1 := a1) hl
  cases hg : dictGet gd ((finalIds gd)[f], (finalIds gd)[i]) with
  | error e => simp [sqGamma, hg, bind, Except.bind, Except.toOption]
  | ok g =>
    cases hcall : g.call (if lead = 0 then a0 else a1) beta (if lead = 0 then m0 else m1) with
    | error e =>
      have : sqGamma gd beta [m0, m1] [a0, a1] lead (finalIds gd)[f] (finalIds gd)[i] = none := by
        simp only [sqGamma, hg, e1, e2, hcall, bind, Except.bind, Except.toOption]
      simp [this, hcall]
    | ok γ =>
      rw [sqGamma_ok hg e2 e1 hcall]
      obtain ⟨g', -, -, -, -, h1, h2⟩ := hc _ _ g hg
      simp only [hcall, Option.getD_some]
      cases hel : g.el
      · obtain ⟨-, h3⟩ := h2 hel
        simp only [Bool.false_eq_true, if_false, idCharge, h3]
        push_cast; ring
      · obtain ⟨-, h3⟩ := h1 hel
        simp only [if_true, idCharge, h3]
        push_cast; ring

/-- Summation by parts: the mean rate of change of a quantity. -/
theorem rate_mean (gd : GfDict) (beta : ℝ) (mu : List ℝ) (A : List (List ℝ)) (p g : ℕ → ℝ) :
    (∑ f ∈ Finset.range (finalIds gd).length, ∑ i ∈ Finset.range (finalIds gd).length,
      if i ≠ f then (sqFlow gd beta mu A 0 (i, f) + sqFlow gd beta mu A 1 (i, f)) * (g f - g i) * p i else 0) =
    ∑ f ∈ Finset.range (finalIds gd).length, g f * ∑ i ∈ Finset.range (finalIds gd).length, sqRate gd beta mu A f i * p i := by
  set sz := (finalIds gd).length
  have hW : ∀ f ∈ Finset.range sz, ∀ i ∈ Finset.range sz, i ≠ f →
      sqFlow gd beta mu A 0 (i, f) + sqFlow gd beta mu A 1 (i, f) = sqRate gd beta mu A f i := by
    intro f hf i hi h
    rw [sqRate_off gd beta mu A (Finset.mem_range.mp hf) (Finset.mem_range.mp hi) (Ne.symm h)]
  have hc := (C55_sequential gd beta mu A).conserve
  have h1 : ∀ f ∈ Finset.range sz, (∑ i ∈ Finset.range sz,
      if i ≠ f then (sqFlow gd beta mu A 0 (i, f) + sqFlow gd beta mu A 1 (i, f)) * (g f - g i) * p i else 0) =
      g f * (∑ i ∈ Finset.range sz, sqRate gd beta mu A f i * p i) - ∑ i ∈ Finset.range sz, sqRate gd beta mu A f i * (g i * p i) := by
    intro f hf
    rw [Finset.mul_sum, ← Finset.sum_sub_distrib]
    apply Finset.sum_congr rfl; intro i hi
    by_cases h : i = f
    · subst h; simp; ring
    · rw [if_pos h, hW f hf i hi h]; ring
  rw [Finset.sum_congr rfl h1, Finset.sum_sub_distrib]
  have h2 : ∑ f ∈ Finset.range sz, ∑ i ∈ Finset.range sz, sqRate gd beta mu A f i * (g i * p i) = 0 := by
    rw [Finset.sum_comm]
    apply Finset.sum_eq_zero; intro i hi
    rw [← Finset.sum_mul, hc i (Finset.mem_range.mp hi), zero_mul]
  rw [h2, sub_zero]

theorem leadCurrent_flow {gd : GfDict} {En : TId → ℝ} (hc : Conjugate gd En) (beta m0 m1 : ℝ) (a0 a1 : List ℝ) (p : ℕ → ℝ) {lead : ℕ} (hl : lead < 2) :
    leadCurrent gd beta (if lead = 0 then m0 else m1) (if lead = 0 then a0 else a1) p =
      ∑ f ∈ Finset.range (finalIds gd).length, ∑ i ∈ Finset.range (finalIds gd).length,
        if i ≠ f then sqFlow gd beta [m0, m1] [a0, a1] lead (i, f) * (atId gd idCharge f - atId gd idCharge i) * p i else 0 := by
  unfold leadCurrent
  apply Finset.sum_congr rfl; intro f hf
  apply Finset.sum_congr rfl; intro i hi
  rw [sqTransition_flow hc beta m0 m1 a0 a1 hl (Finset.mem_range.mp hf) (Finset.mem_range.mp hi)]
  split_ifs <;> simp

/-- **C94** continuity equation: for every dictionary of conjugate transitions, temperature, chemical potentials, couplings and
distribution `p`, the currents out of the two leads add up to the rate of change of the mean number of electrons under the rate matrix. -/
theorem C94_continuity {gd : GfDict} {En : TId → ℝ} (hc : Conjugate gd En) (beta m0 m1 : ℝ) (a0 a1 : List ℝ) (p : ℕ → ℝ) :
    leadCurrent gd beta m0 a0 p + leadCurrent gd beta m1 a1 p =
      ∑ f ∈ Finset.range (finalIds gd).length, atId gd idCharge f *
        ∑ i ∈ Finset.range (finalIds gd).length, sqRate gd beta [m0, m1] [a0, a1] f i * p i := by
  have h0 := leadCurrent_flow hc beta m0 m1 a0 a1 p (lead := 0) (by norm_num)
  have h1 := leadCurrent_flow hc beta m0 m1 a0 a1 p (lead := 1) (by norm_num)
  simp only [if_true] at h0
  simp only [one_ne_zero, if_false] at h1
  rw [h0, h1, ← rate_mean, ← Finset.sum_add_distrib]
  apply Finset.sum_congr rfl; intro f _
  rw [← Finset.sum_add_distrib]
  apply Finset.sum_congr rfl; intro i _
  split_ifs <;> ring

/-- **C94** current conservation: in a stationary state what leaves one lead enters the other. -/
theorem C94_conservation {gd : GfDict} {En : TId → ℝ} (hc : Conjugate gd En) {beta m0 m1 : ℝ} {a0 a1 : List ℝ} {p : ℕ → ℝ}
    (hp : IsStationary (finalIds gd).length (sqRate gd beta [m0, m1] [a0, a1]) p) :
    leadCurrent gd beta m0 a0 p = -leadCurrent gd beta m1 a1 p := by
  have := C94_continuity hc beta m0 m1 a0 a1 p
  rw [Finset.sum_eq_zero (fun f hf => by rw [hp f (Finset.mem_range.mp hf), mul_zero])] at this
  linarith

/-- Detailed balance of one lead with its own chemical potential. -/
theorem sqGamma_lead {gd : GfDict} {En : TId → ℝ} (hc : Conjugate gd En) (beta m : ℝ) {mu : List ℝ} (A : List (List ℝ)) {lead : ℕ}
    (hm : getItem mu (lead : ℤ) = .ok m) (F I : TId) :
    (sqGamma gd beta mu A lead F I).getD 0 * gcWeight En beta m I = (sqGamma gd beta mu A lead I F).getD 0 * gcWeight En beta m F := by
  have key : ∀ F I γ, sqGamma gd beta mu A lead F I = some γ →
      ∃ γ', sqGamma gd beta mu A lead I F = some γ' ∧ γ * gcWeight En beta m I = γ' * gcWeight En beta m F := by
    intro F I γ h
    obtain ⟨g, a, m', h1, h2, h3, h4⟩ := sqGamma_some h
    rw [hm] at h3
    obtain rfl := Except.ok.inj h3
    obtain ⟨g', h1', hv, hE, hel, he, hh⟩ := hc F I g h1
    obtain ⟨γ', h4', h5⟩ := call_conj hv hE hel h4
    refine ⟨γ', sqGamma_ok h1' h2 hm h4', ?_⟩
    rw [h5, mul_assoc]
    congr 1
    unfold gcWeight
    rw [← Real.exp_add]
    congr 1
    cases hg : g.el
    · obtain ⟨e1, e2⟩ := hh hg
      have e3 : ((I.1 + I.2.1 : ℤ) : ℝ) = ((F.1 + F.2.1 : ℤ) : ℝ) + 1 := by rw [e2]; push_cast; ring
      rw [e1, e3]; simp; ring
    · obtain ⟨e1, e2⟩ := he hg
      have e3 : ((F.1 + F.2.1 : ℤ) : ℝ) = ((I.1 + I.2.1 : ℤ) : ℝ) + 1 := by rw [e2]; push_cast; ring
      rw [e1, e3]; simp; ring
  cases h : sqGamma gd beta mu A lead F I with
  | some γ =>
    obtain ⟨γ', h', e⟩ := key F I γ h
    rw [h']; exact e
  | none =>
    cases h' : sqGamma gd beta mu A lead I F with
    | none => simp
    | some γ' =>
      obtain ⟨γ, h'', _⟩ := key I F γ' h'
      rw [h] at h''
      cases h''

/-- Local detailed balance of the flows. -/
theorem sqFlow_lead {gd : GfDict} {En : TId → ℝ} (hc : Conjugate gd En) (beta m0 m1 : ℝ) (a0 a1 : List ℝ) {lead : ℕ} (hl : lead < 2) {f i : ℕ}
    (hf : f < (finalIds gd).length) (hi : i < (finalIds gd).length) :
    sqFlow gd beta [m0, m1] [a0, a1] lead (i, f) * atId gd (gcWeight En beta (if lead = 0 then m0 else m1)) i =
      sqFlow gd beta [m0, m1] [a0, a1] lead (f, i) * atId gd (gcWeight En beta (if lead = 0 then m0 else m1)) f := by
  simp only [sqFlow, List.getElem?_eq_getElem hf, List.getElem?_eq_getElem hi, atId, dif_pos hf, dif_pos hi]
  exact sqGamma_lead hc beta _ _ (lead_items (a0 := a0) (a1 := a1) hl).1 _ _

/-- **C94** equilibrium: with the grand-canonical weights of a lead's own chemical potential the current out of that lead vanishes. -/
theorem C94_equilibrium {gd : GfDict} {En : TId → ℝ} (hc : Conjugate gd En) (beta m : ℝ) (a : List ℝ) :
    leadCurrent gd beta m a (atId gd (gcWeight En beta m)) = 0 := by
  have h0 := leadCurrent_flow hc beta m m a a (atId gd (gcWeight En beta m)) (lead := 0) (by norm_num)
  simp only [if_true] at h0
  set S := leadCurrent gd beta m a (atId gd (gcWeight En beta m)) with hS
  have h1 : S = -S := by
    conv_lhs => rw [h0, Finset.sum_comm]
    conv_rhs => rw [h0, ← Finset.sum_neg_distrib]
    apply Finset.sum_congr rfl; intro f hf
    rw [← Finset.sum_neg_distrib]
    apply Finset.sum_congr rfl; intro i hi
    by_cases h : i = f
    · simp [h]
    · have := sqFlow_lead hc beta m m a a (lead := 0) (by norm_num) (Finset.mem_range.mp hf) (Finset.mem_range.mp hi)
      simp only [if_true] at this
      rw [if_pos h, if_pos (Ne.symm h)]
      linear_combination (atId gd idCharge f - atId gd idCharge i) * this
  linarith

/-- Entropy production of a pair of flows. -/
theorem pair_nonneg {x y : ℝ} (hx : 0 < x) (hy : 0 < y) : 0 ≤ (x - y) * (Real.log x - Real.log y) := by
  rcases le_total x y with h | h
  · have := Real.log_le_log hx h
    nlinarith
  · have := Real.log_le_log hy h
    nlinarith

/-- Particles that lead `lead` moves from `i` to `f`, minus those it moves back, per unit time. -/
noncomputable def netFlow (gd : GfDict) (beta m0 m1 : ℝ) (a0 a1 : List ℝ) (p : ℕ → ℝ) (lead f i : ℕ) : ℝ :=
  sqFlow gd beta [m0, m1] [a0, a1] lead (i, f) * p i - sqFlow gd beta [m0, m1] [a0, a1] lead (f, i) * p f

/-- The force that drives `netFlow`. -/
noncomputable def netForce (gd : GfDict) (En : TId → ℝ) (beta m0 m1 : ℝ) (p : ℕ → ℝ) (lead f i : ℕ) : ℝ :=
  (Real.log (p i) - Real.log (p f)) + beta * ((if lead = 0 then m0 else m1) * (atId gd idCharge f - atId gd idCharge i) - (atId gd En f - atId gd En i))

/-- Flow and force have the same sign. -/
theorem flow_force {gd : GfDict} {En : TId → ℝ} (hc : Conjugate gd En) {beta m0 m1 : ℝ} {a0 a1 : List ℝ} {p : ℕ → ℝ}
    (hpos : ∀ i, i < (finalIds gd).length → 0 < p i) {lead : ℕ} (hl : lead < 2) {f i : ℕ} (hf' : f < (finalIds gd).length) (hi' : i < (finalIds gd).length) :
    0 ≤ netFlow gd beta m0 m1 a0 a1 p lead f i * netForce gd En beta m0 m1 p lead f i ∧
    (netFlow gd beta m0 m1 a0 a1 p lead f i * netForce gd En beta m0 m1 p lead f i = 0 → netFlow gd beta m0 m1 a0 a1 p lead f i = 0) := by
  set c := fun lead f i => sqFlow gd beta [m0, m1] [a0, a1] lead (i, f) with hcdef
  set m : ℕ → ℝ := fun lead => if lead = 0 then m0 else m1 with hm
  have hgc : ∀ i, i < (finalIds gd).length → Real.log (atId gd (gcWeight En beta (m lead)) i) = -beta * (atId gd En i - m lead * atId gd idCharge i) := by
    intro i hi
    simp only [atId, dif_pos hi, gcWeight, Real.log_exp, idCharge]
  have hgp : ∀ i, i < (finalIds gd).length → 0 < atId gd (gcWeight En beta (m lead)) i := by
    intro i hi
    simp only [atId, dif_pos hi, gcWeight]; exact Real.exp_pos _
  have hlb := sqFlow_lead hc beta m0 m1 a0 a1 hl hf' hi'
  have hnn : 0 ≤ c lead f i := sqFlow_nonneg ..
  have hgi := hgp i hi'
  have hgf := hgp f hf'
  change c lead f i * atId gd (gcWeight En beta (m lead)) i = c lead i f * atId gd (gcWeight En beta (m lead)) f at hlb
  change 0 ≤ (c lead f i * p i - c lead i f * p f) * ((Real.log (p i) - Real.log (p f)) + beta * (m lead * (atId gd idCharge f - atId gd idCharge i) - (atId gd En f - atId gd En i))) ∧
    ((c lead f i * p i - c lead i f * p f) * ((Real.log (p i) - Real.log (p f)) + beta * (m lead * (atId gd idCharge f - atId gd idCharge i) - (atId gd En f - atId gd En i))) = 0 →
      c lead f i * p i - c lead i f * p f = 0)
  rcases hnn.lt_or_eq with hpos1 | hz
  · have hpos2 : 0 < c lead i f := by
      have : 0 < c lead i f * atId gd (gcWeight En beta (m lead)) f := by rw [← hlb]; positivity
      exact (pos_iff_pos_of_mul_pos this).mpr hgf
    have hx : 0 < c lead f i * p i := mul_pos hpos1 (hpos i hi')
    have hy : 0 < c lead i f * p f := mul_pos hpos2 (hpos f hf')
    have hl1 := congrArg Real.log hlb
    rw [Real.log_mul hpos1.ne' hgi.ne', Real.log_mul hpos2.ne' hgf.ne', hgc i hi', hgc f hf'] at hl1
    have hF : (Real.log (p i) - Real.log (p f)) + beta * (m lead * (atId gd idCharge f - atId gd idCharge i) - (atId gd En f - atId gd En i)) =
        Real.log (c lead f i * p i) - Real.log (c lead i f * p f) := by
      rw [Real.log_mul hpos1.ne' (hpos i hi').ne', Real.log_mul hpos2.ne' (hpos f hf').ne']
      linarith
    rw [hF]
    refine ⟨pair_nonneg hx hy, fun h => ?_⟩
    rcases mul_eq_zero.mp h with h | h
    · exact h
    · exact sub_eq_zero.mpr (Real.log_injOn_pos hx hy (sub_eq_zero.mp h))
  · have hz2 : c lead i f = 0 := by
      rw [← hz, zero_mul] at hlb
      exact (mul_eq_zero.mp hlb.symm).resolve_right hgf.ne'
    rw [← hz, hz2]; simp

/-- Entropy production: the power of the bias is the sum of flows times forces over all pairs of states and both leads. -/
theorem entropy_production {gd : GfDict} {En : TId → ℝ} (hc : Conjugate gd En) {beta m0 m1 : ℝ} {a0 a1 : List ℝ} {p : ℕ → ℝ}
    (hp : IsStationary (finalIds gd).length (sqRate gd beta [m0, m1] [a0, a1]) p) :
    2 * (beta * ((m0 - m1) * leadCurrent gd beta m0 a0 p)) =
      (∑ f ∈ Finset.range (finalIds gd).length, ∑ i ∈ Finset.range (finalIds gd).length,
        if i ≠ f then netFlow gd beta m0 m1 a0 a1 p 0 f i * netForce gd En beta m0 m1 p 0 f i else 0) +
      ∑ f ∈ Finset.range (finalIds gd).length, ∑ i ∈ Finset.range (finalIds gd).length,
        if i ≠ f then netFlow gd beta m0 m1 a0 a1 p 1 f i * netForce gd En beta m0 m1 p 1 f i else 0 := by
  set sz := (finalIds gd).length with hsz
  set R := Finset.range sz with hR
  set c := fun lead f i => sqFlow gd beta [m0, m1] [a0, a1] lead (i, f) with hcdef
  set N := atId gd idCharge with hN
  set E := atId gd En with hE
  set m : ℕ → ℝ := fun lead => if lead = 0 then m0 else m1 with hm
  have hsum : ∀ lead, lead < 2 → 2 * (∑ f ∈ R, ∑ i ∈ R, if i ≠ f then c lead f i * ((Real.log (p i) - Real.log (p f)) + beta * (m lead * (N f - N i) - (E f - E i))) * p i else 0) =
      ∑ f ∈ R, ∑ i ∈ R, if i ≠ f then netFlow gd beta m0 m1 a0 a1 p lead f i * netForce gd En beta m0 m1 p lead f i else 0 := by
    intro lead hl
    set T := ∑ f ∈ R, ∑ i ∈ R, if i ≠ f then c lead f i * ((Real.log (p i) - Real.log (p f)) + beta * (m lead * (N f - N i) - (E f - E i))) * p i else 0 with hT
    have hswap : T = ∑ f ∈ R, ∑ i ∈ R, if f ≠ i then c lead i f * ((Real.log (p f) - Real.log (p i)) + beta * (m lead * (N i - N f) - (E i - E f))) * p f else 0 := by
      rw [hT, Finset.sum_comm]
    rw [two_mul]
    conv_lhs => rw [hswap]
    conv_lhs => arg 2; rw [← hswap, hT]
    rw [← Finset.sum_add_distrib]
    apply Finset.sum_congr rfl; intro f _
    rw [← Finset.sum_add_distrib]
    apply Finset.sum_congr rfl; intro i _
    by_cases h : i = f
    · simp [h]
    · rw [if_pos h, if_pos h, if_pos (Ne.symm h)]
      change _ = (c lead f i * p i - c lead i f * p f) * ((Real.log (p i) - Real.log (p f)) + beta * (m lead * (N f - N i) - (E f - E i)))
      ring
  have hst : ∀ g : ℕ → ℝ, (∑ f ∈ R, ∑ i ∈ R, if i ≠ f then (c 0 f i + c 1 f i) * (g f - g i) * p i else 0) = 0 := by
    intro g
    rw [rate_mean]
    exact Finset.sum_eq_zero (fun f hf => by rw [hp f (Finset.mem_range.mp hf), mul_zero])
  have hI0 := leadCurrent_flow hc beta m0 m1 a0 a1 p (lead := 0) (by norm_num)
  have hI1 := leadCurrent_flow hc beta m0 m1 a0 a1 p (lead := 1) (by norm_num)
  simp only [if_true] at hI0
  simp only [one_ne_zero, if_false] at hI1
  have hcons := C94_conservation hc hp
  have hg := hst (fun i => Real.log (p i) + beta * E i)
  have htot : (∑ f ∈ R, ∑ i ∈ R, if i ≠ f then c 0 f i * ((Real.log (p i) - Real.log (p f)) + beta * (m 0 * (N f - N i) - (E f - E i))) * p i else 0) +
      (∑ f ∈ R, ∑ i ∈ R, if i ≠ f then c 1 f i * ((Real.log (p i) - Real.log (p f)) + beta * (m 1 * (N f - N i) - (E f - E i))) * p i else 0) =
      beta * m0 * leadCurrent gd beta m0 a0 p + beta * m1 * leadCurrent gd beta m1 a1 p -
        (∑ f ∈ R, ∑ i ∈ R, if i ≠ f then (c 0 f i + c 1 f i) * ((Real.log (p f) + beta * E f) - (Real.log (p i) + beta * E i)) * p i else 0) := by
    rw [hI0, hI1, Finset.mul_sum, Finset.mul_sum, ← Finset.sum_add_distrib, ← Finset.sum_add_distrib, ← Finset.sum_sub_distrib]
    apply Finset.sum_congr rfl; intro f _
    rw [Finset.mul_sum, Finset.mul_sum, ← Finset.sum_add_distrib, ← Finset.sum_add_distrib, ← Finset.sum_sub_distrib]
    apply Finset.sum_congr rfl; intro i _
    split_ifs
    · simp only [hm, hcdef, if_true, one_ne_zero, if_false, hN]; ring
    · simp
  rw [hg, sub_zero] at htot
  have e : beta * ((m0 - m1) * leadCurrent gd beta m0 a0 p) = beta * m0 * leadCurrent gd beta m0 a0 p + beta * m1 * leadCurrent gd beta m1 a1 p := by
    rw [show leadCurrent gd beta m1 a1 p = -leadCurrent gd beta m0 a0 p by linarith]; ring
  rw [e, ← htot, mul_add, hsum 0 (by norm_num), hsum 1 (by norm_num)]

/-- **C95** second law: in a stationary state in which every state is occupied, particles flow out of the lead with the higher
chemical potential, whatever the energies and couplings. -/
theorem C95_second_law {gd : GfDict} {En : TId → ℝ} (hc : Conjugate gd En) {beta m0 m1 : ℝ} (hb : 0 < beta) {a0 a1 : List ℝ} {p : ℕ → ℝ}
    (hp : IsStationary (finalIds gd).length (sqRate gd beta [m0, m1] [a0, a1]) p) (hpos : ∀ i, i < (finalIds gd).length → 0 < p i) :
    0 ≤ (m0 - m1) * leadCurrent gd beta m0 a0 p := by
  have h := entropy_production hc hp
  have hnn : ∀ lead, lead < 2 → 0 ≤ ∑ f ∈ Finset.range (finalIds gd).length, ∑ i ∈ Finset.range (finalIds gd).length,
      if i ≠ f then netFlow gd beta m0 m1 a0 a1 p lead f i * netForce gd En beta m0 m1 p lead f i else 0 := by
    intro lead hl
    apply Finset.sum_nonneg; intro f hf
    apply Finset.sum_nonneg; intro i hi
    split_ifs
    · exact (flow_force hc hpos hl (Finset.mem_range.mp hf) (Finset.mem_range.mp hi)).1
    · exact le_rfl
  have h0 := hnn 0 (by norm_num)
  have h1 := hnn 1 (by norm_num)
  exact nonneg_of_mul_nonneg_right (by linarith) hb

/-! ### End to end, and a biased example -/

/-- The dictionary built from an untruncated `build_espace` pairs each transition with its conjugate. -/
theorem sqBuild_from_espace {a : HamArgs} (ha : a.Valid) {w : ℕ} (hw : a.n ≤ w) {es : Espace (ℕ × ℕ)} {e0 : WithTop ℝ}
    (h : BuildEspace w a none (.ok (es, e0))) (junk : ℕ) (egs : ℝ) (cutoff : Option ℝ) :
    ∃ gd, sqBuild junk a.n egs es cutoff = .ok gd ∧ Conjugate gd (idEnergy es) := by
  obtain ⟨hc, hk⟩ := buildEspace_complete' ha hw h
  have h' : ∃ neig, BuildEspace w a (some neig) (.ok (es, e0)) := by
    obtain ⟨l, hl, -⟩ := C25_default_neig a.n
    refine ⟨l, ?_⟩
    simp only [BuildEspace, hl] at h
    simpa only [BuildEspace, neigOrDefault] using h
  obtain ⟨neig, h'⟩ := h'
  obtain ⟨hs, hne⟩ := buildEspace_sectorsOk ha hw h'
  obtain ⟨ngs, hg, hsub⟩ := groundSectors_ok hne egs
  have hv : ∀ q ∈ ngs, 0 ≤ q.1 ∧ q.1 ≤ a.n ∧ 0 ≤ q.2 ∧ q.2 ≤ a.n := by
    intro q hq
    obtain ⟨q', hq', rfl⟩ := hsub q hq
    rw [hk, mem_ndindex2] at hq'
    simp only [zp]
    omega
  have hact : ActiveIn es (sqActive a.n ngs) := activeIn_of_keys hv fun q hq => by
    have := C59_valid a.n ngs hv _ hq
    simp only [zp] at this
    rw [hk, mem_ndindex2]
    omega
  exact sqBuild_conjugate ha.le junk hs hg hact cutoff

/-- **C94** and **C95** end to end: on the full spectrum returned by `build_espace`, for every cutoff, bias and couplings, a stationary
state conserves the current, and if it occupies every state the current flows from the higher chemical potential to the lower one. -/
theorem C94_from_build_espace {a : HamArgs} (ha : a.Valid) {w : ℕ} (hw : a.n ≤ w) {es : Espace (ℕ × ℕ)} {e0 : WithTop ℝ}
    (h : BuildEspace w a none (.ok (es, e0))) (junk : ℕ) (egs : ℝ) (cutoff : Option ℝ) {beta : ℝ} (hb : 0 < beta) (m0 m1 : ℝ) (a0 a1 : List ℝ) :
    ∃ gd, sqBuild junk a.n egs es cutoff = .ok gd ∧
      ∀ p, IsStationary (finalIds gd).length (sqRate gd beta [m0, m1] [a0, a1]) p →
        leadCurrent gd beta m0 a0 p = -leadCurrent gd beta m1 a1 p ∧
        ((∀ i, i < (finalIds gd).length → 0 < p i) → 0 ≤ (m0 - m1) * leadCurrent gd beta m0 a0 p) := by
  obtain ⟨gd, h1, h2⟩ := sqBuild_from_espace ha hw h junk egs cutoff
  exact ⟨gd, h1, fun p hp => ⟨C94_conservation h2 hp, C95_second_law h2 hb hp⟩⟩

theorem twoLevel_ids : finalIds twoLevel = [(0, 0, 0), (1, 0, 0)] := by
  change uniqueSorted leId [((1, 0, 0) : TId), (0, 0, 0)] = _
  have hd : ([((1, 0, 0) : TId), (0, 0, 0)]).dedup = [(1, 0, 0), (0, 0, 0)] := by decide
  rw [uniqueSorted, hd]
  simp [List.mergeSort, List.MergeSort.Internal.splitInTwo, List.merge, leId]

theorem twoLevel_rates (m0 m1 : ℝ) : 0 < sqRate twoLevel 1 [m0, m1] [[1], [1]] 0 1 ∧ 0 < sqRate twoLevel 1 [m0, m1] [[1], [1]] 1 0 := by
  have hl : (finalIds twoLevel).length = 2 := by rw [twoLevel_ids]; rfl
  have hg : ∀ (F I : TId) (g : GfT), dictGet twoLevel (F, I) = .ok g → g.v = [1] → ∀ lead, lead < 2 →
      ∃ γ, sqGamma twoLevel 1 [m0, m1] [[1], [1]] lead F I = some γ ∧ 0 < γ := by
    intro F I g h1 h2 lead hlead
    obtain ⟨e1, e2⟩ := lead_items (m0 := m0) (m1 := m1) (a0 := [1]) (a1 := [1]) hlead
    refine ⟨_, sqGamma_ok h1 e2 e1 (γ := 1 * if g.el then fermi (g.E - (if lead = 0 then m0 else m1)) 1 else fermi (-g.E + (if lead = 0 then m0 else m1)) 1) ?_, ?_⟩
    · rw [ite_self]; simp [GfT.call, h2, dotArr, bind, Except.bind, pure, Except.pure]
    · cases g.el <;> simp [fermi_pos]
  constructor
  · rw [sqRate_off _ _ _ _ (by omega) (by omega) (by norm_num)]
    simp only [sqFlow, twoLevel_ids]
    obtain ⟨x, h1, h2⟩ := hg (0, 0, 0) (1, 0, 0) _ rfl rfl 0 (by norm_num)
    obtain ⟨y, h3, h4⟩ := hg (0, 0, 0) (1, 0, 0) _ rfl rfl 1 (by norm_num)
    simp only [List.getElem?_cons_zero, List.getElem?_cons_succ, h1, h3, Option.getD_some]
    positivity
  · rw [sqRate_off _ _ _ _ (by omega) (by omega) (by norm_num)]
    simp only [sqFlow, twoLevel_ids]
    obtain ⟨x, h1, h2⟩ := hg (1, 0, 0) (0, 0, 0) _ rfl rfl 0 (by norm_num)
    obtain ⟨y, h3, h4⟩ := hg (1, 0, 0) (0, 0, 0) _ rfl rfl 1 (by norm_num)
    simp only [List.getElem?_cons_zero, List.getElem?_cons_succ, h1, h3, Option.getD_some]
    positivity

/-- Non-vacuity: a single level under bias has a stationary state in which both states are occupied. -/
example (m0 m1 : ℝ) : ∃ p, IsStationary (finalIds twoLevel).length (sqRate twoLevel 1 [m0, m1] [[1], [1]]) p ∧
    (∀ i, i < (finalIds twoLevel).length → 0 < p i) ∧ leadCurrent twoLevel 1 m0 [1] p = -leadCurrent twoLevel 1 m1 [1] p ∧
    0 ≤ (m0 - m1) * leadCurrent twoLevel 1 m0 [1] p := by
  obtain ⟨h1, h2⟩ := twoLevel_rates m0 m1
  have hl : (finalIds twoLevel).length = 2 := by rw [twoLevel_ids]; rfl
  have hc := (C55_sequential twoLevel 1 [m0, m1] [[1], [1]]).conserve
  rw [hl] at hc
  have c0 := hc 0 (by norm_num)
  have c1 := hc 1 (by norm_num)
  rw [Finset.sum_range_succ, Finset.sum_range_one] at c0 c1
  have hst : IsStationary (finalIds twoLevel).length (sqRate twoLevel 1 [m0, m1] [[1], [1]])
      (fun i => if i = 0 then sqRate twoLevel 1 [m0, m1] [[1], [1]] 0 1 else sqRate twoLevel 1 [m0, m1] [[1], [1]] 1 0) := by
    intro f hf
    rw [hl] at hf ⊢
    rw [Finset.sum_range_succ, Finset.sum_range_one]
    have : f = 0 ∨ f = 1 := by omega
    rcases this with rfl | rfl
    · simp only [if_true, one_ne_zero, if_false]; linear_combination (sqRate twoLevel 1 [m0, m1] [[1], [1]] 0 1) * c0
    · simp only [if_true, one_ne_zero, if_false]; linear_combination (sqRate twoLevel 1 [m0, m1] [[1], [1]] 1 0) * c1
  have hpos : ∀ i, i < (finalIds twoLevel).length →
      0 < (fun i => if i = 0 then sqRate twoLevel 1 [m0, m1] [[1], [1]] 0 1 else sqRate twoLevel 1 [m0, m1] [[1], [1]] 1 0) i := by
    intro i _
    simp only
    split_ifs
    · exact h1
    · exact h2
  exact ⟨_, hst, hpos, C94_conservation twoLevel_conjugate hst, C95_second_law twoLevel_conjugate one_pos hst hpos⟩

end Edpyt
