import Verif.Proof.Rates
import Verif.Spec.Rates
/-!
C55, C56: rate matrices of sequential tunnelling.
-/
namespace Edpyt
open Spec

/-- C55 for sequential tunnelling: for every dictionary, temperature, chemical potentials and couplings (also of wrong shapes,
whose exceptions are swallowed) the result is a rate matrix. -/
theorem C55_sequential (gd : GfDict) (beta : ℝ) (mu : List ℝ) (A : List (List ℝ)) :
    IsRateMatrix (finalIds gd).length (sqRate gd beta mu A) := by
  constructor
  · intro f i hf hi h
    rw [sqRate_off gd beta mu A hf hi h]
    exact add_nonneg (sqFlow_nonneg ..) (sqFlow_nonneg ..)
  · intro i hi
    rw [← Finset.add_sum_erase _ _ (Finset.mem_range.mpr hi), sqRate_diag gd beta mu A hi, neg_add_eq_zero]
    refine Finset.sum_congr rfl fun f hf => ?_
    rw [sqRate_off gd beta mu A (Finset.mem_range.mp (Finset.mem_of_mem_erase hf)) hi (Finset.ne_of_mem_erase hf)]

/-- Each transition is accompanied by its conjugate, with the same amplitude, and its energy is the difference of the
energies `En` of the two states: an electron element adds one electron, a hole element removes one. -/
def Conjugate (gd : GfDict) (En : TId → ℝ) : Prop :=
  ∀ F I g, dictGet gd (F, I) = .ok g → ∃ g', dictGet gd (I, F) = .ok g' ∧ g'.v = g.v ∧ g'.E = g.E ∧ g'.el = !g.el ∧
    (g.el = true → g.E = En F - En I ∧ F.1 + F.2.1 = I.1 + I.2.1 + 1) ∧
    (g.el = false → g.E = En I - En F ∧ I.1 + I.2.1 = F.1 + F.2.1 + 1)

/-- Grand-canonical weight. -/
noncomputable def gcWeight (En : TId → ℝ) (beta mu : ℝ) (id : TId) : ℝ := Real.exp (-beta * (En id - mu * ((id.1 + id.2.1 : ℤ) : ℝ)))

theorem fermi_swap (x beta : ℝ) : fermi x beta = Real.exp (-beta * x) * fermi (-x) beta := by
  unfold fermi
  rw [show beta * -x = -(beta * x) by ring, show -beta * x = -(beta * x) by ring, Real.exp_neg]
  have := Real.exp_pos (beta * x)
  field_simp
  ring

theorem sqGamma_some {gd : GfDict} {beta : ℝ} {mu : List ℝ} {A : List (List ℝ)} {lead : ℕ} {F I : TId} {γ : ℝ}
    (h : sqGamma gd beta mu A lead F I = some γ) : ∃ g a m, dictGet gd (F, I) = .ok g ∧ getItem A lead = .ok a ∧ getItem mu lead = .ok m ∧
      g.call a beta m = .ok γ := by
  unfold sqGamma at h
  cases h1 : dictGet gd (F, I) with
  | error e => simp [h1, bind, Except.bind, Except.toOption] at h
  | ok g =>
    cases h2 : getItem A (lead : ℤ) with
    | error e => simp [h1, h2, bind, Except.bind, Except.toOption] at h
    | ok a =>
      cases h3 : getItem mu (lead : ℤ) with
      | error e => simp [h1, h2, h3, bind, Except.bind, Except.toOption] at h
      | ok m =>
        cases h4 : g.call a beta m with
        | error e => simp [h1, h2, h3, h4, bind, Except.bind, Except.toOption] at h
        | ok x =>
          simp [h1, h2, h3, h4, bind, Except.bind, Except.toOption] at h
          exact ⟨g, a, m, rfl, rfl, rfl, h ▸ h4⟩

theorem sqGamma_ok {gd : GfDict} {beta m : ℝ} {mu : List ℝ} {A : List (List ℝ)} {lead : ℕ} {F I : TId} {g : GfT} {a : List ℝ} {γ : ℝ}
    (h1 : dictGet gd (F, I) = .ok g) (h2 : getItem A lead = .ok a) (h3 : getItem mu lead = .ok m) (h4 : g.call a beta m = .ok γ) :
    sqGamma gd beta mu A lead F I = some γ := by
  simp [sqGamma, h1, h2, h3, h4, bind, Except.bind, Except.toOption]

theorem call_conj {g g' : GfT} {a : List ℝ} {beta m γ : ℝ} (hv : g'.v = g.v) (hE : g'.E = g.E) (hel : g'.el = !g.el)
    (h : g.call a beta m = .ok γ) :
    ∃ γ', g'.call a beta m = .ok γ' ∧ γ = γ' * Real.exp (-beta * ((if g.el then 1 else -1) * (g.E - m))) := by
  unfold GfT.call at h ⊢
  rw [hv, hE, hel]
  cases hd : dotArr g.v a with
  | error e => simp [hd, bind, Except.bind] at h
  | ok y =>
    simp only [hd, bind, Except.bind, pure, Except.pure, Except.ok.injEq] at h ⊢
    refine ⟨_, rfl, ?_⟩
    rw [← h]
    cases g.el
    · simp only [Bool.false_eq_true, if_false, Bool.not_false, if_true]
      rw [fermi_swap (-g.E + m) beta, show -(-g.E + m) = g.E - m by ring, show -1 * (g.E - m) = -g.E + m by ring]
      ring
    · simp only [Bool.not_true, Bool.false_eq_true, if_false, if_true]
      rw [fermi_swap (g.E - m) beta, show -(g.E - m) = -g.E + m by ring, one_mul]
      ring

theorem sqGamma_balance {gd : GfDict} {En : TId → ℝ} (hc : Conjugate gd En) (beta m : ℝ) (A : List (List ℝ)) {lead : ℕ} (hl : lead < 2) (F I : TId) :
    (sqGamma gd beta [m, m] A lead F I).getD 0 * gcWeight En beta m I = (sqGamma gd beta [m, m] A lead I F).getD 0 * gcWeight En beta m F := by
  have hm : getItem [m, m] (lead : ℤ) = .ok m := by
    have : lead = 0 ∨ lead = 1 := by omega
    rcases this with rfl | rfl <;> rfl
  have key : ∀ F I γ, sqGamma gd beta [m, m] A lead F I = some γ →
      ∃ γ', sqGamma gd beta [m, m] A lead I F = some γ' ∧ γ * gcWeight En beta m I = γ' * gcWeight En beta m F := by
    intro F I γ h
    obtain ⟨g, a, m', h1, h2, h3, h4⟩ := sqGamma_some h
    rw [hm] at h3
    obtain rfl := Except.ok.inj h3
    obtain ⟨g', h1', hv, hE, hel, he, hh⟩ := hc F I g h1
    obtain ⟨γ', h4', h5⟩ := call_conj hv hE hel h4
    refine ⟨γ', sqGamma_ok h1' h2 hm h4', ?_⟩
    rw [h5, mul_assoc]
    congr 1
    unfold gcWeight
    rw [← Real.exp_add]
    congr 1
    cases hg : g.el
    · obtain ⟨e1, e2⟩ := hh hg
      have e3 : ((I.1 + I.2.1 : ℤ) : ℝ) = ((F.1 + F.2.1 : ℤ) : ℝ) + 1 := by rw [e2]; push_cast; ring
      rw [e1, e3]; simp; ring
    · obtain ⟨e1, e2⟩ := he hg
      have e3 : ((F.1 + F.2.1 : ℤ) : ℝ) = ((I.1 + I.2.1 : ℤ) : ℝ) + 1 := by rw [e2]; push_cast; ring
      rw [e1, e3]; simp; ring
  cases h : sqGamma gd beta [m, m] A lead F I with
  | some γ =>
    obtain ⟨γ', h', e⟩ := key F I γ h
    rw [h']; exact e
  | none =>
    cases h' : sqGamma gd beta [m, m] A lead I F with
    | none => simp
    | some γ' =>
      obtain ⟨γ, h'', _⟩ := key I F γ' h'
      rw [h] at h''
      cases h''

/-- C56: detailed balance. With the same chemical potential in both leads, for any couplings to the leads, and a dictionary in
which every transition is accompanied by its conjugate, each pair of rates is balanced by the grand-canonical weights. -/
theorem C56_detailed_balance {gd : GfDict} {En : TId → ℝ} (hc : Conjugate gd En) (beta m : ℝ) (A : List (List ℝ)) {f i : ℕ}
    (hf : f < (finalIds gd).length) (hi : i < (finalIds gd).length) :
    sqRate gd beta [m, m] A f i * gcWeight En beta m (finalIds gd)[i] = sqRate gd beta [m, m] A i f * gcWeight En beta m (finalIds gd)[f] := by
  by_cases h : f = i
  · subst h; rfl
  rw [sqRate_off _ _ _ _ hf hi h, sqRate_off _ _ _ _ hi hf (Ne.symm h), add_mul, add_mul]
  congr 1
  all_goals
    simp only [sqFlow, List.getElem?_eq_getElem hf, List.getElem?_eq_getElem hi]
    exact sqGamma_balance hc beta m A (by omega) _ _

/-- C56: hence the grand-canonical distribution is stationary. -/
theorem C56_stationary {gd : GfDict} {En : TId → ℝ} (hc : Conjugate gd En) (beta m : ℝ) (A : List (List ℝ)) :
    IsStationary (finalIds gd).length (sqRate gd beta [m, m] A)
      fun i => if h : i < (finalIds gd).length then gcWeight En beta m (finalIds gd)[i] else 0 := by
  intro f hf
  have h1 : ∀ i ∈ Finset.range (finalIds gd).length, sqRate gd beta [m, m] A f i *
      (if h : i < (finalIds gd).length then gcWeight En beta m (finalIds gd)[i] else 0)
      = sqRate gd beta [m, m] A i f * gcWeight En beta m (finalIds gd)[f] := by
    intro i hi
    have hi' := Finset.mem_range.mp hi
    rw [dif_pos hi', C56_detailed_balance hc beta m A hf hi']
  rw [Finset.sum_congr rfl h1, ← Finset.sum_mul, (C55_sequential gd beta [m, m] A).conserve f hf, zero_mul]

/-- An empty level and an occupied one. -/
def twoLevel : GfDict :=
  [(((1, 0, 0), (0, 0, 0)), ⟨true, (1, 0, 0), (0, 0, 0), [1], 2⟩), (((0, 0, 0), (1, 0, 0)), ⟨false, (0, 0, 0), (1, 0, 0), [1], 2⟩)]

/-- Non-vacuity of `Conjugate`: a single level of energy 2. -/
theorem twoLevel_conjugate : Conjugate twoLevel (fun id => 2 * ((id.1 + id.2.1 : ℤ) : ℝ)) := by
  intro F I g h
  unfold dictGet twoLevel at h
  rw [List.find?_cons] at h
  by_cases h1 : ((((1 : ℤ), (0 : ℤ), 0), ((0 : ℤ), (0 : ℤ), 0)) : TId × TId) = (F, I)
  · obtain ⟨rfl, rfl⟩ := Prod.mk.inj h1
    simp at h
    subst h
    exact ⟨_, rfl, rfl, rfl, rfl, fun _ => by norm_num, fun h => by simp at h⟩
  · rw [decide_eq_false h1, List.find?_cons] at h
    by_cases h2 : ((((0 : ℤ), (0 : ℤ), 0), ((1 : ℤ), (0 : ℤ), 0)) : TId × TId) = (F, I)
    · obtain ⟨rfl, rfl⟩ := Prod.mk.inj h2
      simp at h
      subst h
      exact ⟨_, rfl, rfl, rfl, rfl, fun h => by simp at h, fun _ => by norm_num⟩
    · rw [decide_eq_false h2] at h
      simp at h

example : IsStationary (finalIds twoLevel).length (sqRate twoLevel 1 [3, 3] [[1], [2]])
    fun i => if h : i < (finalIds twoLevel).length then gcWeight (fun id => 2 * ((id.1 + id.2.1 : ℤ) : ℝ)) 1 3 (finalIds twoLevel)[i] else 0 :=
  C56_stationary twoLevel_conjugate 1 3 [[1], [2]]

end Edpyt
