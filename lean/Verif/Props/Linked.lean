import Verif.Spec.Linked
import Verif.Props.Blockade
import Verif.Props.Field
import Mathlib.LinearAlgebra.Matrix.Charpoly.Coeff
import Mathlib.LinearAlgebra.Matrix.ToLinearEquiv
import Mathlib.Analysis.Complex.Polynomial.Basic
/-!
Property C198: when the leads connect all states, sequential tunnelling has exactly one stationary state, `stationary_solution` returns it, and
a voltage drives a current.
-/
namespace Edpyt
open Spec Matrix

/-- A stationary vector without negative elements that vanishes somewhere vanishes everywhere. -/
theorem oneClass_zero {sz : ℕ} {W : ℕ → ℕ → ℝ} (hW : IsRateMatrix sz W) (h1 : OneClass sz W) {q : ℕ → ℝ} (hq : IsStationary sz W q)
    (hnn : ∀ i < sz, 0 ≤ q i) {f : ℕ} (hf : f < sz) (hz : q f = 0) : ∀ i < sz, q i = 0 := by
  intro i hi
  induction h1 i f hi hf using Relation.ReflTransGen.head_induction_on with
  | refl => exact hz
  | @head i k hstep _ ih =>
    obtain ⟨hi, hk, hik, hw⟩ := hstep
    have hk0 := ih hk
    have hs := hq k hk
    rw [← Finset.add_sum_erase _ _ (Finset.mem_range.mpr hk), hk0, mul_zero, zero_add] at hs
    have hterm := (Finset.sum_eq_zero_iff_of_nonneg fun j hj => ?_).mp hs i (Finset.mem_erase.mpr ⟨hik, Finset.mem_range.mpr hi⟩)
    · exact (mul_eq_zero.mp hterm).resolve_left hw
    · rw [Finset.mem_erase, Finset.mem_range] at hj
      exact mul_nonneg (hW.nonneg k j hk hj.2 (Ne.symm hj.1)) (hnn j hj.2)

theorem oneClass_pos {sz : ℕ} {W : ℕ → ℕ → ℝ} (hW : IsRateMatrix sz W) (h1 : OneClass sz W) {q : ℕ → ℝ} (hq : IsStationary sz W q) (hd : IsDist sz q) :
    ∀ i < sz, 0 < q i := by
  intro i hi
  refine lt_of_le_of_ne (hd.1 i hi) fun h => ?_
  have hz := oneClass_zero hW h1 hq hd.1 hi h.symm
  have := hd.2
  rw [Finset.sum_eq_zero fun j hj => hz j (Finset.mem_range.mp hj)] at this
  exact zero_ne_one this

theorem oneClass_prop {sz : ℕ} (hsz : 0 < sz) {W : ℕ → ℕ → ℝ} (hW : IsRateMatrix sz W) (h1 : OneClass sz W) {p q : ℕ → ℝ} (hp : IsStationary sz W p)
    (hpos : ∀ i < sz, 0 < p i) (hq : IsStationary sz W q) : ∃ c : ℝ, ∀ i < sz, q i = c * p i := by
  obtain ⟨k, hk, hmin⟩ := Finset.exists_min_image (Finset.range sz) (fun i => q i / p i) ⟨0, Finset.mem_range.mpr hsz⟩
  have hk' := Finset.mem_range.mp hk
  refine ⟨q k / p k, fun i hi => ?_⟩
  have hr : IsStationary sz W fun i => q i - q k / p k * p i := by
    intro f hf
    have e : ∑ i ∈ Finset.range sz, W f i * (q i - q k / p k * p i) = ∑ i ∈ Finset.range sz, W f i * q i - q k / p k * ∑ i ∈ Finset.range sz, W f i * p i := by
      rw [Finset.mul_sum, ← Finset.sum_sub_distrib]
      exact Finset.sum_congr rfl fun i _ => by ring
    rw [e, hq f hf, hp f hf]; ring
  have hnn : ∀ j < sz, 0 ≤ q j - q k / p k * p j := by
    intro j hj
    have := hmin j (Finset.mem_range.mpr hj)
    rw [le_div_iff₀ (hpos j hj)] at this
    linarith
  have := oneClass_zero hW h1 hr hnn hk' (by rw [div_mul_cancel₀ _ (hpos k hk').ne', sub_self]) i hi
  linarith

/-- **C198**, the stationary state: if every state leads to every other one, there is exactly one stationary distribution, it occupies every
state, every vector with `W p = 0` is a multiple of it, and `stationary_solution` returns it, whatever correct eigensolver it uses. -/
theorem C198_stationary_solution {sz : ℕ} (hsz : 0 < sz) {W : ℕ → ℕ → ℝ} (hW : IsRateMatrix sz W) (h1 : OneClass sz W) (eig : ℕ → (ℕ → ℕ → ℝ) → List ℂ × (ℕ → ℕ → ℂ))
    (he : IsEig sz W (eig sz W).1 (eig sz W).2) :
    ∃ p, stationarySolution eig sz W = .ok (some p) ∧ IsStationary sz W p ∧ ∑ i ∈ Finset.range sz, p i = 1 ∧ (∀ i < sz, 0 < p i) ∧
      (∀ q, IsStationary sz W q → ∃ c : ℝ, ∀ i < sz, q i = c * p i) ∧
      ∀ q, IsStationary sz W q → ∑ i ∈ Finset.range sz, q i = 1 → ∀ i < sz, q i = p i := by
  obtain ⟨p0, hd0, hst0⟩ := exists_stationary hsz hW
  have hpos0 := oneClass_pos hW h1 hst0 hd0
  obtain ⟨p, hp, hst, hnn, hs⟩ := C57_unique hsz hW eig he fun x y hx hy ⟨i, hi, hne⟩ => by
    obtain ⟨c, hc⟩ := oneClass_prop hsz hW h1 hst0 hpos0 hx
    obtain ⟨d, hd⟩ := oneClass_prop hsz hW h1 hst0 hpos0 hy
    have hc0 : c ≠ 0 := fun h => hne (by rw [hc i hi, h, zero_mul])
    exact ⟨d / c, fun j hj => by rw [hd j hj, hc j hj]; field_simp⟩
  have hpos := oneClass_pos hW h1 hst ⟨hnn, hs⟩
  refine ⟨p, hp, hst, hs, hpos, fun q hq => oneClass_prop hsz hW h1 hst hpos hq, fun q hq hsq i hi => ?_⟩
  obtain ⟨c, hc⟩ := oneClass_prop hsz hW h1 hst hpos hq
  have : c = 1 := by
    rw [Finset.sum_congr rfl fun i hi => hc i (Finset.mem_range.mp hi), ← Finset.mul_sum, hs, mul_one] at hsq
    exact hsq
  rw [hc i hi, this, one_mul]

/-! ### Sequential tunnelling -/

theorem mem_finalIds {gd : GfDict} {F : TId} : F ∈ finalIds gd ↔ StoredState gd F := by
  unfold finalIds
  rw [mem_uniqueSorted, List.mem_map]
  constructor
  · rintro ⟨⟨⟨F', I⟩, g⟩, hm, rfl⟩
    cases h : dictGet gd (F', I) with
    | ok g => exact ⟨I, g, h⟩
    | error e =>
      obtain ⟨g, hg⟩ := dictGet_of_key (List.mem_map_of_mem (f := Prod.fst) hm)
      rw [h] at hg; cases hg
  · rintro ⟨I, g, h⟩
    exact ⟨_, dictGet_mem_of_ok h, rfl⟩

theorem sqFlow_moves {gd : GfDict} {beta m0 m1 : ℝ} {a0 a1 : List ℝ} {lead : ℕ} (hl : lead < 2) {i f : ℕ} {F I : TId} (hF : (finalIds gd)[f]? = some F)
    (hI : (finalIds gd)[i]? = some I) (h : LeadMoves gd (if lead = 0 then a0 else a1) F I) : 0 < sqFlow gd beta [m0, m1] [a0, a1] lead (i, f) := by
  obtain ⟨g, hg, hlen, hne⟩ := h
  have hcall : ∃ γ, g.call (if lead = 0 then a0 else a1) beta (if lead = 0 then m0 else m1) = .ok γ ∧ 0 < γ := by
    unfold GfT.call dotArr
    rw [if_pos hlen]
    refine ⟨_, rfl, mul_pos (by positivity) ?_⟩
    split_ifs <;> exact fermi_pos _ _
  obtain ⟨γ, hγ, hpos⟩ := hcall
  have := sqGamma_ok (lead := lead) (mu := [m0, m1]) (A := [a0, a1]) (beta := beta) hg (lead_items (m0 := m0) (m1 := m1) hl).2 (lead_items (a0 := a0) (a1 := a1) hl).1 hγ
  unfold sqFlow
  simp only [hF, hI, this, Option.getD_some]
  exact hpos

/-- The leads of a linked system connect the indices of the rate matrix. -/
theorem linked_oneClass {gd : GfDict} {En : TId → ℝ} (hc : Conjugate gd En) {a0 a1 : List ℝ} (hL : Linked gd a0 a1) (beta m0 m1 : ℝ) :
    OneClass (finalIds gd).length (sqRate gd beta [m0, m1] [a0, a1]) := by
  intro i f hi hf
  have hkey : ∀ F, Relation.ReflTransGen (fun I F => LeadMoves gd a0 F I ∨ LeadMoves gd a1 F I) (finalIds gd)[i] F → ∀ f, (finalIds gd)[f]? = some F →
      Relation.ReflTransGen (fun i f => i < (finalIds gd).length ∧ f < (finalIds gd).length ∧ i ≠ f ∧ sqRate gd beta [m0, m1] [a0, a1] f i ≠ 0) i f := by
    intro F hF
    induction hF with
    | refl =>
      intro f hf
      obtain ⟨hf, e⟩ := List.getElem?_eq_some_iff.mp hf
      rw [(finalIds_nodup gd).getElem_inj_iff] at e
      rw [e]
    | tail _ hstep ih =>
      rename_i J K _
      intro f hf
      have hJ : StoredState gd J := by
        rcases hstep with ⟨g, hg, -⟩ | ⟨g, hg, -⟩ <;>
        · obtain ⟨g', hg', -⟩ := hc _ _ _ hg
          exact ⟨_, _, hg'⟩
      obtain ⟨j, hj, ej⟩ := List.mem_iff_getElem.mp (mem_finalIds.mpr hJ)
      have hj' : (finalIds gd)[j]? = some J := by rw [List.getElem?_eq_getElem hj, ej]
      refine (ih j hj').tail ⟨hj, (List.getElem?_eq_some_iff.mp hf).1, ?_, ?_⟩
      · rintro rfl
        rw [hf] at hj'
        obtain rfl := Option.some.inj hj'
        rcases hstep with ⟨g, hg, -⟩ | ⟨g, hg, -⟩ <;>
        · obtain ⟨g', -, -, -, -, he, hh⟩ := hc _ _ _ hg
          cases hel : g.el
          · have := (hh hel).2; omega
          · have := (he hel).2; omega
      · have hne : f ≠ j := by
          rintro rfl
          rw [hf] at hj'
          obtain rfl := Option.some.inj hj'
          rcases hstep with ⟨g, hg, -⟩ | ⟨g, hg, -⟩ <;>
          · obtain ⟨g', -, -, -, -, he, hh⟩ := hc _ _ _ hg
            cases hel : g.el
            · have := (hh hel).2; omega
            · have := (he hel).2; omega
        rw [sqRate_off _ _ _ _ (List.getElem?_eq_some_iff.mp hf).1 hj hne]
        have n0 := sqFlow_nonneg gd beta [m0, m1] [a0, a1] 0 (j, f)
        have n1 := sqFlow_nonneg gd beta [m0, m1] [a0, a1] 1 (j, f)
        rcases hstep with h | h
        · have := sqFlow_moves (beta := beta) (m0 := m0) (m1 := m1) (a0 := a0) (a1 := a1) (lead := 0) (by norm_num) hf hj' h
          exact ne_of_gt (by linarith)
        · have := sqFlow_moves (beta := beta) (m0 := m0) (m1 := m1) (a0 := a0) (a1 := a1) (lead := 1) (by norm_num) hf hj' h
          exact ne_of_gt (by linarith)
  exact hkey _ (hL _ _ (mem_finalIds.mp (List.getElem_mem hi)) (mem_finalIds.mp (List.getElem_mem hf))) f (List.getElem?_eq_getElem hf)

/-- A voltage drives a current: in a stationary state that occupies every state, if one transition is open to both leads, the current vanishes
only without bias. -/
theorem second_law_strict {gd : GfDict} {En : TId → ℝ} (hc : Conjugate gd En) {beta m0 m1 : ℝ} (hb : 0 < beta) {a0 a1 : List ℝ} {p : ℕ → ℝ}
    (hp : IsStationary (finalIds gd).length (sqRate gd beta [m0, m1] [a0, a1]) p) (hpos : ∀ i, i < (finalIds gd).length → 0 < p i) (hm : m0 ≠ m1)
    {F I : TId} (h0 : LeadMoves gd a0 F I) (h1 : LeadMoves gd a1 F I) : 0 < (m0 - m1) * leadCurrent gd beta m0 a0 p := by
  refine lt_of_le_of_ne (C95_second_law hc hb hp hpos) fun hz => ?_
  have hsum := entropy_production hc hp
  rw [← hz, mul_zero, mul_zero] at hsum
  have hnn : ∀ lead, lead < 2 → ∀ f ∈ Finset.range (finalIds gd).length, ∀ i ∈ Finset.range (finalIds gd).length,
      0 ≤ if i ≠ f then netFlow gd beta m0 m1 a0 a1 p lead f i * netForce gd En beta m0 m1 p lead f i else 0 := by
    intro lead hl f hf i hi
    split_ifs
    · exact (flow_force hc hpos hl (Finset.mem_range.mp hf) (Finset.mem_range.mp hi)).1
    · exact le_rfl
  have hs0 := Finset.sum_nonneg fun f hf => Finset.sum_nonneg (hnn 0 (by norm_num) f hf)
  have hs1 := Finset.sum_nonneg fun f hf => Finset.sum_nonneg (hnn 1 (by norm_num) f hf)
  obtain ⟨g, hg, -⟩ := id h0
  obtain ⟨g', hg', -, -, -, he, hh⟩ := hc _ _ _ hg
  obtain ⟨f, hf, ef⟩ := List.mem_iff_getElem.mp (mem_finalIds.mpr ⟨I, g, hg⟩)
  obtain ⟨i, hi, ei⟩ := List.mem_iff_getElem.mp (mem_finalIds.mpr ⟨F, g', hg'⟩)
  have hF : (finalIds gd)[f]? = some F := by rw [List.getElem?_eq_getElem hf, ef]
  have hI : (finalIds gd)[i]? = some I := by rw [List.getElem?_eq_getElem hi, ei]
  have hN : idCharge F = idCharge I + 1 ∨ idCharge I = idCharge F + 1 := by
    unfold idCharge
    cases hel : g.el
    · right; rw [(hh hel).2]; push_cast; ring
    · left; rw [(he hel).2]; push_cast; ring
  have hif : i ≠ f := by
    rintro rfl
    rw [ef] at ei
    rw [ei] at hN
    rcases hN with h | h <;> linarith
  have hflow : ∀ lead, lead < 2 → netFlow gd beta m0 m1 a0 a1 p lead f i = 0 := by
    intro lead hl
    have hz' : ∑ f ∈ Finset.range (finalIds gd).length, ∑ i ∈ Finset.range (finalIds gd).length,
        (if i ≠ f then netFlow gd beta m0 m1 a0 a1 p lead f i * netForce gd En beta m0 m1 p lead f i else 0) = 0 := by
      interval_cases lead <;> linarith
    have h2 := (Finset.sum_eq_zero_iff_of_nonneg fun f hf => Finset.sum_nonneg (hnn lead hl f hf)).mp hz' f (Finset.mem_range.mpr hf)
    have h3 := (Finset.sum_eq_zero_iff_of_nonneg (hnn lead hl f (Finset.mem_range.mpr hf))).mp h2 i (Finset.mem_range.mpr hi)
    rw [if_pos hif] at h3
    exact (flow_force hc hpos hl hf hi).2 h3
  have hforce : ∀ lead, lead < 2 → 0 < sqFlow gd beta [m0, m1] [a0, a1] lead (i, f) →
      p f * Real.exp (-beta * (En I - (if lead = 0 then m0 else m1) * idCharge I)) = p i * Real.exp (-beta * (En F - (if lead = 0 then m0 else m1) * idCharge F)) := by
    intro lead hl hpf
    have hlb := sqFlow_lead hc beta m0 m1 a0 a1 hl hf hi
    have hnf := hflow lead hl
    unfold netFlow at hnf
    simp only [atId, dif_pos hf, dif_pos hi, gcWeight, ef, ei] at hlb
    have h2 : sqFlow gd beta [m0, m1] [a0, a1] lead (f, i) ≠ 0 := by
      intro h
      rw [h, zero_mul, mul_eq_zero] at hlb
      rcases hlb with h | h
      · exact hpf.ne' h
      · exact (Real.exp_pos _).ne' h
    unfold idCharge
    apply mul_left_cancel₀ hpf.ne'
    apply mul_left_cancel₀ h2
    linear_combination (sqFlow gd beta [m0, m1] [a0, a1] lead (f, i) * p f) * hlb - sqFlow gd beta [m0, m1] [a0, a1] lead (f, i) *
      Real.exp (-beta * (En F - (if lead = 0 then m0 else m1) * ((F.1 + F.2.1 : ℤ) : ℝ))) * hnf
  have e0 := hforce 0 (by norm_num) (sqFlow_moves (by norm_num) hF hI h0)
  have e1 := hforce 1 (by norm_num) (sqFlow_moves (by norm_num) hF hI h1)
  simp only [if_true, one_ne_zero, if_false] at e0 e1
  have l0 := congrArg Real.log e0
  have l1 := congrArg Real.log e1
  rw [Real.log_mul (hpos f hf).ne' (Real.exp_pos _).ne', Real.log_mul (hpos i hi).ne' (Real.exp_pos _).ne', Real.log_exp, Real.log_exp] at l0 l1
  have hd : beta * (m0 - m1) * (idCharge I - idCharge F) = 0 := by linarith
  rcases mul_eq_zero.mp hd with h | h
  · rcases mul_eq_zero.mp h with h | h
    · exact hb.ne' h
    · exact hm (by linarith)
  · rcases hN with h' | h' <;> linarith

/-- **C198**, end to end: on the full spectrum returned by `build_espace`, if the leads connect all stored states, `stationary_solution` applied to
`build_rate_matrix` returns the only stationary distribution, at every temperature and bias; it occupies every state; without bias it is
the grand-canonical distribution; the current flows from the higher chemical potential to the lower one; and it does flow if there is a bias and one
transition is open to both leads. -/
theorem C198_sequential {a : HamArgs} (ha : a.Valid) {w : ℕ} (hw : a.n ≤ w) {es : Espace (ℕ × ℕ)} {e0 : WithTop ℝ} (h : BuildEspace w a none (.ok (es, e0)))
    {junk : ℕ} {egs : ℝ} {cutoff : Option ℝ} {gd : GfDict} (hgd : sqBuild junk a.n egs es cutoff = .ok gd) (hne : gd ≠ []) {a0 a1 : List ℝ} (hL : Linked gd a0 a1)
    {beta : ℝ} (hb : 0 < beta) (m0 m1 : ℝ) (eig : ℕ → (ℕ → ℕ → ℝ) → List ℂ × (ℕ → ℕ → ℂ)) (he : ∀ sz W, IsEig sz W (eig sz W).1 (eig sz W).2) :
    ∃ p, stationarySolution eig (finalIds gd).length (sqRate gd beta [m0, m1] [a0, a1]) = .ok (some p) ∧
      IsStationary (finalIds gd).length (sqRate gd beta [m0, m1] [a0, a1]) p ∧ ∑ i ∈ Finset.range (finalIds gd).length, p i = 1 ∧
      (∀ i < (finalIds gd).length, 0 < p i) ∧
      (∀ q, IsStationary (finalIds gd).length (sqRate gd beta [m0, m1] [a0, a1]) q → ∑ i ∈ Finset.range (finalIds gd).length, q i = 1 →
        ∀ i < (finalIds gd).length, q i = p i) ∧
      (m0 = m1 → ∃ Z : ℝ, 0 < Z ∧ ∀ i (hi : i < (finalIds gd).length),
        p i = Real.exp (-beta * (idEnergy es (finalIds gd)[i] - m0 * idCharge (finalIds gd)[i])) / Z) ∧
      leadCurrent gd beta m0 a0 p = -leadCurrent gd beta m1 a1 p ∧ 0 ≤ (m0 - m1) * leadCurrent gd beta m0 a0 p ∧
      ((∃ F I, LeadMoves gd a0 F I ∧ LeadMoves gd a1 F I) → m0 ≠ m1 → 0 < (m0 - m1) * leadCurrent gd beta m0 a0 p) := by
  have hc : Conjugate gd (idEnergy es) := by
    obtain ⟨gd', h1, h2⟩ := sqBuild_from_espace ha hw h junk egs cutoff
    rw [hgd] at h1
    rwa [Except.ok.inj h1]
  have hsz : 0 < (finalIds gd).length := by
    obtain ⟨x, l, rfl⟩ := List.exists_cons_of_ne_nil hne
    exact List.length_pos_of_mem (a := x.1.1) (by unfold finalIds; rw [mem_uniqueSorted]; simp)
  obtain ⟨p, h1, h2, h3, h4, h5, h6⟩ := C198_stationary_solution hsz (C55_sequential gd beta [m0, m1] [a0, a1]) (linked_oneClass hc hL beta m0 m1) eig (he _ _)
  refine ⟨p, h1, h2, h3, h4, h6, ?_, C94_conservation hc h2, C95_second_law hc hb h2 h4, fun ⟨F, I, hF, hI⟩ hm => second_law_strict hc hb h2 h4 hm hF hI⟩
  rintro rfl
  set q := atId gd (gcWeight (idEnergy es) beta m0) with hq
  have hqv : ∀ i (hi : i < (finalIds gd).length), q i = Real.exp (-beta * (idEnergy es (finalIds gd)[i] - m0 * idCharge (finalIds gd)[i])) := by
    intro i hi
    simp only [hq, atId, dif_pos hi, gcWeight, idCharge]
  have hst : IsStationary (finalIds gd).length (sqRate gd beta [m0, m0] [a0, a1]) q := by
    intro f hf
    have hdb : ∀ i ∈ Finset.range (finalIds gd).length, sqRate gd beta [m0, m0] [a0, a1] f i * q i = sqRate gd beta [m0, m0] [a0, a1] i f * q f := by
      intro i hi
      have hi' := Finset.mem_range.mp hi
      have := C56_detailed_balance hc beta m0 [a0, a1] hf hi'
      simpa only [hq, atId, dif_pos hi', dif_pos hf] using this
    rw [Finset.sum_congr rfl hdb, ← Finset.sum_mul, (C55_sequential gd beta [m0, m0] [a0, a1]).conserve f hf, zero_mul]
  obtain ⟨c, hcq⟩ := h5 q hst
  have hc0 : 0 < c := by
    have := hcq 0 hsz
    have hq0 : 0 < q 0 := by rw [hqv 0 hsz]; positivity
    rw [this] at hq0
    exact (pos_iff_pos_of_mul_pos hq0).mpr (h4 0 hsz)
  exact ⟨c, hc0, fun i hi => by rw [← hqv i hi, hcq i hi]; field_simp⟩

/-! ### Two sites -/

theorem EigenEspace.grade {n : ℕ} {H : Matrix (Finset (Fin (n + n))) (Finset (Fin (n + n))) ℝ} {es : Espace (ℕ × ℕ)} (h : EigenEspace n H es)
    {A : Matrix (Finset (Fin (n + n))) (Finset (Fin (n + n))) ℝ} {δ : Bool → ℤ} (hA : Grade A δ) {x y : EigIdx n} (hne : esKet n es x ⬝ᵥ A *ᵥ esKet n es y ≠ 0) :
    ((x.1.1 : ℕ) : ℤ) = (y.1.1 : ℕ) + δ false ∧ ((x.1.2 : ℕ) : ℤ) = (y.1.2 : ℕ) + δ true := by
  obtain ⟨T, -, hT⟩ := Finset.exists_ne_zero_of_sum_ne_zero hne
  have hx := h.support x (left_ne_zero_of_mul hT)
  have hT2 : ∑ S, A T S * esKet n es y S ≠ 0 := right_ne_zero_of_mul hT
  obtain ⟨S, -, hS⟩ := Finset.exists_ne_zero_of_sum_ne_zero hT2
  have hy := h.support y (right_ne_zero_of_mul hS)
  have hg := hA T S (left_ne_zero_of_mul hS)
  have g0 := hg false
  have g1 := hg true
  rw [hx.1, hy.1] at g0
  rw [hx.2, hy.2] at g1
  exact ⟨g0, g1⟩

/-- A state of one electron has an amplitude on some site. -/
theorem single_amp {n : ℕ} {H : Matrix (Finset (Fin (n + n))) (Finset (Fin (n + n))) ℝ} {es : Espace (ℕ × ℕ)} (h : EigenEspace n H es) {σ : Bool} {F I : TId} (hF : IsState n F)
    (hI : IsState n I) (h0 : I.1 = 0 ∧ I.2.1 = 0) (hm : OneMore σ F I) : ∃ k : Fin n, addAmp n es σ F I k ≠ 0 := by
  by_contra hno
  push Not at hno
  obtain ⟨z, rfl⟩ := idOf_surj hF
  obtain ⟨y, rfl⟩ := idOf_surj hI
  have hB := h.basis
  have h1 := hm.1
  have h2 := hm.2
  simp only [idOf] at h1 h2 h0
  have hzero : ∀ k : Fin n, ann ℝ (orb σ k) *ᵥ esKet n es z = 0 := by
    intro k
    rw [← hB.expand (ann ℝ (orb σ k) *ᵥ esKet n es z)]
    refine Finset.sum_eq_zero fun x _ => ?_
    by_cases hx : esKet n es x ⬝ᵥ ann ℝ (orb σ k) *ᵥ esKet n es z = 0
    · rw [hx, zero_smul]
    · exfalso
      have hg := h.grade (grade_ann σ k) hx
      have hxy : x = y := by
        apply idOf_inj
        have e1 : ((x.1.1 : ℕ) : ℤ) = 0 := by rw [hg.1, h1, h0.1]; cases σ <;> simp
        have e2 : ((x.1.2 : ℕ) : ℤ) = 0 := by rw [hg.2, h2, h0.2]; cases σ <;> simp
        have hk : ∀ x : EigIdx n, ((x.1.1 : ℕ) : ℤ) = 0 → ((x.1.2 : ℕ) : ℤ) = 0 → (x.2 : ℕ) = 0 := by
          rintro ⟨⟨⟨u, hu⟩, ⟨d, hd⟩⟩, k, hk⟩ e1 e2
          have hk' : k < n.choose u * n.choose d := hk
          simp only [Nat.cast_eq_zero] at e1 e2
          rw [e1, e2] at hk'
          simp at hk'
          exact hk'
        simp only [idOf, Prod.mk.injEq]
        exact ⟨by rw [e1, h0.1], by rw [e2, h0.2], by rw [hk x e1 e2, hk y h0.1 h0.2]⟩
      subst hxy
      have := hno k
      simp only [addAmp, dif_pos k.2, idKet_idOf, Fin.eta] at this
      apply hx
      rw [dotProduct_mulVec, ← mulVec_transpose, dotProduct_comm]
      exact this
  have hnum := num_sum_vec (n := n) σ (c := 1) (x := esKet n es z) fun S hS => by
    have := h.support z hS
    cases σ
    · rw [this.1, h1, h0.1]; simp
    · rw [this.2, h2, h0.2]; simp
  have hz : esKet n es z = 0 := by
    rw [← one_smul ℝ (esKet n es z)]
    have e : (((1 : ℤ) : ℝ)) = 1 := by norm_num
    rw [← e, ← hnum, sum_mulVec]
    exact Finset.sum_eq_zero fun k _ => by rw [num, ← mulVec_mulVec, hzero k, mulVec_zero]
  have := hB.orth z z
  rw [hz] at this
  simp at this

/-- **C198** for two sites that are empty in the ground state: leads whose couplings are not proportional connect all states, at every
choice of levels and hopping. -/
theorem C198_empty {a : HamArgs} (ha : a.Valid) (hn : a.n = 2) {w : ℕ} (hw : a.n ≤ w) {es : Espace (ℕ × ℕ)} {e0 : WithTop ℝ} (h : BuildEspace w a none (.ok (es, e0)))
    {junk : ℕ} {egs : ℝ} {gd : GfDict} (hgd : sqBuild junk a.n egs es none = .ok gd) (hgr : ∀ g : ℕ × ℕ, g.1 ≤ 2 → g.2 ≤ 2 → GroundSector es egs g → g = (0, 0))
    {x y x' y' : ℝ} (hdet : x * y' - y * x' ≠ 0) : Linked gd [x, y] [x', y'] := by
  obtain ⟨gd', hgd', hst, hel⟩ := C155_elements ha hw h junk egs none
  rw [hgd] at hgd'
  obtain rfl := Except.ok.inj hgd'
  have hE : ∃ H, EigenEspace a.n H es := ⟨_, buildEspace_eigen ha hw h⟩
  rw [hn] at hst hel hE
  obtain ⟨H, hE⟩ := hE
  have hnear : ∀ F, NearGround 2 es egs F → |F.1| + |F.2.1| ≤ 1 := by
    rintro F ⟨g, g1, g2, hg, hd⟩
    rw [hgr g g1 g2 hg] at hd
    simpa using hd
  -- a stored transition is open to one of the leads
  have hmove : ∀ F I g, dictGet gd (F, I) = .ok g → LeadMoves gd [x, y] F I ∨ LeadMoves gd [x', y'] F I := by
    intro F I g hg
    obtain ⟨hF, hI, ⟨σ, hσ⟩, hNF, hNI, -⟩ := (hst F I).mp ⟨g, hg⟩
    have dF := hnear F hNF
    have dI := hnear I hNI
    obtain ⟨F1, -, F2, -, -⟩ := id hF
    obtain ⟨I1, -, I2, -, -⟩ := id hI
    rw [abs_of_nonneg F1, abs_of_nonneg F2] at dF
    rw [abs_of_nonneg I1, abs_of_nonneg I2] at dI
    have hv : ∃ p q, g.v = [p, q] ∧ (p ≠ 0 ∨ q ≠ 0) := by
      have key : ∀ P Q : TId, IsState 2 P → IsState 2 Q → Q.1 = 0 ∧ Q.2.1 = 0 → OneMore σ P Q → ∀ s : ℝ, s ^ 2 = 1 → g.v = (List.range 2).map (fun k => s * addAmp 2 es σ P Q k) →
          ∃ p q, g.v = [p, q] ∧ (p ≠ 0 ∨ q ≠ 0) := by
        intro P Q hP hQ hQ0 hPQ s hs hv
        have hs0 : s ≠ 0 := fun h => by rw [h] at hs; norm_num at hs
        refine ⟨s * addAmp 2 es σ P Q 0, s * addAmp 2 es σ P Q 1, hv, ?_⟩
        obtain ⟨k, hk⟩ := single_amp hE hP hQ hQ0 hPQ
        obtain ⟨k, hk2⟩ := k
        interval_cases k
        · exact Or.inl (mul_ne_zero hs0 hk)
        · exact Or.inr (mul_ne_zero hs0 hk)
      rcases hσ with hσ | hσ
      · obtain ⟨-, -, s, hs, hv⟩ := (hel F I g hg σ).1 hσ
        refine key F I hF hI ?_ hσ s hs hv
        have h1 := hσ.1
        have h2 := hσ.2
        cases σ <;> simp at h1 h2 <;> omega
      · obtain ⟨-, -, s, hs, hv⟩ := (hel F I g hg σ).2 hσ
        refine key I F hI hF ?_ hσ s hs hv
        have h1 := hσ.1
        have h2 := hσ.2
        cases σ <;> simp at h1 h2 <;> omega
    obtain ⟨p, q, hv, hpq⟩ := hv
    by_cases h0 : p * x + q * y = 0
    · right
      refine ⟨g, hg, by rw [hv]; rfl, fun h1 => ?_⟩
      rw [hv] at h1
      simp only [List.zipWith_cons_cons, List.zipWith_nil_left, List.sum_cons, List.sum_nil, add_zero] at h1
      have e1 : p * (x * y' - y * x') = 0 := by linear_combination y' * h0 - y * h1
      have e2 : q * (x * y' - y * x') = 0 := by linear_combination x * h1 - x' * h0
      rcases hpq with hp | hq
      · exact hp ((mul_eq_zero.mp e1).resolve_right hdet)
      · exact hq ((mul_eq_zero.mp e2).resolve_right hdet)
    · left
      refine ⟨g, hg, by rw [hv]; rfl, ?_⟩
      rw [hv]
      simpa using h0
  -- every state is next to the empty one
  have hvac : ∀ F, StoredState gd F → Relation.ReflTransGen (fun I F => LeadMoves gd [x, y] F I ∨ LeadMoves gd [x', y'] F I) F ((0, 0, 0) : TId) ∧
      Relation.ReflTransGen (fun I F => LeadMoves gd [x, y] F I ∨ LeadMoves gd [x', y'] F I) ((0, 0, 0) : TId) F := by
    rintro F ⟨I, g, hg⟩
    obtain ⟨hF, hI, hσ, hNF, hNI, hcut⟩ := (hst F I).mp ⟨g, hg⟩
    obtain ⟨g', hg'⟩ := (hst I F).mpr ⟨hI, hF, by obtain ⟨σ, h⟩ := hσ; exact ⟨σ, h.symm⟩, hNI, hNF, by simp [WithinCutoff]⟩
    have zero_id : ∀ P : TId, IsState 2 P → P.1 = 0 ∧ P.2.1 = 0 → P = (0, 0, 0) := by
      rintro ⟨u, d, k⟩ hP ⟨h1, h2⟩
      obtain ⟨-, -, -, -, hk⟩ := hP
      simp only at h1 h2 hk
      subst h1 h2
      simp at hk
      rw [hk]
    have dF := hnear F hNF
    have dI := hnear I hNI
    obtain ⟨F1, -, F2, -, -⟩ := id hF
    obtain ⟨I1, -, I2, -, -⟩ := id hI
    rw [abs_of_nonneg F1, abs_of_nonneg F2] at dF
    rw [abs_of_nonneg I1, abs_of_nonneg I2] at dI
    by_cases hz : F.1 = 0 ∧ F.2.1 = 0
    · rw [zero_id F hF hz]
      exact ⟨.refl, .refl⟩
    · have hz' : I = (0, 0, 0) := zero_id I hI (by
        obtain ⟨σ, h | h⟩ := hσ <;>
        · have h1 := h.1
          have h2 := h.2
          cases σ <;> simp at h1 h2 <;> omega)
      subst hz'
      exact ⟨Relation.ReflTransGen.single (hmove _ _ g' hg'), Relation.ReflTransGen.single (hmove _ _ g hg)⟩
  intro I F hI hF
  exact (hvac I hI).1.trans (hvac F hF).2

/-! ### The hypotheses can be met -/

/-- Every real matrix has a correct answer of `np.linalg.eig`. -/
theorem exists_isEig (sz : ℕ) (W : ℕ → ℕ → ℝ) : ∃ w v, IsEig sz W w v := by
  classical
  set M : Matrix (Fin sz) (Fin sz) ℂ := Matrix.of fun f i => (W f i : ℂ) with hM
  have hroot : ∀ μ : ℂ, μ ∈ M.charpoly.roots ↔ ∃ x : Fin sz → ℂ, x ≠ 0 ∧ M *ᵥ x = μ • x := by
    intro μ
    rw [Polynomial.mem_roots (Matrix.charpoly_monic M).ne_zero, Polynomial.IsRoot.def, Matrix.eval_charpoly, ← Matrix.exists_mulVec_eq_zero_iff]
    refine exists_congr fun x => and_congr_right fun _ => ?_
    rw [sub_mulVec, sub_eq_zero]
    simp only [Matrix.scalar_apply, ← Matrix.smul_one_eq_diagonal, smul_mulVec, one_mulVec]
    exact eq_comm
  -- a real eigenvalue has a real eigenvector
  have hreal : ∀ μ : ℂ, μ ∈ M.charpoly.roots → ∃ x : Fin sz → ℂ, x ≠ 0 ∧ M *ᵥ x = μ • x ∧ (μ.im = 0 → ∀ i, (x i).im = 0) := by
    intro μ hμ
    obtain ⟨x, hx, he⟩ := (hroot μ).mp hμ
    by_cases him : μ.im = 0
    · have hcomp : ∀ f : Fin sz, ∑ i : Fin sz, (W f i : ℂ) * x i = μ * x f := fun f => congrFun he f
      have hμr : μ = (μ.re : ℂ) := Complex.ext rfl (by simp [him])
      by_cases hre : ∀ i, (x i).re = 0
      · refine ⟨fun i => ((x i).im : ℂ), fun h => hx (funext fun i => Complex.ext (hre i) ?_), ?_, fun _ i => Complex.ofReal_im _⟩
        · have := congrFun h i
          simpa using this
        · funext f
          have := congrArg Complex.im (hcomp f)
          change ∑ i : Fin sz, (W f i : ℂ) * ((x i).im : ℂ) = μ * ((x f).im : ℂ)
          rw [hμr] at this ⊢
          rw [Complex.im_sum] at this
          simp only [Complex.re_ofReal_mul, Complex.im_ofReal_mul] at this
          exact_mod_cast this
      · refine ⟨fun i => ((x i).re : ℂ), fun h => hre fun i => ?_, ?_, fun _ i => Complex.ofReal_im _⟩
        · have := congrFun h i
          simpa using this
        · funext f
          have := congrArg Complex.re (hcomp f)
          change ∑ i : Fin sz, (W f i : ℂ) * ((x i).re : ℂ) = μ * ((x f).re : ℂ)
          rw [hμr] at this ⊢
          rw [Complex.re_sum] at this
          simp only [Complex.re_ofReal_mul, Complex.im_ofReal_mul] at this
          exact_mod_cast this
    · exact ⟨x, hx, he, fun h => absurd h him⟩
  choose! X hX0 hXe hXr using hreal
  have hmem : ∀ k, (h : k < M.charpoly.roots.toList.length) → M.charpoly.roots.toList[k] ∈ M.charpoly.roots := fun k h =>
    Multiset.mem_toList.mp (List.getElem_mem h)
  refine ⟨M.charpoly.roots.toList, fun i k => if h : i < sz then X (M.charpoly.roots.toList[k]?.getD 0) ⟨i, h⟩ else 0, ?_, ?_, ?_, ?_⟩
  · rw [Multiset.length_toList, IsAlgClosed.card_roots_eq_natDegree, Matrix.charpoly_natDegree_eq_dim, Fintype.card_fin]
  · intro k hk
    have hk' := hmem k hk
    simp only [List.getElem?_eq_getElem hk, Option.getD_some]
    refine ⟨?_, fun f hf => ?_⟩
    · obtain ⟨i, hi⟩ := Function.ne_iff.mp (hX0 _ hk')
      exact ⟨i, i.2, by simp only [dif_pos i.2]; exact hi⟩
    · have := congrFun (hXe _ hk') ⟨f, hf⟩
      simp only [dif_pos hf, Finset.sum_range, Fin.is_lt, dif_pos, Fin.eta]
      exact this
  · intro k hk him i hi
    simp only [List.getElem?_eq_getElem hk, Option.getD_some, dif_pos hi]
    exact hXr _ (hmem k hk) him _
  · rintro μ x ⟨⟨i, hi, hne⟩, he⟩
    rw [Multiset.mem_toList, hroot]
    refine ⟨fun i => x i, fun h => hne (congrFun h ⟨i, hi⟩), funext fun f => ?_⟩
    have := he f f.2
    rw [Finset.sum_range] at this
    exact this

/-- Non-vacuity: two uncoupled sites above the chemical potential, the left lead on the first site and the right lead on the second one. -/
example : ∃ (es : Espace (ℕ × ℕ)) (e0 : WithTop ℝ) (gd : GfDict) (eig : ℕ → (ℕ → ℕ → ℝ) → List ℂ × (ℕ → ℕ → ℂ)), BuildEspace 64 (inField 1 1 apartArgs) none (.ok (es, e0)) ∧ sqBuild 0 2 0 es none = .ok gd ∧ gd ≠ [] ∧ Linked gd [1, 0] [0, 1] ∧
    ∀ sz W, IsEig sz W (eig sz W).1 (eig sz W).2 := by
  obtain ⟨⟨⟨es, e0⟩, h⟩, -⟩ := buildEspace_none_ok (inField_valid (hu := 1) (hd := 1) apartArgs_valid) (w := 64) (by simp [inField, apartArgs])
  obtain ⟨gd, hg, hst, -⟩ := C155_elements (inField_valid apartArgs_valid) (by simp [inField, apartArgs]) h 0 0 none
  choose w v hwv using exists_isEig
  refine ⟨es, e0, gd, fun sz W => (w sz W, v sz W), h, hg, ?_, ?_, hwv⟩
  · rintro rfl
    obtain ⟨g, hg⟩ := (hst (1, 0, 0) (0, 0, 0)).mpr ⟨by simp [IsState, inField, apartArgs], by simp [IsState, inField, apartArgs], ⟨false, Or.inl (by simp [OneMore])⟩, (apart_near_field le_rfl h _).2 (by norm_num),
      (apart_near_field le_rfl h _).2 (by norm_num), by simp [WithinCutoff]⟩
    cases hg
  · exact C198_empty (inField_valid apartArgs_valid) rfl (by simp [inField, apartArgs]) h hg (fun g g1 g2 => (apart_ground_field le_rfl h g1 g2).1) (by norm_num)

/-- Non-vacuity of a transition open to both leads. -/
example : LeadMoves twoLevel [1] (1, 0, 0) (0, 0, 0) ∧ LeadMoves twoLevel [2] (1, 0, 0) (0, 0, 0) := by
  constructor <;> exact ⟨_, rfl, rfl, by norm_num⟩

end Edpyt
