import Verif.Props.Field
import Verif.Props.Units
/-!
# C193: rates and currents do not depend on the unit of energy
-/
namespace Edpyt
open Spec Matrix

section
variable {c : ℝ} {w w' : ℕ} {a : HamArgs} {es es' : Espace (ℕ × ℕ)} {E E' : WithTop ℝ}

/-- The transition elements with their energies multiplied by `c`. -/
def scaleDict (c : ℝ) (gd : GfDict) : GfDict := gd.map fun p => (p.1, { p.2 with E := c * p.2.E })

theorem dictGet_scaled (gd : GfDict) (k : TId × TId) : dictGet (scaleDict c gd) k = (dictGet gd k).map fun g => { g with E := c * g.E } := by
  induction gd with
  | nil => rfl
  | cons p l ih =>
    unfold scaleDict at ih ⊢
    rw [List.map_cons, dictGet_cons, dictGet_cons, ih]
    by_cases hp : p.1 = k <;> simp [hp, Except.map]

theorem finalIds_scaled (gd : GfDict) : finalIds (scaleDict c gd) = finalIds gd := by
  unfold finalIds scaleDict
  rw [List.map_map]
  rfl

theorem call_scaled (hc : c ≠ 0) (g : GfT) (v : List ℝ) (beta mu : ℝ) : GfT.call { g with E := c * g.E } v (beta / c) (c * mu) = g.call v beta mu := by
  unfold GfT.call fermi
  have e1 : beta / c * (c * g.E - c * mu) = beta * (g.E - mu) := by field_simp
  have e2 : beta / c * (-(c * g.E) + c * mu) = beta * (-g.E + mu) := by field_simp
  simp only [e1, e2]

theorem sqGamma_scaled (hc : c ≠ 0) (gd : GfDict) (beta : ℝ) (mu : List ℝ) (A : List (List ℝ)) (lead : ℕ) (F I : TId) :
    sqGamma (scaleDict c gd) (beta / c) (mu.map (c * ·)) A lead F I = sqGamma gd beta mu A lead F I := by
  unfold sqGamma
  have hm : getItem (mu.map (c * ·)) (lead : ℤ) = (getItem mu (lead : ℤ)).map (c * ·) := by
    unfold getItem
    rw [List.length_map]
    cases pyIndex mu.length (lead : ℤ) with
    | error e => rfl
    | ok k => simp only [List.getElem?_map]; cases mu[k]? <;> rfl
  rw [dictGet_scaled, hm]
  cases dictGet gd (F, I) with
  | error e => rfl
  | ok g =>
    cases getItem A (lead : ℤ) with
    | error e => rfl
    | ok v =>
      cases getItem mu (lead : ℤ) with
      | error e => rfl
      | ok m => simp only [Except.map, bind, Except.bind, call_scaled hc]

theorem sqRate_scaled (hc : c ≠ 0) (gd : GfDict) (beta : ℝ) (mu : List ℝ) (A : List (List ℝ)) : sqRate (scaleDict c gd) (beta / c) (mu.map (c * ·)) A = sqRate gd beta mu A := by
  rw [sqRate_eq, sqRate_eq, finalIds_scaled]
  have hf : ∀ lead, sqFlow (scaleDict c gd) (beta / c) (mu.map (c * ·)) A lead = sqFlow gd beta mu A lead := by
    intro lead; funext p
    unfold sqFlow
    rw [finalIds_scaled]
    simp only [sqGamma_scaled hc]
  rw [hf, hf]

theorem sqTransition_scaled (hc : c ≠ 0) (gd : GfDict) (beta mu : ℝ) (v : List ℝ) : sqTransition (scaleDict c gd) (beta / c) (c * mu) v = sqTransition gd beta mu v := by
  funext f i
  unfold sqTransition
  rw [finalIds_scaled]
  simp only
  split
  · split
    · rename_i F I _ _
      rw [dictGet_scaled]
      cases dictGet gd (F, I) with
      | error e => rfl
      | ok g => simp only [Except.map, call_scaled hc]
    · rfl
  · rfl

theorem sctAt_scaleLevels (es : Espace (ℕ × ℕ)) (q : ℕ × ℕ) :
    sctAt (scaleLevels c es) q = ⟨(sctAt es q).states, (sctAt es q).d, (sctAt es q).eigvals.map (c * ·), (sctAt es q).eigvecs⟩ := by
  induction es with
  | nil => rfl
  | cons p l ih =>
    unfold sctAt Edpyt.scaleLevels at ih ⊢
    rw [List.map_cons, dictGet_cons, dictGet_cons]
    by_cases hp : p.1 = q
    · simp [hp]
    · simpa [hp] using ih

theorem sctAt_units (ha : a.Valid) (hc : 0 < c) (hu : UnitsOk c a) (hw : a.n ≤ w) (hw' : a.n ≤ w') (hb : BuildEspace w a none (.ok (es, E))) (hb' : BuildEspace w' (inUnits c a) none (.ok (es', E'))) (q : ℕ × ℕ) :
    (sctAt (scaleLevels c es) q).eigvals = (sctAt es' q).eigvals := by
  have hes := buildEspace_eigen ha hw hb
  have hes' : EigenEspace a.n (c • a.ham) es' := eigenEspace_units hu (buildEspace_eigen (inUnits_valid ha) hw' hb')
  by_cases hq : q ∈ ndindex2 (a.n + 1) (a.n + 1)
  · obtain ⟨p, hp, rfl⟩ := List.mem_map.mp (hes.keys.mem_iff.mpr hq)
    obtain ⟨p', hp', e⟩ := List.mem_map.mp (hes'.keys.mem_iff.mpr hq)
    obtain ⟨⟨u, d⟩, I⟩ := p
    obtain ⟨⟨u', d'⟩, J⟩ := p'
    obtain ⟨rfl, rfl⟩ := Prod.mk.inj e
    rw [sctAt_scaleLevels, (sctAt_of_mem hes hp).1, (sctAt_of_mem hes' hp').1, C193_levels_partial ha hc hu hw hw' hb hb' hp hp']
  · have no : ∀ l : Espace (ℕ × ℕ), (l.map Prod.fst).Perm (ndindex2 (a.n + 1) (a.n + 1)) → (sctAt l q).eigvals = [] := fun l hl => by
      unfold sctAt
      cases e : dictGet l q with
      | error _ => rfl
      | ok s => exact absurd (hl.mem_iff.mp (List.mem_map.mpr ⟨_, dictGet_mem_of_ok e, rfl⟩)) hq
    rw [no _ hes'.keys, no _ (hes.scaleLevels (c := c)).keys]

theorem idEnergy_scaleLevels (es : Espace (ℕ × ℕ)) {n : ℕ} (hes : CompleteEspace n es) {id : TId} (hid : IsState n id) :
    idEnergy (scaleLevels c es) id = c * idEnergy es id := by
  obtain ⟨u, d, k⟩ := id
  obtain ⟨h1, h2, h3, h4, h5⟩ := hid
  simp only at h1 h2 h3 h4 h5
  obtain ⟨u, rfl⟩ := Int.eq_ofNat_of_zero_le h1
  obtain ⟨d, rfl⟩ := Int.eq_ofNat_of_zero_le h3
  obtain ⟨up, dw, hm, hg, -, -, -, hlen⟩ := hes.at (u := u) (d := d) (by exact_mod_cast h2) (by exact_mod_cast h4)
  have key : ∀ l : Espace (ℕ × ℕ), idEnergy l ((u : ℤ), (d : ℤ), k) = (sctAt l (u, d)).eigvals[k]?.getD 0 := fun l => by
    unfold idEnergy espaceGet sctAt
    simp only [Int.natCast_nonneg, and_self, if_true, Int.toNat_natCast]
    cases dictGet l (u, d) <;> simp
  have hk : k < (sctAt es (u, d)).eigvals.length := by rw [hlen]; simpa using h5
  rw [key, key, sctAt_scaleLevels]
  simp only [List.getElem?_map, List.getElem?_eq_getElem hk, Option.map_some, Option.getD_some]

theorem idKet_scaleLevels (es : Espace (ℕ × ℕ)) (n : ℕ) (id : TId) : idKet n (scaleLevels c es) id = idKet n es id := by
  unfold idKet
  rw [sctAt_scaleLevels]
  rfl

/-- In another unit, with the same active sectors, the elements are the same up to signs, and their energies are multiplied. -/
theorem scale_of_runs (ha : a.Valid) (hc : 0 < c) (hu : UnitsOk c a) (hw : a.n ≤ w) (hw' : a.n ≤ w') (hb : BuildEspace w a none (.ok (es, E))) (hb' : BuildEspace w' (inUnits c a) none (.ok (es', E')))
    (hnd : ∀ p ∈ es, p.2.eigvals.Nodup) {egs egs' : ℝ} (hng : ∀ id, NearGround a.n es egs id ↔ NearGround a.n es' egs' id) {junk junk' : ℕ} {gd gd' : GfDict}
    (hgd : sqBuild junk a.n egs es none = .ok gd) (hgd' : sqBuild junk' a.n egs' es' none = .ok gd') : SameUpToSign (scaleDict c gd) gd' := by
  have hes := buildEspace_eigen ha hw hb
  have hes' : EigenEspace a.n (c • a.ham) es' := eigenEspace_units hu (buildEspace_eigen (inUnits_valid ha) hw' hb')
  have hv := sctAt_units ha hc hu hw hw' hb hb'
  have hE : ∀ id, IsState a.n id → idEnergy es' id = c * idEnergy es id := fun id hid => by
    rw [← idEnergy_levels hv, idEnergy_scaleLevels es hes.toCompleteEspace hid]
  have hnd' : ∀ p ∈ scaleLevels c es, p.2.eigvals.Nodup := fun p hp => by
    obtain ⟨q, hq, rfl⟩ := List.mem_map.mp hp
    exact (hnd q hq).map (mul_right_injective₀ hc.ne')
  have hket : ∀ id, IsState a.n id → ∃ s : ℝ, s ^ 2 = 1 ∧ idKet a.n es' id = s • idKet a.n es id := fun id hid => by
    obtain ⟨x, rfl⟩ := idOf_surj hid
    rw [← idKet_scaleLevels (c := c) es, idKet_idOf, idKet_idOf]
    exact simple_sign hes.scaleLevels hes' hv hnd' x
  obtain ⟨_, k1, k2, k3⟩ := C155_elements ha hw hb junk egs none
  rw [hgd] at k1; obtain rfl := Except.ok.inj k1
  obtain ⟨_, l1, l2, l3⟩ := C155_elements (inUnits_valid (c := c) ha) hw' hb' junk' egs' none
  rw [show (inUnits c a).n = a.n from rfl, hgd'] at l1; obtain rfl := Except.ok.inj l1
  have hwc : ∀ F I, WithinCutoff es egs none F I ↔ WithinCutoff es' egs' none F I := fun F I => by simp [WithinCutoff]
  have l2' : ∀ F I, (∃ g, dictGet gd' (F, I) = .ok g) ↔ ∃ g, dictGet gd (F, I) = .ok g := fun F I => by
    rw [l2, k2, hwc, hng, hng]; rfl
  intro F I
  rw [dictGet_scaled]
  cases hg : dictGet gd (F, I) with
  | error e =>
    cases hg' : dictGet gd' (F, I) with
    | error e' => exact .inl ⟨e, e', rfl, rfl⟩
    | ok g1 =>
      obtain ⟨g, hh⟩ := (l2' F I).mp ⟨g1, hg'⟩
      rw [hg] at hh; cases hh
  | ok g =>
    obtain ⟨hF, hI, ⟨σ, hσ⟩, -⟩ := (k2 F I).mp ⟨g, hg⟩
    obtain ⟨g1, hg1⟩ := (l2' F I).mpr ⟨g, hg⟩
    obtain ⟨s, hs, eS⟩ := hket F hF
    obtain ⟨t, ht, eT⟩ := hket I hI
    rcases hσ with hσ | hσ
    · obtain ⟨c1, c2, x, hx, c3⟩ := (k3 F I g hg σ).1 hσ
      obtain ⟨d1, d2, y, hy, d3⟩ := (l3 F I g1 hg1 σ).1 hσ
      refine .inr ⟨_, g1, x * y * (s * t), rfl, hg1, by rw [mul_pow, mul_pow, mul_pow, hx, hy, hs, ht]; norm_num, by rw [c1, d1], ?_, ?_⟩
      · rw [d2, hE F hF, hE I hI]
        simp only [c2]
        ring
      · simp only [c3]
        rw [d3, List.map_map]
        refine List.map_congr_left fun k _ => ?_
        simp only [Function.comp_apply]
        have := addAmp_sign eS eT σ k
        change y * addAmp a.n es' σ F I k = _
        rw [this]
        linear_combination (-(y * s * t * addAmp a.n _ σ F I k)) * hx
    · obtain ⟨c1, c2, x, hx, c3⟩ := (k3 F I g hg σ).2 hσ
      obtain ⟨d1, d2, y, hy, d3⟩ := (l3 F I g1 hg1 σ).2 hσ
      refine .inr ⟨_, g1, x * y * (s * t), rfl, hg1, by rw [mul_pow, mul_pow, mul_pow, hx, hy, hs, ht]; norm_num, by rw [c1, d1], ?_, ?_⟩
      · rw [d2, hE F hF, hE I hI]
        simp only [c2]
        ring
      · simp only [c3]
        rw [d3, List.map_map]
        refine List.map_congr_left fun k _ => ?_
        simp only [Function.comp_apply]
        have := addAmp_sign eT eS σ k
        change y * addAmp a.n es' σ I F k = _
        rw [this]
        linear_combination (-(y * s * t * addAmp a.n _ σ I F k)) * hx

/-- **C193** (what holds) Multiplying all energies of the input, the chemical potentials of the leads and the temperature by the same `c` changes neither the states nor the rates nor the currents of
sequential tunnelling, if the same sectors count as near the ground state and no sector has a degenerate level. Missing: the absolute tolerances of the code, see `C193_refuted`. -/
theorem C193_rates_partial (ha : a.Valid) (hc : 0 < c) (hu : UnitsOk c a) (hw : a.n ≤ w) (hw' : a.n ≤ w') (hb : BuildEspace w a none (.ok (es, E))) (hb' : BuildEspace w' (inUnits c a) none (.ok (es', E')))
    (hnd : ∀ p ∈ es, p.2.eigvals.Nodup) {egs egs' : ℝ} (hng : ∀ id, NearGround a.n es egs id ↔ NearGround a.n es' egs' id) {junk junk' : ℕ} {gd gd' : GfDict}
    (hgd : sqBuild junk a.n egs es none = .ok gd) (hgd' : sqBuild junk' a.n egs' es' none = .ok gd') :
    finalIds gd' = finalIds gd ∧ (∀ beta m0 m1 A, sqRate gd' (beta / c) [c * m0, c * m1] A = sqRate gd beta [m0, m1] A) ∧
      ∀ beta mu v p, leadCurrent gd' (beta / c) (c * mu) v p = leadCurrent gd beta mu v p := by
  have hs := scale_of_runs ha hc hu hw hw' hb hb' hnd hng hgd hgd'
  have h1 : finalIds gd' = finalIds gd := hs.ids.symm.trans (finalIds_scaled gd)
  refine ⟨h1, fun beta m0 m1 A => ?_, fun beta mu v p => ?_⟩
  · rw [← hs.rate]
    exact sqRate_scaled hc.ne' gd beta [m0, m1] A
  · unfold leadCurrent
    rw [h1, ← hs.transition, sqTransition_scaled hc.ne']

/-- The same sectors count as near the ground state, if every level is within the tolerance in both units or in neither. -/
theorem near_units (ha : a.Valid) (hc : 0 < c) (hu : UnitsOk c a) (hw : a.n ≤ w) (hw' : a.n ≤ w') (hb : BuildEspace w a none (.ok (es, E))) (hb' : BuildEspace w' (inUnits c a) none (.ok (es', E')))
    {egs : ℝ} (hgap : ∀ p ∈ es, ∀ e ∈ p.2.eigvals, |e - egs| < 1e-9 ↔ |c * e - c * egs| < 1e-9) (id : TId) : NearGround a.n es egs id ↔ NearGround a.n es' (c * egs) id := by
  have hes := buildEspace_eigen ha hw hb
  have key : ∀ g : ℕ × ℕ, g.1 ≤ a.n → g.2 ≤ a.n → (GroundSector es egs g ↔ GroundSector es' (c * egs) g) := fun g g1 g2 => by
    obtain ⟨s, hs, -⟩ := hes.toCompleteEspace.get g1 g2
    have e1 := (sctAt_of_mem hes hs).1
    unfold GroundSector
    rw [← sctAt_units ha hc hu hw hw' hb hb' g, sctAt_scaleLevels]
    simp only [List.mem_map, forall_exists_index, and_imp, forall_apply_eq_imp_iff₂]
    constructor
    · rintro ⟨e, he, hm, h9⟩
      exact ⟨c * e, ⟨e, he, rfl⟩, fun x hx => mul_le_mul_of_nonneg_left (hm x hx) hc.le, (hgap _ hs e (by rwa [← e1])).mp h9⟩
    · rintro ⟨_, ⟨e, he, rfl⟩, hm, h9⟩
      exact ⟨e, he, fun x hx => le_of_mul_le_mul_left (hm x hx) hc, (hgap _ hs e (by rwa [← e1])).mpr h9⟩
  unfold NearGround
  exact exists_congr fun g => and_congr_right fun g1 => and_congr_right fun g2 => and_congr_left fun _ => key g g1 g2

end

theorem apart_unitsOk : UnitsOk 2 apartArgs :=
  ⟨fun s i j _ _ hij => .inl (by simp only [apartArgs]; rw [if_neg]; omega), by simp [apartArgs, VArg.array], by simp [apartArgs, VArg.array]⟩

/-- Two uncoupled sites whose levels are all different, and the same with every energy doubled. -/
example : ∃ (es es' : Espace (ℕ × ℕ)) (gd gd' : GfDict) (E E' : WithTop ℝ), apartArgs.Valid ∧ UnitsOk 2 apartArgs ∧ BuildEspace 64 apartArgs none (.ok (es, E)) ∧
    BuildEspace 64 (inUnits 2 apartArgs) none (.ok (es', E')) ∧ (∀ p ∈ es, p.2.eigvals.Nodup) ∧ (∀ id, NearGround 2 es 0 id ↔ NearGround 2 es' 0 id) ∧
      sqBuild 0 2 0 es none = .ok gd ∧ sqBuild 0 2 0 es' none = .ok gd' := by
  have hin : inField 0 0 apartArgs = apartArgs := by simp [inField]
  have hv : (inUnits 2 apartArgs).Valid := inUnits_valid apartArgs_valid
  obtain ⟨⟨es, E, hb⟩, hnd⟩ := apart_nodup
  obtain ⟨⟨⟨es', E'⟩, hb'⟩, -⟩ := buildEspace_none_ok hv (w := 64) (by simp [inUnits, apartArgs])
  obtain ⟨gd, k1, -⟩ := C155_elements apartArgs_valid (by simp [apartArgs]) hb 0 0 none
  obtain ⟨gd', l1, -⟩ := C155_elements hv (by simp [inUnits, apartArgs]) hb' 0 0 none
  refine ⟨es, es', gd, gd', E, E', apartArgs_valid, apart_unitsOk, hb, hb', hnd _ _ hb, fun id => ?_, k1, l1⟩
  have := near_units apartArgs_valid two_pos apart_unitsOk (by simp [apartArgs]) (by simp [apartArgs]) hb hb' (egs := 0) (fun p hp e he => ?_) id
  · simpa [apartArgs] using this
  · obtain ⟨q, I⟩ := p
    obtain ⟨e1, b1, b2⟩ := sctAt_of_mem (buildEspace_eigen apartArgs_valid (by simp [apartArgs]) hb) hp
    have h0 := apart_field (h := 0) (by rw [hin]; exact hb) (q := q) b1 b2
    rw [e1] at h0
    rw [show ((q, I) : (ℕ × ℕ) × Sct).2 = I from rfl, h0] at he
    obtain ⟨k, -, rfl⟩ := List.mem_map.mp he
    rcases Nat.eq_zero_or_pos k with rfl | hk
    · norm_num
    · have hk1 : (1 : ℝ) ≤ k := by exact_mod_cast hk
      constructor <;> intro hx <;> have := (abs_lt.mp hx).2 <;> norm_num at this <;> linarith

end Edpyt
