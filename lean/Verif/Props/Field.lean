import Verif.Spec.Field
import Verif.Props.SqChoice
import Verif.Props.LevelSymm
import Verif.Props.Variational
/-!
C194: a uniform potential or magnetic field shifts the energies of each sector rigidly, and tunnelling depends on the potential of the leads relative to that of the system.
-/
namespace Edpyt
open Edpyt.Spec Matrix

section
variable {a : HamArgs} {hu hd h : ℝ} {w w' : ℕ} {es es' : Espace (ℕ × ℕ)} {E E' : WithTop ℝ}

theorem inField_valid (ha : a.Valid) : (inField hu hd a).Valid := by
  refine ⟨ha.two_le, ha.le, ha.hU, fun s i j hi hj => ?_, ha.symmX, ha.symmP, ha.hJ⟩
  simp only [inField, ha.symmH s i j hi hj, eq_comm (a := i)]

/-- The field multiplies a state by its numbers of up and down electrons. -/
def fieldE (hu hd : ℝ) {n : ℕ} (S : Finset (Fin (n + n))) : ℝ := hu * spinCount false S + hd * spinCount true S

theorem ham_inField : (inField hu hd a).ham = a.ham + Matrix.diagonal (fieldE hu hd) := by
  have := withH_ham (a := a) (H := (inField hu hd a).H) a.mu (fun s i j hij => by
    have : (i : ℕ) ≠ j := fun h => hij (Fin.ext h)
    simp [inField, this])
  refine Eq.trans this ?_
  congr 2
  funext S
  have hc : ∀ (s : Bool) (x : ℝ), ∑ i : Fin a.n, x * (if orb s i ∈ S then (1 : ℝ) else 0) = x * (spinCount s S : ℤ) := fun s x => by
    rw [spinCount_eq, ← Finset.mul_sum, Finset.sum_boole]
    simp
  rw [Fintype.sum_bool, fieldE, ← hc, ← hc, add_comm]
  refine congrArg₂ (· + ·) ?_ ?_ <;> refine Finset.sum_congr rfl fun i _ => ?_ <;> simp [inField]

/-- The espace with the energies of the field added. -/
def addField (hu hd : ℝ) (es : Espace (ℕ × ℕ)) : Espace (ℕ × ℕ) := es.map fun p => (p.1, ⟨p.2.states, p.2.d, p.2.eigvals.map (· + (hu * p.1.1 + hd * p.1.2)), p.2.eigvecs⟩)

theorem EigenEspace.addField {n : ℕ} {H : Matrix (Finset (Fin (n + n))) (Finset (Fin (n + n))) ℝ} (h : EigenEspace n H es) :
    EigenEspace n (H + Matrix.diagonal (fieldE hu hd)) (addField hu hd es) := by
  refine ⟨⟨?_, ?_⟩, ?_⟩
  · have : (Edpyt.addField hu hd es).map Prod.fst = es.map Prod.fst := by simp [Edpyt.addField, Function.comp_def]
    rw [this]
    exact h.keys
  · intro p hp
    obtain ⟨q, hq, rfl⟩ := List.mem_map.mp hp
    obtain ⟨up, dw, o, hC⟩ := h.ok q hq
    exact ⟨up, dw, ⟨o.states, o.hup, o.hdw, o.d, by simpa using o.len⟩, hC⟩
  · intro p hp k hk
    obtain ⟨q, hq, rfl⟩ := List.mem_map.mp hp
    have hk' : k < q.2.eigvals.length := by simpa using hk
    have h1 := h.eig q hq k hk'
    obtain ⟨up, dw, o, hC⟩ := h.ok q hq
    have e1 : (q.2.eigvals.map (· + (hu * q.1.1 + hd * q.1.2)))[k]?.getD 0 = q.2.eigvals[k]?.getD 0 + (hu * q.1.1 + hd * q.1.2) := by
      rw [List.getElem?_map, List.getElem?_eq_getElem hk']; rfl
    have e2 : (⟨q.2.states, q.2.d, q.2.eigvals.map (· + (hu * q.1.1 + hd * q.1.2)), q.2.eigvecs⟩ : Sct).ket n k = q.2.ket n k := rfl
    show (H + Matrix.diagonal (fieldE hu hd)) *ᵥ (⟨q.2.states, q.2.d, q.2.eigvals.map (· + (hu * q.1.1 + hd * q.1.2)), q.2.eigvecs⟩ : Sct).ket n k =
      ((q.2.eigvals.map (· + (hu * q.1.1 + hd * q.1.2)))[k]?.getD 0) • (⟨q.2.states, q.2.d, q.2.eigvals.map (· + (hu * q.1.1 + hd * q.1.2)), q.2.eigvecs⟩ : Sct).ket n k
    rw [e1, e2, Matrix.add_mulVec, h1, add_smul]
    congr 1
    funext S
    rw [Matrix.mulVec_diagonal, o.ket_eq, Pi.smul_apply, smul_eq_mul]
    by_cases h0 : Spec.ket n up dw (q.2.eigvecs[k]?.getD 0) S = 0
    · rw [h0, mul_zero, mul_zero]
    · obtain ⟨c1, c2⟩ := ket_support o.hup o.hdw _ h0
      simp only [fieldE, c1, c2, Int.cast_natCast]

theorem eigenEspace_inField (hes' : EigenEspace a.n (inField hu hd a).ham es') : EigenEspace a.n (a.ham + Matrix.diagonal (fieldE hu hd)) es' := by
  have hh := ham_inField (a := a) (hu := hu) (hd := hd)
  exact hh ▸ hes'

/-- **C194** `build_espace`: in the sector with `nup` and `ndw` electrons every energy is raised by `hu * nup + hd * ndw`. -/
theorem C194_levels (ha : a.Valid) (hw : a.n ≤ w) (hw' : a.n ≤ w') (hb : BuildEspace w a none (.ok (es, E))) (hb' : BuildEspace w' (inField hu hd a) none (.ok (es', E')))
    {nup ndw : ℕ} {I J : Sct} (hI : ((nup, ndw), I) ∈ es) (hJ : ((nup, ndw), J) ∈ es') : J.eigvals = I.eigvals.map (· + (hu * nup + hd * ndw)) := by
  have hes := buildEspace_eigen ha hw hb
  have hes' : EigenEspace a.n (a.ham + Matrix.diagonal (fieldE hu hd)) es' := eigenEspace_inField (buildEspace_eigen (inField_valid ha) hw' hb')
  have hIc : ((nup, ndw), (⟨I.states, I.d, I.eigvals.map (· + (hu * nup + hd * ndw)), I.eigvecs⟩ : Sct)) ∈ addField hu hd es := List.mem_map.mpr ⟨_, hI, rfl⟩
  obtain ⟨eI, hp, hq⟩ := sctAt_of_mem (hes.addField (hu := hu) (hd := hd)) hIc
  obtain ⟨eJ, -, -⟩ := sctAt_of_mem hes' hJ
  refine sorted_ext (buildEspace_sorted (inField_valid ha) hw' hb' hJ) ?_ fun x => ?_
  · rw [List.pairwise_map]
    exact (buildEspace_sorted ha hw hb hI).imp fun h => by simpa using h
  · have := levels_eq (hes.addField (hu := hu) (hd := hd)) hes' (A := 1) (by rw [Matrix.one_mul, Matrix.mul_one]) (by simp) hp hq hp hq
      (fun T S hTS => by
        by_cases hTS' : T = S
        · rw [hTS']
        · exact absurd (Matrix.one_apply_ne hTS') hTS) x
    rw [eI, eJ] at this
    exact this.symm

/-! ## Tunnelling -/

/-- The transition elements with their energies raised by `h`. -/
def raiseDict (h : ℝ) (gd : GfDict) : GfDict := gd.map fun p => (p.1, { p.2 with E := p.2.E + h })

theorem dictGet_raise (gd : GfDict) (k : TId × TId) : dictGet (raiseDict h gd) k = (dictGet gd k).map fun g => { g with E := g.E + h } := by
  induction gd with
  | nil => rfl
  | cons p l ih =>
    unfold raiseDict at ih ⊢
    rw [List.map_cons, dictGet_cons, dictGet_cons, ih]
    by_cases hp : p.1 = k <;> simp [hp, Except.map]

theorem finalIds_raise (gd : GfDict) : finalIds (raiseDict h gd) = finalIds gd := by
  unfold finalIds raiseDict
  rw [List.map_map]
  rfl

theorem call_raise (g : GfT) (v : List ℝ) (beta mu : ℝ) : GfT.call { g with E := g.E + h } v beta (mu + h) = g.call v beta mu := by
  unfold GfT.call
  have e1 : g.E + h - (mu + h) = g.E - mu := by ring
  have e2 : -(g.E + h) + (mu + h) = -g.E + mu := by ring
  simp only [e1, e2]

theorem sqGamma_raise (gd : GfDict) (beta : ℝ) (mu : List ℝ) (A : List (List ℝ)) (lead : ℕ) (F I : TId) :
    sqGamma (raiseDict h gd) beta (mu.map (· + h)) A lead F I = sqGamma gd beta mu A lead F I := by
  unfold sqGamma
  have hm : getItem (mu.map (· + h)) (lead : ℤ) = (getItem mu (lead : ℤ)).map (· + h) := by
    unfold getItem
    rw [List.length_map]
    cases pyIndex mu.length (lead : ℤ) with
    | error e => rfl
    | ok k => simp only [List.getElem?_map]; cases mu[k]? <;> rfl
  rw [dictGet_raise, hm]
  cases dictGet gd (F, I) with
  | error e => rfl
  | ok g =>
    cases getItem A (lead : ℤ) with
    | error e => rfl
    | ok v =>
      cases getItem mu (lead : ℤ) with
      | error e => rfl
      | ok m => simp only [Except.map, bind, Except.bind, call_raise]

theorem sqRate_raise (gd : GfDict) (beta : ℝ) (mu : List ℝ) (A : List (List ℝ)) : sqRate (raiseDict h gd) beta (mu.map (· + h)) A = sqRate gd beta mu A := by
  rw [sqRate_eq, sqRate_eq, finalIds_raise]
  have hf : ∀ lead, sqFlow (raiseDict h gd) beta (mu.map (· + h)) A lead = sqFlow gd beta mu A lead := by
    intro lead; funext p
    unfold sqFlow
    rw [finalIds_raise]
    simp only [sqGamma_raise]
  rw [hf, hf]

theorem sqTransition_raise (gd : GfDict) (beta mu : ℝ) (v : List ℝ) : sqTransition (raiseDict h gd) beta (mu + h) v = sqTransition gd beta mu v := by
  funext f i
  unfold sqTransition
  rw [finalIds_raise]
  simp only
  split
  · split
    · rename_i F I _ _
      rw [dictGet_raise]
      cases dictGet gd (F, I) with
      | error e => rfl
      | ok g => simp only [Except.map, call_raise]
    · rfl
  · rfl

theorem sctAt_addField (es : Espace (ℕ × ℕ)) (q : ℕ × ℕ) :
    sctAt (addField hu hd es) q = ⟨(sctAt es q).states, (sctAt es q).d, (sctAt es q).eigvals.map (· + (hu * q.1 + hd * q.2)), (sctAt es q).eigvecs⟩ := by
  induction es with
  | nil => rfl
  | cons p l ih =>
    unfold sctAt Edpyt.addField at ih ⊢
    rw [List.map_cons, dictGet_cons, dictGet_cons]
    by_cases hp : p.1 = q
    · simp [hp]
    · simpa [hp] using ih

theorem sctAt_field (ha : a.Valid) (hw : a.n ≤ w) (hw' : a.n ≤ w') (hb : BuildEspace w a none (.ok (es, E))) (hb' : BuildEspace w' (inField hu hd a) none (.ok (es', E'))) (q : ℕ × ℕ) :
    (sctAt (addField hu hd es) q).eigvals = (sctAt es' q).eigvals := by
  have hes := buildEspace_eigen ha hw hb
  have hes' : EigenEspace a.n (a.ham + Matrix.diagonal (fieldE hu hd)) es' := eigenEspace_inField (buildEspace_eigen (inField_valid ha) hw' hb')
  by_cases hq : q ∈ ndindex2 (a.n + 1) (a.n + 1)
  · obtain ⟨p, hp, rfl⟩ := List.mem_map.mp (hes.keys.mem_iff.mpr hq)
    obtain ⟨p', hp', e⟩ := List.mem_map.mp (hes'.keys.mem_iff.mpr hq)
    obtain ⟨⟨u, d⟩, I⟩ := p
    obtain ⟨⟨u', d'⟩, J⟩ := p'
    obtain ⟨rfl, rfl⟩ := Prod.mk.inj e
    rw [sctAt_addField, (sctAt_of_mem hes hp).1, (sctAt_of_mem hes' hp').1, C194_levels ha hw hw' hb hb' hp hp']
  · have no : ∀ l : Espace (ℕ × ℕ), (l.map Prod.fst).Perm (ndindex2 (a.n + 1) (a.n + 1)) → (sctAt l q).eigvals = [] := fun l hl => by
      unfold sctAt
      cases e : dictGet l q with
      | error _ => rfl
      | ok s => exact absurd (hl.mem_iff.mp (List.mem_map.mpr ⟨_, dictGet_mem_of_ok e, rfl⟩)) hq
    rw [no _ hes'.keys, no _ (hes.addField (hu := hu) (hd := hd)).keys]

theorem idEnergy_addField (es : Espace (ℕ × ℕ)) {n : ℕ} (hes : CompleteEspace n es) {id : TId} (hid : IsState n id) :
    idEnergy (addField hu hd es) id = idEnergy es id + (hu * id.1 + hd * id.2.1) := by
  obtain ⟨u, d, k⟩ := id
  obtain ⟨h1, h2, h3, h4, h5⟩ := hid
  simp only at h1 h2 h3 h4 h5
  obtain ⟨u, rfl⟩ := Int.eq_ofNat_of_zero_le h1
  obtain ⟨d, rfl⟩ := Int.eq_ofNat_of_zero_le h3
  obtain ⟨up, dw, hm, hg, -, -, -, hlen⟩ := hes.at (u := u) (d := d) (by exact_mod_cast h2) (by exact_mod_cast h4)
  have key : ∀ l : Espace (ℕ × ℕ), idEnergy l ((u : ℤ), (d : ℤ), k) = (sctAt l (u, d)).eigvals[k]?.getD 0 := fun l => by
    unfold idEnergy espaceGet sctAt
    simp only [Int.natCast_nonneg, and_self, if_true, Int.toNat_natCast]
    cases dictGet l (u, d) <;> simp
  have hk : k < (sctAt es (u, d)).eigvals.length := by rw [hlen]; simpa using h5
  rw [key, key, sctAt_addField]
  simp only [List.getElem?_map, List.getElem?_eq_getElem hk, Option.map_some, Option.getD_some, Int.cast_natCast]

theorem idKet_addField (es : Espace (ℕ × ℕ)) (n : ℕ) (id : TId) : idKet n (addField hu hd es) id = idKet n es id := by
  unfold idKet
  rw [sctAt_addField]
  rfl

/-- In a uniform potential, with the same active sectors, the elements are the same up to signs, and their energies are raised by the potential. -/
theorem raise_of_runs (ha : a.Valid) (hw : a.n ≤ w) (hw' : a.n ≤ w') (hb : BuildEspace w a none (.ok (es, E))) (hb' : BuildEspace w' (inField h h a) none (.ok (es', E')))
    (hnd : ∀ p ∈ es, p.2.eigvals.Nodup) {egs egs' : ℝ} (hng : ∀ id, NearGround a.n es egs id ↔ NearGround a.n es' egs' id) {junk junk' : ℕ} {gd gd' : GfDict}
    (hgd : sqBuild junk a.n egs es none = .ok gd) (hgd' : sqBuild junk' a.n egs' es' none = .ok gd') : SameUpToSign (raiseDict h gd) gd' := by
  have hes := buildEspace_eigen ha hw hb
  have hes' : EigenEspace a.n (a.ham + Matrix.diagonal (fieldE h h)) es' := eigenEspace_inField (buildEspace_eigen (inField_valid ha) hw' hb')
  have hv := sctAt_field ha hw hw' hb hb'
  have hE : ∀ id, IsState a.n id → idEnergy es' id = idEnergy es id + (h * id.1 + h * id.2.1) := fun id hid => by
    rw [← idEnergy_levels hv, idEnergy_addField es hes.toCompleteEspace hid]
  have hnd' : ∀ p ∈ addField h h es, p.2.eigvals.Nodup := fun p hp => by
    obtain ⟨q, hq, rfl⟩ := List.mem_map.mp hp
    exact (hnd q hq).map (add_left_injective _)
  have hket : ∀ id, IsState a.n id → ∃ s : ℝ, s ^ 2 = 1 ∧ idKet a.n es' id = s • idKet a.n es id := fun id hid => by
    obtain ⟨x, rfl⟩ := idOf_surj hid
    rw [← idKet_addField (hu := h) (hd := h) es, idKet_idOf, idKet_idOf]
    exact simple_sign hes.addField hes' hv hnd' x
  obtain ⟨_, k1, k2, k3⟩ := C155_elements ha hw hb junk egs none
  rw [hgd] at k1; obtain rfl := Except.ok.inj k1
  obtain ⟨_, l1, l2, l3⟩ := C155_elements (inField_valid (hu := h) (hd := h) ha) hw' hb' junk' egs' none
  rw [show (inField h h a).n = a.n from rfl, hgd'] at l1; obtain rfl := Except.ok.inj l1
  have hwc : ∀ F I, WithinCutoff es egs none F I ↔ WithinCutoff es' egs' none F I := fun F I => by simp [WithinCutoff]
  have l2' : ∀ F I, (∃ g, dictGet gd' (F, I) = .ok g) ↔ ∃ g, dictGet gd (F, I) = .ok g := fun F I => by
    rw [l2, k2, hwc, hng, hng]; rfl
  intro F I
  rw [dictGet_raise]
  cases hg : dictGet gd (F, I) with
  | error e =>
    cases hg' : dictGet gd' (F, I) with
    | error e' => exact .inl ⟨e, e', rfl, rfl⟩
    | ok g1 =>
      obtain ⟨g, hh⟩ := (l2' F I).mp ⟨g1, hg'⟩
      rw [hg] at hh; cases hh
  | ok g =>
    obtain ⟨hF, hI, ⟨σ, hσ⟩, -⟩ := (k2 F I).mp ⟨g, hg⟩
    obtain ⟨g1, hg1⟩ := (l2' F I).mpr ⟨g, hg⟩
    obtain ⟨s, hs, eS⟩ := hket F hF
    obtain ⟨t, ht, eT⟩ := hket I hI
    rcases hσ with hσ | hσ
    · obtain ⟨c1, c2, x, hx, c3⟩ := (k3 F I g hg σ).1 hσ
      obtain ⟨d1, d2, y, hy, d3⟩ := (l3 F I g1 hg1 σ).1 hσ
      refine .inr ⟨_, g1, x * y * (s * t), rfl, hg1, by rw [mul_pow, mul_pow, mul_pow, hx, hy, hs, ht]; norm_num, by rw [c1, d1], ?_, ?_⟩
      · rw [d2, hE F hF, hE I hI]
        simp only [c2, hσ.1, hσ.2]
        cases σ <;> simp only [if_true, Bool.false_eq_true, if_false] <;> push_cast <;> ring
      · simp only [c3]
        rw [d3, List.map_map]
        refine List.map_congr_left fun k _ => ?_
        simp only [Function.comp_apply]
        have := addAmp_sign eS eT σ k
        change y * addAmp a.n es' σ F I k = _
        rw [this]
        linear_combination (-(y * s * t * addAmp a.n _ σ F I k)) * hx
    · obtain ⟨c1, c2, x, hx, c3⟩ := (k3 F I g hg σ).2 hσ
      obtain ⟨d1, d2, y, hy, d3⟩ := (l3 F I g1 hg1 σ).2 hσ
      refine .inr ⟨_, g1, x * y * (s * t), rfl, hg1, by rw [mul_pow, mul_pow, mul_pow, hx, hy, hs, ht]; norm_num, by rw [c1, d1], ?_, ?_⟩
      · rw [d2, hE F hF, hE I hI]
        simp only [c2, hσ.1, hσ.2]
        cases σ <;> simp only [if_true, Bool.false_eq_true, if_false] <;> push_cast <;> ring
      · simp only [c3]
        rw [d3, List.map_map]
        refine List.map_congr_left fun k _ => ?_
        simp only [Function.comp_apply]
        have := addAmp_sign eT eS σ k
        change y * addAmp a.n es' σ I F k = _
        rw [this]
        linear_combination (-(y * s * t * addAmp a.n _ σ I F k)) * hx

/-- **C194** (what holds) Raising all levels of the system and the chemical potentials of the leads by the same `h` changes neither the states nor the rates nor the currents, if the same sectors count as near the ground
state and no sector has a degenerate level. Missing: changes of the active sectors, where it is false (`C194_refuted`). -/
theorem C194_rates_partial (ha : a.Valid) (hw : a.n ≤ w) (hw' : a.n ≤ w') (hb : BuildEspace w a none (.ok (es, E))) (hb' : BuildEspace w' (inField h h a) none (.ok (es', E')))
    (hnd : ∀ p ∈ es, p.2.eigvals.Nodup) {egs egs' : ℝ} (hng : ∀ id, NearGround a.n es egs id ↔ NearGround a.n es' egs' id) {junk junk' : ℕ} {gd gd' : GfDict}
    (hgd : sqBuild junk a.n egs es none = .ok gd) (hgd' : sqBuild junk' a.n egs' es' none = .ok gd') :
    finalIds gd' = finalIds gd ∧ (∀ beta m0 m1 A, sqRate gd' beta [m0 + h, m1 + h] A = sqRate gd beta [m0, m1] A) ∧
      ∀ beta mu v p, leadCurrent gd' beta (mu + h) v p = leadCurrent gd beta mu v p := by
  have hs := raise_of_runs ha hw hw' hb hb' hnd hng hgd hgd'
  have h1 : finalIds gd' = finalIds gd := hs.ids.symm.trans (finalIds_raise gd)
  refine ⟨h1, fun beta m0 m1 A => ?_, fun beta mu v p => ?_⟩
  · rw [← hs.rate]
    exact sqRate_raise gd beta [m0, m1] A
  · unfold leadCurrent
    rw [h1, ← hs.transition, sqTransition_raise]

end
/-! ## Two uncoupled sites with simple levels, in a potential -/

section
variable {h : ℝ} {es : Espace (ℕ × ℕ)}

theorem apart_field {E : WithTop ℝ} (hb : BuildEspace 64 (inField h h apartArgs) none (.ok (es, E))) {q : ℕ × ℕ} (h1 : q.1 ≤ 2) (h2 : q.2 ≤ 2) :
    (sctAt es q).eigvals = (apartLevels q).map fun k : ℕ => (k : ℝ) + (h * q.1 + h * q.2) := by
  have hrun := chosen_run apartArgs_valid (w := 64) (by simp [apartArgs]) (ch := apartChoice) (fun q hq D hD => apart_eigh hq hD)
  rw [← sctAt_field apartArgs_valid (by simp [apartArgs]) (by simp [apartArgs]) hrun hb q, sctAt_addField]
  have := chosen_get (w := 64) (ch := apartChoice) h1 h2
  rw [show apartArgs.n = 2 from rfl, this]
  simp only [apartChoice, List.map_map]
  rfl

theorem apart_zero : apartLevels (0, 0) = [0] := by decide

theorem apart_energy (hh : 0 ≤ h) {e : ℝ} (hb : BuildEspace 64 (inField h h apartArgs) none (.ok (es, (e : WithTop ℝ)))) : e = 0 := by
  have hv := inField_valid (hu := h) (hd := h) apartArgs_valid
  obtain ⟨e', he, ⟨p, hp, hx⟩, hl⟩ := buildEspace_least hv (by simp [inField, apartArgs]) hb
  obtain rfl := WithTop.coe_injective he
  have hes := buildEspace_eigen hv (by simp [inField, apartArgs]) hb
  obtain ⟨q, I⟩ := p
  obtain ⟨e1, b1, b2⟩ := sctAt_of_mem hes hp
  refine le_antisymm (hl ?_) ?_
  · obtain ⟨s, hs, hg⟩ := hes.toCompleteEspace.get (u := 0) (d := 0) (Nat.zero_le _) (Nat.zero_le _)
    refine ⟨_, hs, ?_⟩
    have := apart_field hb (q := (0, 0)) (by norm_num) (by norm_num)
    rw [(sctAt_of_mem hes hs).1, apart_zero] at this
    rw [show (((0, 0), s) : (ℕ × ℕ) × Sct).2 = s from rfl, this]
    simp
  · have := apart_field hb (q := q) b1 b2
    rw [e1] at this
    rw [show ((q, I) : (ℕ × ℕ) × Sct).2 = I from rfl, this] at hx
    obtain ⟨k, -, rfl⟩ := List.mem_map.mp hx
    positivity

theorem apart_ground_field (hh : 1 ≤ h) {E : WithTop ℝ} (hb : BuildEspace 64 (inField h h apartArgs) none (.ok (es, E))) {q : ℕ × ℕ} (h1 : q.1 ≤ 2) (h2 : q.2 ≤ 2) :
    GroundSector es 0 q ↔ q = (0, 0) := by
  unfold GroundSector
  rw [apart_field hb h1 h2]
  constructor
  · rintro ⟨e, he, -, h9⟩
    obtain ⟨k, -, rfl⟩ := List.mem_map.mp he
    by_contra hq
    have : 1 ≤ q.1 + q.2 := by
      by_contra h0
      exact hq (Prod.ext (by omega) (by omega))
    have hr : (1 : ℝ) ≤ (q.1 : ℝ) + q.2 := by exact_mod_cast this
    have hk : (0 : ℝ) ≤ k := Nat.cast_nonneg k
    have := (abs_lt.mp h9).2
    norm_num at this
    nlinarith
  · rintro rfl
    refine ⟨0, by simp [apart_zero], by simp [apart_zero], by norm_num⟩

theorem apart_near_field (hh : 1 ≤ h) {E : WithTop ℝ} (hb : BuildEspace 64 (inField h h apartArgs) none (.ok (es, E))) (id : TId) :
    NearGround 2 es 0 id ↔ |id.1| + |id.2.1| ≤ 1 := by
  unfold NearGround
  constructor
  · rintro ⟨g, g1, g2, hg, hx⟩
    rw [apart_ground_field hh hb g1 g2] at hg
    subst hg
    simpa using hx
  · intro hx
    exact ⟨(0, 0), by norm_num, by norm_num, (apart_ground_field hh hb (by norm_num) (by norm_num)).2 rfl, by simpa using hx⟩

end

theorem mem_finalIds_iff {gd : GfDict} {F : TId} : F ∈ finalIds gd ↔ ∃ I g, dictGet gd (F, I) = .ok g := by
  unfold finalIds
  rw [mem_uniqueSorted]
  constructor
  · intro hF
    obtain ⟨p, hp, rfl⟩ := List.mem_map.mp hF
    obtain ⟨g, hg⟩ := dictGet_of_key (List.mem_map_of_mem (f := Prod.fst) hp)
    exact ⟨_, g, hg⟩
  · rintro ⟨I, g, hg⟩
    exact List.mem_map.mpr ⟨_, dictGet_mem_of_ok hg, rfl⟩

/-- The elements are restricted to the sectors next to the ground state of the system itself, whatever the potential of the leads: two uncoupled sites, whose two-electron state takes part; when levels and leads are raised by 1, it
does not. -/
theorem C194_refuted : ∃ (a : HamArgs) (h : ℝ) (es es' : Espace (ℕ × ℕ)) (e e' : ℝ), a.Valid ∧ BuildEspace 64 a none (.ok (es, (e : WithTop ℝ))) ∧
    BuildEspace 64 (inField h h a) none (.ok (es', (e' : WithTop ℝ))) ∧ (∀ p ∈ es, p.2.eigvals.Nodup) ∧
      ∀ junk, ∃ gd gd', sqBuild junk a.n e es none = .ok gd ∧ sqBuild junk a.n e' es' none = .ok gd' ∧ (1, 1, 0) ∈ finalIds gd ∧ (1, 1, 0) ∉ finalIds gd' := by
  have hin : inField 0 0 apartArgs = apartArgs := by simp [inField]
  have hv : (inField 1 1 apartArgs).Valid := inField_valid apartArgs_valid
  obtain ⟨⟨es, E, hb⟩, hnd⟩ := apart_nodup
  obtain ⟨e, rfl, -⟩ := buildEspace_least apartArgs_valid (by simp [apartArgs]) hb
  obtain ⟨⟨⟨es', E'⟩, hb'⟩, -⟩ := buildEspace_none_ok hv (w := 64) (by simp [inField, apartArgs])
  obtain ⟨e', rfl, -⟩ := buildEspace_least hv (by simp [inField, apartArgs]) hb'
  have hb0 : BuildEspace 64 (inField 0 0 apartArgs) none (.ok (es, (e : WithTop ℝ))) := by rw [hin]; exact hb
  obtain rfl := apart_energy le_rfl hb0
  obtain rfl := apart_energy zero_le_one hb'
  refine ⟨apartArgs, 1, es, es', 0, 0, apartArgs_valid, hb, hb', hnd _ _ hb, fun junk => ?_⟩
  obtain ⟨gd, k1, k2, -⟩ := C155_elements apartArgs_valid (by simp [apartArgs]) hb junk 0 none
  obtain ⟨gd', l1, l2, -⟩ := C155_elements hv (by simp [inField, apartArgs]) hb' junk 0 none
  refine ⟨gd, gd', k1, l1, ?_, ?_⟩
  · rw [mem_finalIds_iff]
    have hg : ∀ q : ℕ × ℕ, q = (0, 1) ∨ q = (1, 1) → GroundSector es 0 q := by
      rintro q hq
      have b : q.1 ≤ 2 ∧ q.2 ≤ 2 := by rcases hq with rfl | rfl <;> norm_num
      unfold GroundSector
      rw [apart_field hb0 b.1 b.2]
      have h0 : 0 ∈ apartLevels q := by rcases hq with rfl | rfl <;> decide
      refine ⟨0, List.mem_map.mpr ⟨0, h0, by simp⟩, fun e' he' => ?_, by norm_num⟩
      obtain ⟨k, -, rfl⟩ := List.mem_map.mp he'
      positivity
    refine ⟨(0, 1, 0), (k2 _ _).2 ⟨?_, ?_, ⟨false, .inl ?_⟩, ⟨(1, 1), ?_⟩, ⟨(0, 1), ?_⟩, ?_⟩⟩
    · simp [IsState, apartArgs]
    · simp [IsState, apartArgs]
    · simp [OneMore]
    · exact ⟨by simp [apartArgs], by simp [apartArgs], hg _ (.inr rfl), by simp⟩
    · exact ⟨by simp [apartArgs], by simp [apartArgs], hg _ (.inl rfl), by simp⟩
    · simp [WithinCutoff]
  · rw [mem_finalIds_iff]
    rintro ⟨I, hI⟩
    obtain ⟨-, -, -, hn, -⟩ := (l2 _ _).1 hI
    have := (apart_near_field le_rfl hb' (1, 1, 0)).1 hn
    norm_num at this

/-- The hypotheses of the theorems in a case where all of them hold: those two sites in the potential 1, raised by another 1. -/
example : ∃ (a : HamArgs) (es es' : Espace (ℕ × ℕ)) (e e' : ℝ) (gd gd' : GfDict), a.Valid ∧ BuildEspace 64 a none (.ok (es, (e : WithTop ℝ))) ∧
    BuildEspace 64 (inField 1 1 a) none (.ok (es', (e' : WithTop ℝ))) ∧ (∀ p ∈ es, p.2.eigvals.Nodup) ∧ (∀ id, NearGround a.n es e id ↔ NearGround a.n es' e' id) ∧
      sqBuild 0 a.n e es none = .ok gd ∧ sqBuild 0 a.n e' es' none = .ok gd' := by
  have hin : inField 1 1 (inField 1 1 apartArgs) = inField 2 2 apartArgs := by
    simp only [inField, HamArgs.mk.injEq, true_and, and_true]
    funext s i j
    by_cases hij : i = j <;> simp [hij, add_assoc] <;> norm_num
  have hv : (inField 1 1 apartArgs).Valid := inField_valid apartArgs_valid
  have hv2 : (inField 2 2 apartArgs).Valid := inField_valid apartArgs_valid
  obtain ⟨⟨⟨es, E⟩, hb⟩, -⟩ := buildEspace_none_ok hv (w := 64) (by simp [inField, apartArgs])
  obtain ⟨e, rfl, -⟩ := buildEspace_least hv (by simp [inField, apartArgs]) hb
  obtain ⟨⟨⟨es', E'⟩, hb'⟩, -⟩ := buildEspace_none_ok hv2 (w := 64) (by simp [inField, apartArgs])
  obtain ⟨e', rfl, -⟩ := buildEspace_least hv2 (by simp [inField, apartArgs]) hb'
  obtain rfl := apart_energy zero_le_one hb
  obtain rfl := apart_energy zero_le_two hb'
  obtain ⟨gd, k1, -⟩ := C155_elements hv (by simp [inField, apartArgs]) hb 0 0 none
  obtain ⟨gd', l1, -⟩ := C155_elements hv2 (by simp [inField, apartArgs]) hb' 0 0 none
  refine ⟨inField 1 1 apartArgs, es, es', 0, 0, gd, gd', hv, hb, by rw [hin]; exact hb', fun p hp => ?_, fun id => ?_, k1, l1⟩
  · have hes := buildEspace_eigen hv (by simp [inField, apartArgs]) hb
    obtain ⟨q, I⟩ := p
    obtain ⟨e1, b1, b2⟩ := sctAt_of_mem hes hp
    have := apart_field hb (q := q) b1 b2
    rw [e1] at this
    rw [show ((q, I) : (ℕ × ℕ) × Sct).2 = I from rfl, this]
    have hs : ∀ q ∈ ndindex2 3 3, (apartLevels q).Nodup := by decide
    refine (hs q (mem_ndindex2.mpr ⟨Nat.lt_succ_of_le b1, Nat.lt_succ_of_le b2⟩)).map fun x y hxy => ?_
    simpa using hxy
  · exact (apart_near_field le_rfl hb id).trans (apart_near_field one_le_two hb' id).symm

end Edpyt
