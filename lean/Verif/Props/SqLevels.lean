import Verif.Props.SqChoice
/-!
Property C167: rates between levels do not depend on the choice of the eigenvectors.
-/
namespace Edpyt
open Spec Matrix

/-! ## Specification -/

/-- The level of a state: its sector and its energy. -/
noncomputable def Spec.levelOf (es : Espace (ℕ × ℕ)) (id : TId) : (ℤ × ℤ) × ℝ := ((id.1, id.2.1), idEnergy es id)

/-- The level of row `i` of the matrices. -/
noncomputable def Spec.rowLevel (es : Espace (ℕ × ℕ)) (gd : GfDict) (i : ℕ) : (ℤ × ℤ) × ℝ := levelOf es ((finalIds gd)[i]?.getD (0, 0, 0))

/-! ## Bases with the same levels -/

section
variable {ι κ K : Type} [Fintype ι] [DecidableEq ι] [Fintype κ] [DecidableEq κ] {H : Matrix ι ι ℝ} {u u' : κ → ι → ℝ} {E E' : κ → ℝ}

theorem level_sum (h : EigBasis H u E) (h' : EigBasis H u' E') {lev lev' : κ → K} (hl : ∀ x y, u x ⬝ᵥ u' y ≠ 0 → lev x = lev' y) (g : K → ℝ) (v : ι → ℝ) :
    ∑ x, g (lev x) * (u x ⬝ᵥ v) ^ 2 = ∑ y, g (lev' y) * (u' y ⬝ᵥ v) ^ 2 := by
  have h1 : ∀ x, g (lev x) * (u x ⬝ᵥ v) ^ 2 = ∑ y, g (lev' y) * ((u x ⬝ᵥ v) * (u' y ⬝ᵥ v) * (u x ⬝ᵥ u' y)) := by
    intro x
    have e : u x ⬝ᵥ v = ∑ y, (u' y ⬝ᵥ v) * (u x ⬝ᵥ u' y) := by
      conv_lhs => rw [← h'.expand v, dotProduct_sum]
      exact Finset.sum_congr rfl fun y _ => by rw [dotProduct_smul, smul_eq_mul]
    rw [sq]
    conv_lhs => rw [show g (lev x) * ((u x ⬝ᵥ v) * (u x ⬝ᵥ v)) = (g (lev x) * (u x ⬝ᵥ v)) * (u x ⬝ᵥ v) by ring]; arg 2; rw [e]
    rw [Finset.mul_sum]
    refine Finset.sum_congr rfl fun y _ => ?_
    by_cases hz : u x ⬝ᵥ u' y = 0
    · rw [hz]; ring
    · rw [hl x y hz]; ring
  simp only [h1]
  rw [Finset.sum_comm]
  refine Finset.sum_congr rfl fun y _ => ?_
  have e : u' y ⬝ᵥ v = ∑ x, (u x ⬝ᵥ v) * (u x ⬝ᵥ u' y) := by
    conv_lhs => rw [← h.expand v, dotProduct_sum]
    exact Finset.sum_congr rfl fun x _ => by rw [dotProduct_smul, smul_eq_mul, dotProduct_comm (u' y)]
  rw [sq]
  conv_rhs => arg 2; arg 1; rw [e]
  rw [Finset.sum_mul, Finset.mul_sum]
  exact Finset.sum_congr rfl fun x _ => by ring

theorem level_sum2 (h : EigBasis H u E) (h' : EigBasis H u' E') {lev lev' : κ → K} (hl : ∀ x y, u x ⬝ᵥ u' y ≠ 0 → lev x = lev' y) (G : K → K → ℝ) (C : Matrix ι ι ℝ) :
    ∑ x, ∑ y, G (lev x) (lev y) * (u x ⬝ᵥ C *ᵥ u y) ^ 2 = ∑ x, ∑ y, G (lev' x) (lev' y) * (u' x ⬝ᵥ C *ᵥ u' y) ^ 2 := by
  rw [Finset.sum_comm]
  have h1 : ∀ y, ∑ x, G (lev x) (lev y) * (u x ⬝ᵥ C *ᵥ u y) ^ 2 = ∑ x, G (lev' x) (lev y) * (u' x ⬝ᵥ C *ᵥ u y) ^ 2 :=
    fun y => level_sum h h' hl (fun k => G k (lev y)) _
  simp only [h1]
  rw [Finset.sum_comm]
  refine Finset.sum_congr rfl fun x _ => ?_
  have h2 : ∀ w : ι → ℝ, u' x ⬝ᵥ C *ᵥ w = w ⬝ᵥ Cᵀ *ᵥ u' x := fun w => by rw [dotProduct_mulVec, ← mulVec_transpose, dotProduct_comm]
  simp only [h2]
  exact level_sum h h' hl (fun k => G (lev' x) k) _

end

variable {n junk : ℕ} {es es1 : Espace (ℕ × ℕ)}

theorem idEnergy_esVal (h : CompleteEspace n es) (x : EigIdx n) : idEnergy es (idOf x) = esVal n es x := by
  obtain ⟨⟨u, d⟩, k⟩ := x
  obtain ⟨up, dw, -, hget, -⟩ := h.at (u := u) (d := d) (by have := u.2; omega) (by have := d.2; omega)
  unfold idEnergy espaceGet idOf esVal
  simp [hget]

/-- Eigenvectors of two runs which overlap have the same sector and energy. -/
theorem level_overlap {H : Matrix (Finset (Fin (n + n))) (Finset (Fin (n + n))) ℝ} (h : EigenEspace n H es) (h1 : EigenEspace n H es1) (x y : EigIdx n)
    (ho : esKet n es x ⬝ᵥ esKet n es1 y ≠ 0) : levelOf es (idOf x) = levelOf es1 (idOf y) := by
  have hs : x.1 = y.1 := by
    by_contra hne
    exact ho (sector_perp h h1 hne)
  have hp := EigBasis.perp h.basis.symm h.basis h1.basis x y id
  have he := mul_right_cancel₀ ho hp
  simp only [id] at he
  unfold levelOf
  rw [idEnergy_esVal h.toCompleteEspace, idEnergy_esVal h1.toCompleteEspace, he]
  simp [idOf, hs]

/-! ## Rates as functions of the labels -/

/-- The rate of a transition through a lead; zero if there is none or the call raises. -/
noncomputable def gam (gd : GfDict) (beta m : ℝ) (a : List ℝ) (F I : TId) : ℝ :=
  match dictGet gd (F, I) with
  | .ok g => (g.call a beta m).toOption.getD 0
  | .error _ => 0

theorem sqFlow_gam (gd : GfDict) (beta m0 m1 : ℝ) (a0 a1 : List ℝ) {lead : ℕ} (hl : lead < 2) {i f : ℕ} (hi : i < (finalIds gd).length) (hf : f < (finalIds gd).length) :
    sqFlow gd beta [m0, m1] [a0, a1] lead (i, f) = gam gd beta (if lead = 0 then m0 else m1) (if lead = 0 then a0 else a1) (finalIds gd)[f] (finalIds gd)[i] := by
  obtain ⟨e1, e2⟩ := lead_items (m0 := m0) (m1 := m1) (a0 := a0) (a1 := a1) hl
  unfold sqFlow gam sqGamma
  simp only [List.getElem?_eq_getElem hf, List.getElem?_eq_getElem hi]
  cases hg : dictGet gd ((finalIds gd)[f], (finalIds gd)[i]) with
  | error e => simp [bind, Except.bind, Except.toOption]
  | ok g => simp [bind, Except.bind, e1, e2]

/-- What is kept, as a function of the levels. -/
def keepLevel (n : ℕ) (es : Espace (ℕ × ℕ)) (egs : ℝ) (cutoff : Option ℝ) (k l : (ℤ × ℤ) × ℝ) : Prop :=
  NearGround n es egs (k.1.1, k.1.2, 0) ∧ NearGround n es egs (l.1.1, l.1.2, 0) ∧ ∀ c ∈ cutoff, |k.2 - l.2| < c ∧ |k.2 - egs| < c ∧ |l.2 - egs| < c

def oneMoreL (σ : Bool) (k l : (ℤ × ℤ) × ℝ) : Prop := OneMore σ (k.1.1, k.1.2, 0) (l.1.1, l.1.2, 0)

open Classical in
/-- Fermi factor of adding an electron. -/
noncomputable def upG (n : ℕ) (es : Espace (ℕ × ℕ)) (egs : ℝ) (cutoff : Option ℝ) (beta m : ℝ) (σ : Bool) (k l : (ℤ × ℤ) × ℝ) : ℝ :=
  if keepLevel n es egs cutoff k l ∧ oneMoreL σ k l then fermi (k.2 - l.2 - m) beta else 0

open Classical in
/-- Fermi factor of removing an electron. -/
noncomputable def dnG (n : ℕ) (es : Espace (ℕ × ℕ)) (egs : ℝ) (cutoff : Option ℝ) (beta m : ℝ) (σ : Bool) (k l : (ℤ × ℤ) × ℝ) : ℝ :=
  if keepLevel n es egs cutoff k l ∧ oneMoreL σ l k then fermi (-(l.2 - k.2) + m) beta else 0

theorem oneMore_unique {σ τ : Bool} {F I : TId} (h : OneMore σ F I) (h' : OneMore τ F I) : σ = τ := by
  obtain ⟨h1, -⟩ := h
  obtain ⟨h2, -⟩ := h'
  cases σ <;> cases τ <;> simp at * <;> omega

theorem oneMore_asymm {σ τ : Bool} {F I : TId} (h : OneMore σ F I) : ¬ OneMore τ I F := by
  rintro ⟨h1, h2⟩
  obtain ⟨h3, h4⟩ := h
  cases σ <;> cases τ <;> simp at * <;> omega

theorem dotArr_len {v a : List ℝ} (h : v.length = a.length) : ∃ y, dotArr v a = .ok y := by
  unfold dotArr; rw [if_pos h]; exact ⟨_, rfl⟩

theorem gam_eq {a : HamArgs} (ha : a.Valid) {w : ℕ} (hw : a.n ≤ w) {e0 : WithTop ℝ} (h : BuildEspace w a none (.ok (es, e0))) {egs : ℝ} {cutoff : Option ℝ} {gd : GfDict}
    (hgd : sqBuild junk a.n egs es cutoff = .ok gd) (beta m : ℝ) {v : List ℝ} (hv : v.length = a.n) (x y : EigIdx a.n) :
    gam gd beta m v (idOf x) (idOf y) = ∑ σ : Bool,
      (upG a.n es egs cutoff beta m σ (levelOf es (idOf x)) (levelOf es (idOf y)) * (esKet a.n es x ⬝ᵥ leadOp a.n σ v *ᵥ esKet a.n es y) ^ 2 +
        dnG a.n es egs cutoff beta m σ (levelOf es (idOf x)) (levelOf es (idOf y)) * (esKet a.n es x ⬝ᵥ (leadOp a.n σ v)ᵀ *ᵥ esKet a.n es y) ^ 2) := by
  obtain ⟨gd', h1, h2, h3⟩ := C155_elements ha hw h junk egs cutoff
  rw [hgd] at h1
  obtain rfl := Except.ok.inj h1
  have hst : ∀ x : EigIdx a.n, IsState a.n (idOf x) := by
    rintro ⟨⟨u, d⟩, k⟩
    refine ⟨by simp [idOf], by simp only [idOf]; have := u.2; omega, by simp [idOf], by simp only [idOf]; have := d.2; omega, ?_⟩
    simpa [idOf] using k.2
  have hkeep : keepLevel a.n es egs cutoff (levelOf es (idOf x)) (levelOf es (idOf y)) ↔
      NearGround a.n es egs (idOf x) ∧ NearGround a.n es egs (idOf y) ∧ WithinCutoff es egs cutoff (idOf x) (idOf y) := Iff.rfl
  have hone : ∀ σ, ∀ x y : EigIdx a.n, oneMoreL σ (levelOf es (idOf x)) (levelOf es (idOf y)) ↔ OneMore σ (idOf x) (idOf y) := fun σ x y => Iff.rfl
  have hdot : ∀ σ, ∀ x y : EigIdx a.n, esKet a.n es x ⬝ᵥ leadOp a.n σ v *ᵥ esKet a.n es y = ∑ k : Fin a.n, (v[(k : ℕ)]?.getD 0) * addAmp a.n es σ (idOf x) (idOf y) k := by
    intro σ x y; rw [← idKet_idOf, ← idKet_idOf, leadOp_dot]
  have hdot' : ∀ σ, esKet a.n es x ⬝ᵥ (leadOp a.n σ v)ᵀ *ᵥ esKet a.n es y = ∑ k : Fin a.n, (v[(k : ℕ)]?.getD 0) * addAmp a.n es σ (idOf y) (idOf x) k := by
    intro σ
    rw [← hdot, dotProduct_mulVec, vecMul_transpose, dotProduct_comm]
  simp only [upG, dnG, hkeep, hone]
  unfold gam
  cases hg : dictGet gd (idOf x, idOf y) with
  | error e =>
    symm
    refine Finset.sum_eq_zero fun σ _ => ?_
    have hno : ¬ ∃ g, dictGet gd (idOf x, idOf y) = .ok g := by rintro ⟨g, hg'⟩; rw [hg] at hg'; cases hg'
    rw [h2] at hno
    rw [if_neg, if_neg]
    · ring
    · rintro ⟨⟨k1, k2, k3⟩, k4⟩; exact hno ⟨hst x, hst y, ⟨σ, .inr k4⟩, k1, k2, k3⟩
    · rintro ⟨⟨k1, k2, k3⟩, k4⟩; exact hno ⟨hst x, hst y, ⟨σ, .inl k4⟩, k1, k2, k3⟩
  | ok g =>
    obtain ⟨-, -, ⟨σ, hσ⟩, k1, k2, k3⟩ := (h2 _ _).mp ⟨g, hg⟩
    simp only
    rcases hσ with hσ | hσ
    · obtain ⟨c1, c2, s, hs, c3⟩ := (h3 _ _ g hg σ).1 hσ
      rw [Finset.sum_eq_single σ]
      · rw [if_pos ⟨⟨k1, k2, k3⟩, hσ⟩, if_neg (fun hh => oneMore_asymm hσ hh.2), zero_mul, add_zero, hdot]
        obtain ⟨z, hz⟩ := dotArr_len (v := g.v) (a := v) (by rw [c3, hv]; simp)
        obtain ⟨-, ez⟩ := dotArr_amp c3 hz
        unfold GfT.call
        rw [hz, c1, c2]
        simp only [bind, Except.bind, pure, Except.pure, if_true, Except.toOption, Option.getD_some, levelOf]
        rw [ez, mul_pow, hs]
        ring
      · intro τ _ hτ
        rw [if_neg (fun hh => hτ (oneMore_unique hh.2 hσ)), if_neg (fun hh => oneMore_asymm hσ hh.2)]
        ring
      · intro hh; exact absurd (Finset.mem_univ _) hh
    · obtain ⟨c1, c2, s, hs, c3⟩ := (h3 _ _ g hg σ).2 hσ
      rw [Finset.sum_eq_single σ]
      · rw [if_neg (fun hh => oneMore_asymm hσ hh.2), if_pos ⟨⟨k1, k2, k3⟩, hσ⟩, zero_mul, zero_add, hdot']
        obtain ⟨z, hz⟩ := dotArr_len (v := g.v) (a := v) (by rw [c3, hv]; simp)
        obtain ⟨-, ez⟩ := dotArr_amp c3 hz
        unfold GfT.call
        rw [hz, c1, c2]
        simp only [bind, Except.bind, pure, Except.pure, Except.toOption, Option.getD_some, levelOf]
        rw [ez, mul_pow, hs, if_neg (by simp)]
        ring
      · intro τ _ hτ
        rw [if_neg (fun hh => oneMore_asymm hσ hh.2), if_neg (fun hh => hτ (oneMore_unique hh.2 hσ))]
        ring
      · intro hh; exact absurd (Finset.mem_univ _) hh

/-- Sums over the rows of the matrices as sums over all states. -/
theorem rows_states {gd : GfDict} (hel : SqElems n es gd) (hc : Conjugate gd (idEnergy es)) (beta m : ℝ) (v : List ℝ) (ψ : TId → TId → ℝ) :
    ∑ f ∈ Finset.range (finalIds gd).length, ∑ i ∈ Finset.range (finalIds gd).length, sqFlow gd beta [m, m] [v, v] 0 (i, f) * ψ ((finalIds gd)[f]?.getD (0, 0, 0)) ((finalIds gd)[i]?.getD (0, 0, 0)) =
      ∑ x : EigIdx n, ∑ y : EigIdx n, gam gd beta m v (idOf x) (idOf y) * ψ (idOf x) (idOf y) := by
  have hmem : ∀ F I, gam gd beta m v F I ≠ 0 → F ∈ finalIds gd ∧ I ∈ finalIds gd := by
    intro F I hne
    unfold gam at hne
    cases hg : dictGet gd (F, I) with
    | error e => rw [hg] at hne; exact absurd rfl hne
    | ok g =>
      obtain ⟨g', hg', -⟩ := hc F I g hg
      exact ⟨by unfold finalIds; rw [mem_uniqueSorted]; exact List.mem_map.mpr ⟨_, dictGet_mem_of_ok hg, rfl⟩,
        by unfold finalIds; rw [mem_uniqueSorted]; exact List.mem_map.mpr ⟨_, dictGet_mem_of_ok hg', rfl⟩⟩
  have hrow : ∀ g : TId → ℝ, (∀ F, g F ≠ 0 → F ∈ finalIds gd) → ∑ f ∈ Finset.range (finalIds gd).length, g ((finalIds gd)[f]?.getD (0, 0, 0)) = ∑ x : EigIdx n, g (idOf x) := by
    intro g hg
    have e1 : ∑ f ∈ Finset.range (finalIds gd).length, g ((finalIds gd)[f]?.getD (0, 0, 0)) = ((finalIds gd).map g).sum := by
      rw [Finset.sum_range, ← Fin.sum_univ_getElem]
      refine Fintype.sum_equiv (finCongr (by simp)) _ _ fun k => ?_
      simp
    rw [e1, ← List.sum_toFinset _ (finalIds_nodup gd), ← Finset.sum_image (s := Finset.univ) (g := idOf) (f := g) (fun _ _ _ _ h => idOf_inj h)]
    refine Finset.sum_subset (fun F hF => ?_) (fun F _ hF => ?_)
    · obtain ⟨x, hx⟩ := idOf_surj (finalIds_state hel (List.mem_toFinset.mp hF))
      exact Finset.mem_image.mpr ⟨x, Finset.mem_univ _, hx⟩
    · by_contra h0
      exact hF (List.mem_toFinset.mpr (hg F h0))
  have e1 : ∀ f ∈ Finset.range (finalIds gd).length, ∑ i ∈ Finset.range (finalIds gd).length, sqFlow gd beta [m, m] [v, v] 0 (i, f) * ψ ((finalIds gd)[f]?.getD (0, 0, 0)) ((finalIds gd)[i]?.getD (0, 0, 0)) =
      ∑ y : EigIdx n, gam gd beta m v ((finalIds gd)[f]?.getD (0, 0, 0)) (idOf y) * ψ ((finalIds gd)[f]?.getD (0, 0, 0)) (idOf y) := by
    intro f hf
    rw [Finset.mem_range] at hf
    rw [← hrow (fun I => gam gd beta m v ((finalIds gd)[f]?.getD (0, 0, 0)) I * ψ ((finalIds gd)[f]?.getD (0, 0, 0)) I) (fun I hI => (hmem _ I (left_ne_zero_of_mul hI)).2)]
    refine Finset.sum_congr rfl fun i hi => ?_
    rw [Finset.mem_range] at hi
    rw [sqFlow_gam gd beta m m v v (by norm_num : 0 < 2) hi hf, if_pos rfl, if_pos rfl, List.getElem?_eq_getElem hf, List.getElem?_eq_getElem hi]
    rfl
  rw [Finset.sum_congr rfl e1]
  exact hrow (fun F => ∑ y : EigIdx n, gam gd beta m v F (idOf y) * ψ F (idOf y)) fun F hF => by
    obtain ⟨y, -, hy⟩ := Finset.exists_ne_zero_of_sum_ne_zero hF
    exact (hmem F _ (left_ne_zero_of_mul hy)).1

/-! ## Two runs -/

section
variable {a : HamArgs} {w w' : ℕ} {e0 e1 : WithTop ℝ} {junk' : ℕ} {egs : ℝ} {cutoff : Option ℝ} {gd gd1 : GfDict}

theorem ids_of_runs (ha : a.Valid) (hw : a.n ≤ w) (hw' : a.n ≤ w') (h : BuildEspace w a none (.ok (es, e0))) (h1 : BuildEspace w' a none (.ok (es1, e1)))
    (hgd : sqBuild junk a.n egs es cutoff = .ok gd) (hgd1 : sqBuild junk' a.n egs es1 cutoff = .ok gd1) : finalIds gd = finalIds gd1 := by
  have hv := sctAt_levels (C137_levels ha hw hw' h h1).1
  obtain ⟨gd', k1, k2, -⟩ := C155_elements ha hw h junk egs cutoff
  rw [hgd] at k1; obtain rfl := Except.ok.inj k1
  obtain ⟨gd', l1, l2, -⟩ := C155_elements ha hw' h1 junk' egs cutoff
  rw [hgd1] at l1; obtain rfl := Except.ok.inj l1
  have hgs : ∀ q, GroundSector es egs q ↔ GroundSector es1 egs q := fun q => by unfold GroundSector; rw [hv]
  have hng : ∀ id, NearGround a.n es egs id ↔ NearGround a.n es1 egs id := fun id => by unfold NearGround; simp only [hgs]
  have hwc : ∀ F I, WithinCutoff es egs cutoff F I ↔ WithinCutoff es1 egs cutoff F I := fun F I => by unfold WithinCutoff; simp only [idEnergy_levels hv]
  refine finalIds_unique ?_ (finalIds_nodup gd1) fun F => ?_
  · unfold finalIds uniqueSorted
    exact List.pairwise_mergeSort leId_trans leId_total _
  · unfold finalIds
    rw [mem_uniqueSorted]
    constructor
    · intro hF
      obtain ⟨p, hp, rfl⟩ := List.mem_map.mp hF
      have hk := (l2 p.1.1 p.1.2).mp (dictGet_of_key (List.mem_map_of_mem (f := Prod.fst) hp))
      rw [← hng, ← hng, ← hwc] at hk
      obtain ⟨g, hg⟩ := (k2 _ _).mpr hk
      exact ⟨_, g, hg⟩
    · rintro ⟨I, g, hg⟩
      have hk := (k2 F I).mp ⟨g, hg⟩
      rw [hng, hng, hwc] at hk
      obtain ⟨g', hg'⟩ := (l2 _ _).mpr hk
      exact List.mem_map.mpr ⟨_, dictGet_mem_of_ok hg', rfl⟩

theorem flow_of_runs (ha : a.Valid) (hw : a.n ≤ w) (hw' : a.n ≤ w') (h : BuildEspace w a none (.ok (es, e0))) (h1 : BuildEspace w' a none (.ok (es1, e1)))
    (hgd : sqBuild junk a.n egs es cutoff = .ok gd) (hgd1 : sqBuild junk' a.n egs es1 cutoff = .ok gd1) (beta m : ℝ) {v : List ℝ} (hl : v.length = a.n) (ψ : (ℤ × ℤ) × ℝ → (ℤ × ℤ) × ℝ → ℝ) :
    ∑ f ∈ Finset.range (finalIds gd).length, ∑ i ∈ Finset.range (finalIds gd).length, sqFlow gd beta [m, m] [v, v] 0 (i, f) * ψ (rowLevel es gd f) (rowLevel es gd i) =
      ∑ f ∈ Finset.range (finalIds gd1).length, ∑ i ∈ Finset.range (finalIds gd1).length, sqFlow gd1 beta [m, m] [v, v] 0 (i, f) * ψ (rowLevel es1 gd1 f) (rowLevel es1 gd1 i) := by
  have hv := sctAt_levels (C137_levels ha hw hw' h h1).1
  obtain ⟨hel, hc, -⟩ := sqElems_of_run ha hw h hgd
  obtain ⟨hel1, hc1, -⟩ := sqElems_of_run ha hw' h1 hgd1
  have hE := buildEspace_eigen ha hw h
  have hE1 := buildEspace_eigen ha hw' h1
  unfold rowLevel
  rw [rows_states hel hc beta m v fun F I => ψ (levelOf es F) (levelOf es I), rows_states hel1 hc1 beta m v fun F I => ψ (levelOf es1 F) (levelOf es1 I)]
  have hgs : ∀ q, GroundSector es1 egs q ↔ GroundSector es egs q := fun q => by unfold GroundSector; rw [hv]
  have hkeep : keepLevel a.n es1 egs cutoff = keepLevel a.n es egs cutoff := by
    funext k l; unfold keepLevel NearGround; simp only [hgs]
  have hup : upG a.n es1 egs cutoff = upG a.n es egs cutoff := by funext; unfold upG; rw [hkeep]
  have hdn : dnG a.n es1 egs cutoff = dnG a.n es egs cutoff := by funext; unfold dnG; rw [hkeep]
  simp only [gam_eq ha hw h hgd beta m hl, gam_eq ha hw' h1 hgd1 beta m hl, hup, hdn]
  have split : ∀ (e : Espace (ℕ × ℕ)) (x y : EigIdx a.n), (∑ σ : Bool,
      (upG a.n es egs cutoff beta m σ (levelOf e (idOf x)) (levelOf e (idOf y)) * (esKet a.n e x ⬝ᵥ leadOp a.n σ v *ᵥ esKet a.n e y) ^ 2 +
        dnG a.n es egs cutoff beta m σ (levelOf e (idOf x)) (levelOf e (idOf y)) * (esKet a.n e x ⬝ᵥ (leadOp a.n σ v)ᵀ *ᵥ esKet a.n e y) ^ 2)) * ψ (levelOf e (idOf x)) (levelOf e (idOf y)) =
      ∑ σ : Bool, ((fun k l => upG a.n es egs cutoff beta m σ k l * ψ k l) (levelOf e (idOf x)) (levelOf e (idOf y)) * (esKet a.n e x ⬝ᵥ leadOp a.n σ v *ᵥ esKet a.n e y) ^ 2 +
        (fun k l => dnG a.n es egs cutoff beta m σ k l * ψ k l) (levelOf e (idOf x)) (levelOf e (idOf y)) * (esKet a.n e x ⬝ᵥ (leadOp a.n σ v)ᵀ *ᵥ esKet a.n e y) ^ 2) := by
    intro e x y
    rw [Finset.sum_mul]
    exact Finset.sum_congr rfl fun σ _ => by ring
  simp only [split]
  have swap : ∀ f : Bool → EigIdx a.n → EigIdx a.n → ℝ, ∑ x, ∑ y, ∑ σ, f σ x y = ∑ σ, ∑ x, ∑ y, f σ x y := by
    intro f
    rw [Finset.sum_comm]
    conv_rhs => rw [Finset.sum_comm]
    conv_lhs => rw [Finset.sum_comm]
    refine Finset.sum_congr rfl fun x _ => Finset.sum_comm
  rw [swap, swap]
  refine Finset.sum_congr rfl fun σ _ => ?_
  simp only [Finset.sum_add_distrib]
  rw [level_sum2 (lev := fun x => levelOf es (idOf x)) (lev' := fun x => levelOf es1 (idOf x)) hE.basis hE1.basis (fun x y => level_overlap hE hE1 x y)
      (fun k l => upG a.n es egs cutoff beta m σ k l * ψ k l) (leadOp a.n σ v),
    level_sum2 (lev := fun x => levelOf es (idOf x)) (lev' := fun x => levelOf es1 (idOf x)) hE.basis hE1.basis (fun x y => level_overlap hE hE1 x y)
      (fun k l => dnG a.n es egs cutoff beta m σ k l * ψ k l) (leadOp a.n σ v)ᵀ]

theorem rate_psi (gd : GfDict) (beta m0 m1 : ℝ) (a0 a1 : List ℝ) (Ψ : ℕ → ℕ → ℝ) :
    ∑ f ∈ Finset.range (finalIds gd).length, ∑ i ∈ Finset.range (finalIds gd).length, sqRate gd beta [m0, m1] [a0, a1] f i * Ψ f i =
      (∑ f ∈ Finset.range (finalIds gd).length, ∑ i ∈ Finset.range (finalIds gd).length, sqFlow gd beta [m0, m0] [a0, a0] 0 (i, f) * (Ψ f i - Ψ i i)) +
      ∑ f ∈ Finset.range (finalIds gd).length, ∑ i ∈ Finset.range (finalIds gd).length, sqFlow gd beta [m1, m1] [a1, a1] 0 (i, f) * (Ψ f i - Ψ i i) := by
  rw [← Finset.sum_add_distrib]
  have hcons : ∑ f ∈ Finset.range (finalIds gd).length, ∑ i ∈ Finset.range (finalIds gd).length, sqRate gd beta [m0, m1] [a0, a1] f i * Ψ i i = 0 := by
    rw [Finset.sum_comm]
    refine Finset.sum_eq_zero fun i hi => ?_
    rw [← Finset.sum_mul, (C55_sequential gd beta [m0, m1] [a0, a1]).conserve i (Finset.mem_range.mp hi), zero_mul]
  rw [← sub_zero (∑ f ∈ _, _), ← hcons, ← Finset.sum_sub_distrib]
  refine Finset.sum_congr rfl fun f hf => ?_
  rw [← Finset.sum_sub_distrib, ← Finset.sum_add_distrib]
  refine Finset.sum_congr rfl fun i hi => ?_
  rw [Finset.mem_range] at hf hi
  by_cases hfi : f = i
  · subst hfi; ring
  · rw [sqRate_off gd beta _ _ hf hi hfi, sqFlow_gam gd beta m0 m1 a0 a1 (by norm_num : 0 < 2) hi hf, sqFlow_gam gd beta m0 m1 a0 a1 (by norm_num : 1 < 2) hi hf,
      sqFlow_gam gd beta m0 m0 a0 a0 (by norm_num : 0 < 2) hi hf, sqFlow_gam gd beta m1 m1 a1 a1 (by norm_num : 0 < 2) hi hf]
    simp
    ring

/-- **C167** Two runs of `build_espace` on the same arguments may differ in the eigenvectors of degenerate levels, and the rates between single states differ then (`C157_refuted`). The tables of
states are nevertheless the same, row by row with the same sector and energy, and the rates between levels are the same: any sum of rates, or of entries of a transition matrix, weighted by a function
of the levels of both states. So is the current of populations which depend on the level only. -/
theorem C167_levels (ha : a.Valid) (hw : a.n ≤ w) (hw' : a.n ≤ w') (h : BuildEspace w a none (.ok (es, e0))) (h1 : BuildEspace w' a none (.ok (es1, e1)))
    (hgd : sqBuild junk a.n egs es cutoff = .ok gd) (hgd1 : sqBuild junk' a.n egs es1 cutoff = .ok gd1) :
    finalIds gd = finalIds gd1 ∧ (∀ i, rowLevel es gd i = rowLevel es1 gd1 i) ∧
    (∀ beta m0 m1 v0 v1, v0.length = a.n → v1.length = a.n → ∀ ψ : (ℤ × ℤ) × ℝ → (ℤ × ℤ) × ℝ → ℝ,
      ∑ f ∈ Finset.range (finalIds gd).length, ∑ i ∈ Finset.range (finalIds gd).length, sqRate gd beta [m0, m1] [v0, v1] f i * ψ (rowLevel es gd f) (rowLevel es gd i) =
      ∑ f ∈ Finset.range (finalIds gd1).length, ∑ i ∈ Finset.range (finalIds gd1).length, sqRate gd1 beta [m0, m1] [v0, v1] f i * ψ (rowLevel es1 gd1 f) (rowLevel es1 gd1 i)) ∧
    (∀ beta m v, v.length = a.n → ∀ ψ : (ℤ × ℤ) × ℝ → (ℤ × ℤ) × ℝ → ℝ,
      ∑ f ∈ Finset.range (finalIds gd).length, ∑ i ∈ Finset.range (finalIds gd).length, sqTransition gd beta m v f i * ψ (rowLevel es gd f) (rowLevel es gd i) =
      ∑ f ∈ Finset.range (finalIds gd1).length, ∑ i ∈ Finset.range (finalIds gd1).length, sqTransition gd1 beta m v f i * ψ (rowLevel es1 gd1 f) (rowLevel es1 gd1 i)) ∧
    ∀ beta m v, v.length = a.n → ∀ p : (ℤ × ℤ) × ℝ → ℝ, leadCurrent gd beta m v (fun i => p (rowLevel es gd i)) = leadCurrent gd1 beta m v (fun i => p (rowLevel es1 gd1 i)) := by
  have hv := sctAt_levels (C137_levels ha hw hw' h h1).1
  have hids := ids_of_runs ha hw hw' h h1 hgd hgd1
  have htr : ∀ beta m v, v.length = a.n → ∀ ψ : (ℤ × ℤ) × ℝ → (ℤ × ℤ) × ℝ → ℝ,
      ∑ f ∈ Finset.range (finalIds gd).length, ∑ i ∈ Finset.range (finalIds gd).length, sqTransition gd beta m v f i * ψ (rowLevel es gd f) (rowLevel es gd i) =
      ∑ f ∈ Finset.range (finalIds gd1).length, ∑ i ∈ Finset.range (finalIds gd1).length, sqTransition gd1 beta m v f i * ψ (rowLevel es1 gd1 f) (rowLevel es1 gd1 i) := by
    intro beta m v hl ψ
    have key : ∀ {e : Espace (ℕ × ℕ)} {g : GfDict}, Conjugate g (idEnergy e) →
        ∑ f ∈ Finset.range (finalIds g).length, ∑ i ∈ Finset.range (finalIds g).length, sqTransition g beta m v f i * ψ (rowLevel e g f) (rowLevel e g i) =
        ∑ f ∈ Finset.range (finalIds g).length, ∑ i ∈ Finset.range (finalIds g).length, sqFlow g beta [m, m] [v, v] 0 (i, f) *
          (fun k l : (ℤ × ℤ) × ℝ => (((k.1.1 + k.1.2 : ℤ) : ℝ) - ((l.1.1 + l.1.2 : ℤ) : ℝ)) * ψ k l) (rowLevel e g f) (rowLevel e g i) := by
      intro e g hc
      refine Finset.sum_congr rfl fun f hf => Finset.sum_congr rfl fun i hi => ?_
      rw [Finset.mem_range] at hf hi
      have := sqTransition_flow hc beta m m v v (by norm_num : 0 < 2) hf hi
      rw [if_pos rfl, if_pos rfl] at this
      rw [this]
      have ec : ∀ (j : ℕ) (hj : j < (finalIds g).length), atId g idCharge j = (((rowLevel e g j).1.1 + (rowLevel e g j).1.2 : ℤ) : ℝ) := by
        intro j hj
        unfold atId rowLevel levelOf idCharge
        rw [dif_pos hj, List.getElem?_eq_getElem hj]
        rfl
      by_cases hfi : i = f
      · subst hfi; simp
      · rw [if_pos hfi, ec f hf, ec i hi]; ring
    rw [key (sqElems_of_run ha hw h hgd).2.1, key (sqElems_of_run ha hw' h1 hgd1).2.1]
    exact flow_of_runs ha hw hw' h h1 hgd hgd1 beta m hl fun k l : (ℤ × ℤ) × ℝ => (((k.1.1 + k.1.2 : ℤ) : ℝ) - ((l.1.1 + l.1.2 : ℤ) : ℝ)) * ψ k l
  refine ⟨hids, fun i => ?_, fun beta m0 m1 v0 v1 hl0 hl1 ψ => ?_, htr, fun beta m v hl p => htr beta m v hl fun _ l => p l⟩
  · unfold rowLevel levelOf
    rw [hids, idEnergy_levels hv]
  · rw [rate_psi gd beta m0 m1 v0 v1 fun f i => ψ (rowLevel es gd f) (rowLevel es gd i), rate_psi gd1 beta m0 m1 v0 v1 fun f i => ψ (rowLevel es1 gd1 f) (rowLevel es1 gd1 i)]
    rw [flow_of_runs ha hw hw' h h1 hgd hgd1 beta m0 hl0 fun k l => ψ k l - ψ l l, flow_of_runs ha hw hw' h h1 hgd hgd1 beta m1 hl1 fun k l => ψ k l - ψ l l]

end

/-- Non-vacuity: two different runs on the same arguments, with the rotated and the unrotated eigenvectors of two degenerate sites. -/
example : ∃ gd gd1, sqBuild 0 2 0 (tiltEspace false) none = .ok gd ∧ sqBuild 0 2 0 (tiltEspace true) none = .ok gd1 ∧ (finalIds gd).length = 5 ∧
    sqRate gd 1 [0, 0] [[1, 0], [0, 1]] 2 0 = sqRate gd1 1 [0, 0] [[1, 0], [0, 1]] 2 0 ∧
    sqFlow gd 1 [0, 0] [[1, 0], [0, 1]] 0 (0, 2) ≠ sqFlow gd1 1 [0, 0] [[1, 0], [0, 1]] 0 (0, 2) ∧
    leadCurrent gd 1 0 [1, 0] (fun i => Real.exp (-(rowLevel (tiltEspace false) gd i).2)) = leadCurrent gd1 1 0 [1, 0] (fun i => Real.exp (-(rowLevel (tiltEspace true) gd1 i).2)) := by
  obtain ⟨gd, h1, -⟩ := C155_elements tiltArgs_valid (w := 64) (by simp [tiltArgs]) (tilt_run false) 0 0 none
  obtain ⟨gd1, h2, -⟩ := C155_elements tiltArgs_valid (w := 64) (by simp [tiltArgs]) (tilt_run true) 0 0 none
  have h1' : sqBuild 0 2 0 (tiltEspace false) none = .ok gd := h1
  have h2' : sqBuild 0 2 0 (tiltEspace true) none = .ok gd1 := h2
  obtain ⟨i1, g1⟩ := tilt_gamma false h1'
  obtain ⟨i2, g2⟩ := tilt_gamma true h2'
  have hq : √(1 / 2 : ℝ) ^ 2 = 1 / 2 := Real.sq_sqrt (by norm_num)
  have fl : ∀ (rot : Bool) (g : GfDict), finalIds g = tiltStates → (∀ beta m0 m1 : ℝ, ∀ lead < 2, ∀ F ∈ tiltStates, ∀ I ∈ tiltStates,
      (sqGamma g beta [m0, m1] [[1, 0], [0, 1]] lead F I).getD 0 =
        if I = (0, 0, 0) ∧ F ≠ (0, 0, 0) then tiltVec rot F.2.2 lead ^ 2 * fermi (1 - tiltMu m0 m1 lead) beta
        else if F = (0, 0, 0) ∧ I ≠ (0, 0, 0) then tiltVec rot I.2.2 lead ^ 2 * fermi (-1 + tiltMu m0 m1 lead) beta else 0) →
      ∀ lead < 2, sqFlow g 1 [0, 0] [[1, 0], [0, 1]] lead (0, 2) = tiltVec rot 1 lead ^ 2 * fermi (1 - tiltMu 0 0 lead) 1 := by
    intro rot g hi hg lead hl
    have := hg 1 0 0 lead hl (0, 1, 1) (by decide) (0, 0, 0) (by decide)
    rw [if_pos (by decide)] at this
    unfold sqFlow
    rw [hi]
    exact this
  refine ⟨gd, gd1, h1', h2', by rw [i1]; rfl, ?_, ?_, ?_⟩
  · rw [sqRate_off gd _ _ _ (by rw [i1]; decide) (by rw [i1]; decide) (by decide), sqRate_off gd1 _ _ _ (by rw [i2]; decide) (by rw [i2]; decide) (by decide),
      fl false gd i1 g1 0 (by norm_num), fl false gd i1 g1 1 (by norm_num), fl true gd1 i2 g2 0 (by norm_num), fl true gd1 i2 g2 1 (by norm_num)]
    simp [tiltVec, tiltMu]
    ring
  · rw [fl false gd i1 g1 0 (by norm_num), fl true gd1 i2 g2 0 (by norm_num)]
    have := fermi_pos (1 - tiltMu 0 0 0) 1
    simp [tiltVec]
    exact this.ne'
  · exact (C167_levels tiltArgs_valid (w := 64) (w' := 64) (by simp [tiltArgs]) (by simp [tiltArgs]) (tilt_run false) (tilt_run true) h1 h2).2.2.2.2 1 0 [1, 0] rfl fun k => Real.exp (-k.2)

end Edpyt
