import Verif.Props.Blockade
import Verif.Props.EigChoice
import Verif.Props.Filling
/-!
Property C157: sequential rates and currents against the choice of the eigenvectors.
-/
namespace Edpyt
open Spec Matrix

variable {n junk : ℕ} {es es1 : Espace (ℕ × ℕ)}

/-! ## Eigenvectors of simple levels -/

theorem sector_perp {H : Matrix (Finset (Fin (n + n))) (Finset (Fin (n + n))) ℝ} (h : EigenEspace n H es) (h1 : EigenEspace n H es1) {x y : EigIdx n} (hxy : x.1 ≠ y.1) :
    esKet n es x ⬝ᵥ esKet n es1 y = 0 := by
  obtain ⟨⟨u, d⟩, k⟩ := x
  obtain ⟨⟨u', d'⟩, k'⟩ := y
  obtain ⟨up, dw, -, -, hok, -⟩ := h.toCompleteEspace.at (u := u) (d := d) (by have := u.2; omega) (by have := d.2; omega)
  obtain ⟨up', dw', -, -, hok', -⟩ := h1.toCompleteEspace.at (u := u') (d := d') (by have := u'.2; omega) (by have := d'.2; omega)
  simp only [esKet, hok.ket_eq, hok'.ket_eq]
  have := grade_one.elem_zero hok'.hup hok'.hdw hok.hup hok.hdw ((sctAt es1 (u', d')).eigvecs[(k' : ℕ)]?.getD 0)
    ((sctAt es (u, d)).eigvecs[(k : ℕ)]?.getD 0) (by
      rintro ⟨h1, h2⟩
      simp only [Pi.zero_apply, add_zero] at h1 h2
      exact hxy (Prod.ext (Fin.ext (by exact_mod_cast h1)) (Fin.ext (by exact_mod_cast h2))))
  rwa [Matrix.one_mulVec] at this

theorem simple_sign {H : Matrix (Finset (Fin (n + n))) (Finset (Fin (n + n))) ℝ} (h : EigenEspace n H es) (h1 : EigenEspace n H es1)
    (hv : ∀ q, (sctAt es q).eigvals = (sctAt es1 q).eigvals) (hnd : ∀ p ∈ es, p.2.eigvals.Nodup) (x : EigIdx n) :
    ∃ s : ℝ, s ^ 2 = 1 ∧ esKet n es1 x = s • esKet n es x := by
  have hB := h.basis
  have hB1 := h1.basis
  have hz : ∀ y, y ≠ x → esKet n es y ⬝ᵥ esKet n es1 x = 0 := by
    intro y hy
    by_cases hq : y.1 = x.1
    · have hp := EigBasis.perp hB.symm hB hB1 y x id
      simp only [id] at hp
      have hne : esVal n es y ≠ esVal n es1 x := by
        obtain ⟨q, k⟩ := x
        obtain ⟨q', k'⟩ := y
        simp only at hq
        subst hq
        unfold esVal
        rw [← hv]
        obtain ⟨up, dw, hm, -, -, -, -, hlen⟩ := h.toCompleteEspace.at (u := q'.1) (d := q'.2) (by have := q'.1.2; omega) (by have := q'.2.2; omega)
        have hk : (k : ℕ) < (sctAt es (q'.1, q'.2)).eigvals.length := hlen.symm ▸ k.2
        have hk' : (k' : ℕ) < (sctAt es (q'.1, q'.2)).eigvals.length := hlen.symm ▸ k'.2
        simp only
        rw [List.getElem?_eq_getElem hk, List.getElem?_eq_getElem hk', Option.getD_some, Option.getD_some]
        intro he
        have := (List.Nodup.getElem_inj_iff (hnd _ hm)).mp he
        exact hy (by rw [Fin.ext this])
      by_contra h0
      exact hne (mul_right_cancel₀ h0 hp)
    · exact sector_perp h h1 hq
  have he := hB.expand (esKet n es1 x)
  rw [Finset.sum_eq_single x (fun y _ hy => by rw [hz y hy, zero_smul]) (fun hh => absurd (Finset.mem_univ _) hh)] at he
  refine ⟨esKet n es x ⬝ᵥ esKet n es1 x, ?_, he.symm⟩
  have h2 := hB1.orth x x
  rw [if_pos rfl, ← he, smul_dotProduct, dotProduct_smul, hB.orth, if_pos rfl] at h2
  simp only [smul_eq_mul] at h2
  nlinarith

theorem sctAt_levels (hmap : es.map (fun p => (p.1, p.2.eigvals)) = es1.map (fun p => (p.1, p.2.eigvals))) (q : ℕ × ℕ) :
    (sctAt es q).eigvals = (sctAt es1 q).eigvals := by
  induction es generalizing es1 with
  | nil =>
    cases es1 with
    | nil => rfl
    | cons p l => simp at hmap
  | cons p l ih =>
    cases es1 with
    | nil => simp at hmap
    | cons p1 l1 =>
      simp only [List.map_cons, List.cons.injEq, Prod.mk.injEq] at hmap
      have := ih hmap.2
      unfold sctAt at this ⊢
      rw [dictGet_cons, dictGet_cons, ← hmap.1.1]
      by_cases hq : p.1 = q
      · simp [hq, hmap.1.2]
      · simpa [hq] using this

theorem simple_ket {a : HamArgs} (ha : a.Valid) {w w' : ℕ} (hw : a.n ≤ w) (hw' : a.n ≤ w') {e0 e1 : WithTop ℝ} (h : BuildEspace w a none (.ok (es, e0)))
    (h1 : BuildEspace w' a none (.ok (es1, e1))) (hnd : ∀ p ∈ es, p.2.eigvals.Nodup) {id : TId} (hid : IsState a.n id) :
    ∃ s : ℝ, s ^ 2 = 1 ∧ idKet a.n es1 id = s • idKet a.n es id := by
  obtain ⟨x, rfl⟩ := idOf_surj hid
  rw [idKet_idOf, idKet_idOf]
  exact simple_sign (buildEspace_eigen ha hw h) (buildEspace_eigen ha hw' h1) (sctAt_levels (C137_levels ha hw hw' h h1).1) hnd x

/-! ## Order of the states -/

theorem leId_trans (a b c : TId) (h : leId a b = true) (h' : leId b c = true) : leId a c = true := by
  unfold leId at *
  rw [decide_eq_true_eq] at *
  omega
theorem leId_total (a b : TId) : (leId a b || leId b a) = true := by
  unfold leId
  rw [Bool.or_eq_true, decide_eq_true_eq, decide_eq_true_eq]
  omega
theorem leId_antisymm (a b : TId) (h : leId a b = true) (h' : leId b a = true) : a = b := by
  unfold leId at *
  rw [decide_eq_true_eq] at *
  obtain ⟨a1, a2, a3⟩ := a
  obtain ⟨b1, b2, b3⟩ := b
  simp only [Prod.mk.injEq] at *
  omega

/-- An ordered list with the right states is the list of states of the code. -/
theorem finalIds_unique {gd : GfDict} {l : List TId} (hs : l.Pairwise fun a b => leId a b = true) (hn : l.Nodup)
    (hm : ∀ F, F ∈ l ↔ ∃ I g, dictGet gd (F, I) = .ok g) : finalIds gd = l := by
  have hmem : ∀ F, F ∈ finalIds gd ↔ F ∈ l := by
    intro F
    rw [hm]
    unfold finalIds
    rw [mem_uniqueSorted]
    constructor
    · intro h
      obtain ⟨p, hp, rfl⟩ := List.mem_map.mp h
      obtain ⟨g, hg⟩ := dictGet_of_key (List.mem_map_of_mem (f := Prod.fst) hp)
      exact ⟨p.1.2, g, hg⟩
    · rintro ⟨I, g, hg⟩
      exact List.mem_map.mpr ⟨_, dictGet_mem_of_ok hg, rfl⟩
  have hperm : (finalIds gd).Perm l := (List.perm_ext_iff_of_nodup (finalIds_nodup gd) hn).mpr hmem
  have hsort : (finalIds gd).Pairwise fun a b => leId a b = true := by
    unfold finalIds uniqueSorted
    exact List.pairwise_mergeSort leId_trans leId_total _
  exact hperm.eq_of_pairwise (fun a b _ _ h h' => leId_antisymm a b h h') hsort hs

/-! ## Rates -/

/-- Two dictionaries with the same transitions up to signs. -/
def SameUpToSign (gd gd1 : GfDict) : Prop := ∀ F I, (∃ e e', dictGet gd (F, I) = .error e ∧ dictGet gd1 (F, I) = .error e') ∨
  ∃ g g1 s, dictGet gd (F, I) = .ok g ∧ dictGet gd1 (F, I) = .ok g1 ∧ s ^ 2 = (1 : ℝ) ∧ g1.el = g.el ∧ g1.E = g.E ∧ g1.v = g.v.map (s * ·)

theorem dotArr_smul (v a : List ℝ) (s : ℝ) : dotArr (v.map (s * ·)) a = (dotArr v a).map (s * ·) := by
  unfold dotArr
  rw [List.length_map]
  split
  · rw [Except.map]
    congr 1
    clear * -
    induction v generalizing a with
    | nil => simp
    | cons x v ih =>
      cases a with
      | nil => simp
      | cons y a => simp only [List.map_cons, List.zipWith_cons_cons, List.sum_cons, ih, mul_add, mul_assoc]
  · rfl

theorem call_sign {g g1 : GfT} {s : ℝ} (hs : s ^ 2 = 1) (h1 : g1.el = g.el) (h2 : g1.E = g.E) (h3 : g1.v = g.v.map (s * ·)) (a : List ℝ) (beta mu : ℝ) :
    g1.call a beta mu = g.call a beta mu := by
  unfold GfT.call
  rw [h1, h2, h3, dotArr_smul]
  cases dotArr g.v a with
  | error e => rfl
  | ok y =>
    simp only [Except.map, bind, Except.bind, pure, Except.pure, mul_pow, hs, one_mul]

theorem SameUpToSign.ids {gd gd1 : GfDict} (h : SameUpToSign gd gd1) : finalIds gd = finalIds gd1 := by
  refine finalIds_unique ?_ (finalIds_nodup gd1) fun F => ?_
  · unfold finalIds uniqueSorted
    exact List.pairwise_mergeSort leId_trans leId_total _
  · unfold finalIds
    rw [mem_uniqueSorted]
    constructor
    · intro hF
      obtain ⟨p, hp, rfl⟩ := List.mem_map.mp hF
      obtain ⟨g, hg⟩ := dictGet_of_key (List.mem_map_of_mem (f := Prod.fst) hp)
      rcases h p.1.1 p.1.2 with ⟨e, e', -, h2⟩ | ⟨g, g1, s, h1, -⟩
      · have : dictGet gd1 p.1 = .error e' := h2
        rw [this] at hg; cases hg
      · exact ⟨_, g, h1⟩
    · rintro ⟨I, g, hg⟩
      rcases h F I with ⟨e, e', h1, -⟩ | ⟨g, g1, s, -, h2, -⟩
      · rw [h1] at hg; cases hg
      · exact List.mem_map.mpr ⟨_, dictGet_mem_of_ok h2, rfl⟩

theorem SameUpToSign.gamma {gd gd1 : GfDict} (h : SameUpToSign gd gd1) (beta : ℝ) (mu : List ℝ) (A : List (List ℝ)) (lead : ℕ) (F I : TId) :
    sqGamma gd beta mu A lead F I = sqGamma gd1 beta mu A lead F I := by
  unfold sqGamma
  rcases h F I with ⟨e, e', h1, h2⟩ | ⟨g, g1, s, h1, h2, hs, h3, h4, h5⟩
  · rw [h1, h2]; rfl
  · rw [h1, h2]
    simp only [bind, Except.bind, call_sign hs h3 h4 h5]

theorem SameUpToSign.rate {gd gd1 : GfDict} (h : SameUpToSign gd gd1) (beta : ℝ) (mu : List ℝ) (A : List (List ℝ)) : sqRate gd beta mu A = sqRate gd1 beta mu A := by
  rw [sqRate_eq, sqRate_eq, h.ids]
  have hf : ∀ lead, sqFlow gd beta mu A lead = sqFlow gd1 beta mu A lead := by
    intro lead; funext p
    unfold sqFlow
    rw [h.ids]
    simp only [h.gamma]
  rw [hf, hf]

theorem SameUpToSign.transition {gd gd1 : GfDict} (h : SameUpToSign gd gd1) (beta mu : ℝ) (a : List ℝ) : sqTransition gd beta mu a = sqTransition gd1 beta mu a := by
  funext f i
  unfold sqTransition
  rw [h.ids]
  simp only
  split
  · split
    · rename_i F I _ _
      rcases h F I with ⟨e, e', h1, h2⟩ | ⟨g, g1, s, h1, h2, hs, h3, h4, h5⟩
      · rw [h1, h2]
      · rw [h1, h2]
        simp only [call_sign hs h3 h4 h5, h3]
    · rfl
  · rfl

theorem idEnergy_levels (hv : ∀ q, (sctAt es q).eigvals = (sctAt es1 q).eigvals) (id : TId) : idEnergy es id = idEnergy es1 id := by
  unfold idEnergy espaceGet
  by_cases hp : 0 ≤ id.1 ∧ 0 ≤ id.2.1
  · rw [if_pos hp, if_pos hp]
    have h := hv (id.1.toNat, id.2.1.toNat)
    unfold sctAt at h
    cases h1 : dictGet es (id.1.toNat, id.2.1.toNat) with
    | error e =>
      cases h2 : dictGet es1 (id.1.toNat, id.2.1.toNat) with
      | error e' => rfl
      | ok s => rw [h1, h2] at h; simp only at h; simp [← h]
    | ok s =>
      cases h2 : dictGet es1 (id.1.toNat, id.2.1.toNat) with
      | error e' => rw [h1, h2] at h; simp only at h; simp [h]
      | ok s' => rw [h1, h2] at h; simp only at h; simp [h]
  · rw [if_neg hp, if_neg hp]

theorem addAmp_sign {F I : TId} {s t : ℝ} (hF : idKet n es1 F = s • idKet n es F) (hI : idKet n es1 I = t • idKet n es I) (σ : Bool) (k : ℕ) :
    addAmp n es1 σ F I k = s * t * addAmp n es σ F I k := by
  unfold addAmp
  split
  · rw [hF, hI, mulVec_smul, dotProduct_smul, smul_dotProduct]; simp only [smul_eq_mul]; ring
  · simp

theorem same_of_runs {a : HamArgs} (ha : a.Valid) {w w' : ℕ} (hw : a.n ≤ w) (hw' : a.n ≤ w') {e0 e1 : WithTop ℝ} (h : BuildEspace w a none (.ok (es, e0)))
    (h1 : BuildEspace w' a none (.ok (es1, e1))) (hnd : ∀ p ∈ es, p.2.eigvals.Nodup) {junk junk' : ℕ} {egs : ℝ} {cutoff : Option ℝ} {gd gd1 : GfDict}
    (hgd : sqBuild junk a.n egs es cutoff = .ok gd) (hgd1 : sqBuild junk' a.n egs es1 cutoff = .ok gd1) : SameUpToSign gd gd1 := by
  have hv := sctAt_levels (C137_levels ha hw hw' h h1).1
  obtain ⟨gd', k1, k2, k3⟩ := C155_elements ha hw h junk egs cutoff
  rw [hgd] at k1; obtain rfl := Except.ok.inj k1
  obtain ⟨gd', l1, l2, l3⟩ := C155_elements ha hw' h1 junk' egs cutoff
  rw [hgd1] at l1; obtain rfl := Except.ok.inj l1
  have hgs : ∀ q, GroundSector es egs q ↔ GroundSector es1 egs q := fun q => by unfold GroundSector; rw [hv]
  have hng : ∀ id, NearGround a.n es egs id ↔ NearGround a.n es1 egs id := fun id => by unfold NearGround; simp only [hgs]
  have hwc : ∀ F I, WithinCutoff es egs cutoff F I ↔ WithinCutoff es1 egs cutoff F I := fun F I => by unfold WithinCutoff; simp only [idEnergy_levels hv]
  intro F I
  cases hg : dictGet gd (F, I) with
  | error e =>
    cases hg1 : dictGet gd1 (F, I) with
    | error e' => exact .inl ⟨e, e', rfl, rfl⟩
    | ok g1 =>
      have := (l2 F I).mp ⟨g1, hg1⟩
      rw [← hng, ← hng, ← hwc, ← k2, hg] at this
      obtain ⟨g, hh⟩ := this; cases hh
  | ok g =>
    have hm := (k2 F I).mp ⟨g, hg⟩
    have hm' := hm
    obtain ⟨hF, hI, ⟨σ, hσ⟩, -⟩ := hm'
    rw [hng, hng, hwc, ← l2] at hm
    obtain ⟨g1, hg1⟩ := hm
    obtain ⟨s, hs, es⟩ := simple_ket ha hw hw' h h1 hnd hF
    obtain ⟨t, ht, et⟩ := simple_ket ha hw hw' h h1 hnd hI
    rcases hσ with hσ | hσ
    · obtain ⟨c1, c2, x, hx, c3⟩ := (k3 F I g hg σ).1 hσ
      obtain ⟨d1, d2, y, hy, d3⟩ := (l3 F I g1 hg1 σ).1 hσ
      refine .inr ⟨g, g1, x * y * (s * t), rfl, hg1, by rw [mul_pow, mul_pow, mul_pow, hx, hy, hs, ht]; norm_num, by rw [c1, d1], by rw [c2, d2, idEnergy_levels hv, idEnergy_levels hv], ?_⟩
      rw [c3, d3, List.map_map]
      refine List.map_congr_left fun k _ => ?_
      simp only [Function.comp_apply, addAmp_sign es et]
      linear_combination (-(y * s * t * addAmp a.n _ σ F I k)) * hx
    · obtain ⟨c1, c2, x, hx, c3⟩ := (k3 F I g hg σ).2 hσ
      obtain ⟨d1, d2, y, hy, d3⟩ := (l3 F I g1 hg1 σ).2 hσ
      refine .inr ⟨g, g1, x * y * (s * t), rfl, hg1, by rw [mul_pow, mul_pow, mul_pow, hx, hy, hs, ht]; norm_num, by rw [c1, d1], by rw [c2, d2, idEnergy_levels hv, idEnergy_levels hv], ?_⟩
      rw [c3, d3, List.map_map]
      refine List.map_congr_left fun k _ => ?_
      simp only [Function.comp_apply, addAmp_sign et es]
      linear_combination (-(y * s * t * addAmp a.n _ σ I F k)) * hx

/-- **C157** (what holds) Two runs of `build_espace` on the same arguments, whose sectors have no degenerate level, give dictionaries of transitions with the same states in the same order, the same
rate matrices and the same transition matrices, for all temperatures, chemical potentials and couplings. Missing: degenerate levels, where it is false (`C157_refuted`). -/
theorem C157_rates_partial {a : HamArgs} (ha : a.Valid) {w w' : ℕ} (hw : a.n ≤ w) (hw' : a.n ≤ w') {e0 e1 : WithTop ℝ} (h : BuildEspace w a none (.ok (es, e0)))
    (h1 : BuildEspace w' a none (.ok (es1, e1))) (hnd : ∀ p ∈ es, p.2.eigvals.Nodup) {junk junk' : ℕ} {egs : ℝ} {cutoff : Option ℝ} {gd gd1 : GfDict}
    (hgd : sqBuild junk a.n egs es cutoff = .ok gd) (hgd1 : sqBuild junk' a.n egs es1 cutoff = .ok gd1) :
    finalIds gd = finalIds gd1 ∧ (∀ beta mu A, sqRate gd beta mu A = sqRate gd1 beta mu A) ∧ (∀ beta mu v, sqTransition gd beta mu v = sqTransition gd1 beta mu v) ∧
      ∀ beta mu v p, leadCurrent gd beta mu v p = leadCurrent gd1 beta mu v p := by
  have hs := same_of_runs ha hw hw' h h1 hnd hgd hgd1
  exact ⟨hs.ids, hs.rate, hs.transition, fun beta mu v p => by unfold leadCurrent; rw [hs.ids, hs.transition]⟩


/-! ## Runs with given eigenvectors -/

/-- The espace with the eigenpairs `ch`. -/
def chosenEspace (w n : ℕ) (ch : ℕ × ℕ → EigRes) : Espace (ℕ × ℕ) := (ndindex2 (n + 1) (n + 1)).map fun q =>
  (q, ⟨.spin (gs w n q.1) (gs w n q.2), (gs w n q.1).length * (gs w n q.2).length, (ch q).1, (ch q).2⟩)

theorem forR_chosen {a : HamArgs} {w : ℕ} {ch : ℕ × ℕ → EigRes} {l : List ℕ} (L : List (ℕ × ℕ)) (hL : L.Nodup)
    (hstep : ∀ q ∈ L, ∃ k, getItem l (q.1 * (a.n + 1) + q.2 : ℕ) = .ok (k + 1) ∧
      SolveSector a (.spin (gs w a.n q.1) (gs w a.n q.2)) ((gs w a.n q.1).length * (gs w a.n q.2).length) (some (k + 1)) (.ok (ch q)) ∧ (ch q).1.length ≠ 0) :
    ∀ (st : Espace (ℕ × ℕ) × WithTop ℝ), (∀ q ∈ L, q ∉ st.1.map Prod.fst) →
    ForR (EspaceStep a (fun q => q.1 * (a.n + 1) + q.2) l) (L.map (szItem w a.n)) st
      (.ok (st.1 ++ L.map (fun q => (q, ⟨.spin (gs w a.n q.1) (gs w a.n q.2), (gs w a.n q.1).length * (gs w a.n q.2).length, (ch q).1, (ch q).2⟩)),
        L.foldl (fun e q => min (eigMin (ch q).1) e) st.2)) := by
  induction L with
  | nil => intro st _; simp [ForR]
  | cons q L ih =>
    intro st hst
    obtain ⟨k, h1, h2, h3⟩ := hstep q (List.mem_cons_self ..)
    rw [List.map_cons]
    refine Or.inl ⟨(dictSet st.1 q ⟨.spin (gs w a.n q.1) (gs w a.n q.2), (gs w a.n q.1).length * (gs w a.n q.2).length, (ch q).1, (ch q).2⟩, min (eigMin (ch q).1) st.2), ?_, ?_⟩
    · unfold EspaceStep
      simp only [szItem, h1]
      exact Or.inr ⟨(ch q).1, (ch q).2, h2, by rw [if_neg h3]⟩
    · have hq : q ∉ st.1.map Prod.fst := hst q (List.mem_cons_self ..)
      have := ih (List.nodup_cons.mp hL).2 (fun q' hq' => hstep q' (List.mem_cons_of_mem _ hq'))
        (dictSet st.1 q ⟨.spin (gs w a.n q.1) (gs w a.n q.2), (gs w a.n q.1).length * (gs w a.n q.2).length, (ch q).1, (ch q).2⟩, min (eigMin (ch q).1) st.2) (by
          intro q' hq'
          have h4 := hst q' (List.mem_cons_of_mem _ hq')
          have h5 : q' ≠ q := fun h => (List.nodup_cons.mp hL).1 (h ▸ hq')
          unfold dictSet
          rw [if_neg hq, List.map_append, List.mem_append]
          simp [h4, h5])
      rw [List.map_cons, List.foldl_cons]
      have e : dictSet st.1 q ⟨.spin (gs w a.n q.1) (gs w a.n q.2), (gs w a.n q.1).length * (gs w a.n q.2).length, (ch q).1, (ch q).2⟩ =
          st.1 ++ [(q, ⟨.spin (gs w a.n q.1) (gs w a.n q.2), (gs w a.n q.1).length * (gs w a.n q.2).length, (ch q).1, (ch q).2⟩)] := by
        unfold dictSet; rw [if_neg hq]
      rw [e] at this ⊢
      rw [List.append_assoc] at this
      exact this

/-- Every choice of eigenvectors that `eigh` may return is a run of `build_espace`. -/
theorem chosen_run {a : HamArgs} (ha : a.Valid) {w : ℕ} (hw : a.n ≤ w) {ch : ℕ × ℕ → EigRes}
    (hch : ∀ q ∈ ndindex2 (a.n + 1) (a.n + 1), ∀ D, IsSectorHam a (gs w a.n q.1) (gs w a.n q.2) D → Eigh D (ch q).1 (ch q).2) :
    BuildEspace w a none (.ok (chosenEspace w a.n ch, (ndindex2 (a.n + 1) (a.n + 1)).foldl (fun e q => min (eigMin (ch q).1) e) ⊤)) := by
  have hl : neigOrDefault a.n none .sz = .ok ((ndindex2 (a.n + 1) (a.n + 1)).map fun p => a.n.choose p.1 * a.n.choose p.2) := by
    simp only [neigOrDefault]; rw [getEspaceDim_sz]; simp [clipDim]
  unfold BuildEspace
  rw [hl]
  simp only [szIterSectors_eq, EspaceLoop]
  have := forR_chosen (a := a) (w := w) (ch := ch) (l := (ndindex2 (a.n + 1) (a.n + 1)).map fun p => a.n.choose p.1 * a.n.choose p.2) (ndindex2 (a.n + 1) (a.n + 1)) (nodup_ndindex2 _ _) (by
    intro q hq
    obtain ⟨b1, b2⟩ := mem_ndindex2.mp hq
    have g1 := generateStates_gs (w := w) (n := a.n) (p := q.1) (by omega)
    have g2 := generateStates_gs (w := w) (n := a.n) (p := q.2) (by omega)
    have su := sectorList_of_generate ha.le hw (by omega) g1
    have sd := sectorList_of_generate ha.le hw (by omega) g2
    obtain ⟨ops, hb⟩ := build_exists ha hw (by omega) (by omega) g1 g2
    obtain ⟨D, hD, hs⟩ := build_todense ha hw (by omega) (by omega) g1 g2 hb
    have he := hch q hq D hs
    have hpos : 0 < a.n.choose q.1 * a.n.choose q.2 := by
      have := Nat.choose_pos (show q.1 ≤ a.n by omega)
      have := Nat.choose_pos (show q.2 ≤ a.n by omega)
      positivity
    obtain ⟨k, hk⟩ := Nat.exists_eq_succ_of_ne_zero hpos.ne'
    have hlen : (gs w a.n q.1).length * (gs w a.n q.2).length = k + 1 := by rw [su.len, sd.len, hk]
    refine ⟨k, ?_, ?_, ?_⟩
    · have hlt : q.1 * (a.n + 1) + q.2 < (ndindex2 (a.n + 1) (a.n + 1)).length := by
        rw [length_ndindex2]
        calc q.1 * (a.n + 1) + q.2 < (q.1 + 1) * (a.n + 1) := by rw [Nat.succ_mul]; omega
          _ ≤ _ := Nat.mul_le_mul_right _ (by omega)
      have hdm := divmod_split (n := a.n + 1) (b := q.1) (i := q.2) (by omega)
      rw [getItem_natCast _ _ (by simpa using hlt)]
      simp only [List.getElem_map, getElem_ndindex2, hdm.1, hdm.2]
      rw [hk]
    · simp only [SolveSector, Option.getD_some]
      rw [if_pos (Or.inl hlen.symm)]
      refine ⟨.ok (ch q), Or.inr ⟨ops, hb, Or.inr ⟨D, _, _, hD, he, rfl⟩⟩, ?_⟩
      rw [hlen]
      simp [Except.map]
    · rw [he.wlen, hs.size, hlen]; omega) ([], ⊤) (by simp)
  rw [List.nil_append] at this
  exact this

theorem chosen_get {w n : ℕ} {ch : ℕ × ℕ → EigRes} {q : ℕ × ℕ} (h1 : q.1 ≤ n) (h2 : q.2 ≤ n) :
    sctAt (chosenEspace w n ch) q = ⟨.spin (gs w n q.1) (gs w n q.2), (gs w n q.1).length * (gs w n q.2).length, (ch q).1, (ch q).2⟩ := by
  refine sctAt_eq (dictGet_mem ?_ (List.mem_map.mpr ⟨q, mem_ndindex2.mpr (by omega), rfl⟩))
  unfold chosenEspace
  rw [List.map_map]
  exact (List.map_id' _).symm ▸ nodup_ndindex2 _ _


/-! ## Two uncoupled sites, one at each lead -/

/-- Two uncoupled sites at energy 1. -/
def tiltArgs : HamArgs := ⟨2, fun _ _ _ => 0, .array fun _ _ => 0, none, false, 1⟩

theorem tiltArgs_valid : tiltArgs.Valid := by
  refine ⟨le_refl 2, by simp [tiltArgs], rfl, ?_, by simp [tiltArgs, VArg.array], by simp [tiltArgs, VArg.array], by simp [tiltArgs, VArg.array]⟩
  intro s i j _ _
  simp only [tiltArgs]

theorem tilt_ham : tiltArgs.ham = Matrix.diagonal (numE (n := 2)) := by
  have h := hamH_mu flatArgs 1
  rw [flat_ham] at h
  have h2 : flatArgs.mu = 0 := rfl
  rw [h2] at h
  have h3 : tiltArgs.ham = flatArgs.hamH flatArgs.H 1 := rfl
  rw [h3, h]
  simp
  rfl

theorem tilt_dense {p q : ℕ} (hp : p ≤ 2) (hq : q ≤ 2) {D : Dense ℝ} (h : IsSectorHam tiltArgs (gs 64 2 p) (gs 64 2 q) D) {r c : ℕ} (hr : r < D.size) (hc : c < D.size) :
    D.val r c = if r = c then ((p + q : ℕ) : ℝ) else 0 := by
  have su := sectorList_of_generate (n := 2) (by norm_num) (show 2 ≤ 64 by norm_num) hp (generateStates_gs (w := 64) (n := 2) (p := p) (by omega))
  have sd := sectorList_of_generate (n := 2) (by norm_num) (show 2 ≤ 64 by norm_num) hq (generateStates_gs (w := 64) (n := 2) (p := q) (by omega))
  rw [h.size] at hr hc
  set up := gs 64 2 p
  set dw := gs 64 2 q
  have hu : 0 < up.length := Nat.pos_of_ne_zero fun h0 => by rw [h0] at hr; simp at hr
  have r1 := Nat.mod_lt r hu
  have c1 := Nat.mod_lt c hu
  have r2 : r / up.length < dw.length := Nat.div_lt_of_lt_mul hr
  have c2 : c / up.length < dw.length := Nat.div_lt_of_lt_mul hc
  have hv := h.val _ _ _ _ r1 r2 c1 c2
  rw [Nat.mod_add_div, Nat.mod_add_div, tilt_ham] at hv
  rw [hv]
  have m1 := (su.mem _).mp (List.getElem_mem r1)
  have m2 := (sd.mem _).mp (List.getElem_mem r2)
  have m3 := (su.mem _).mp (List.getElem_mem c1)
  have m4 := (sd.mem _).mp (List.getElem_mem c2)
  by_cases hrc : r = c
  · subst hrc
    rw [if_pos rfl]
    refine (Matrix.diagonal_apply_eq _ _).trans ?_
    have e := numE_eq (n := 2) (occ2 2 up[r % up.length] dw[r / up.length])
    refine e.trans ?_
    have b1 := upPart_occ2 (n := 2) (sdw := dw[r / up.length]) m1.1
    have b2 := dwPart_occ2 (n := 2) (sdw := dw[r / up.length]) m1.1
    simp only [spinCount, Bool.false_eq_true, if_false, if_true]
    rw [b1, b2, card_occF m1.1, card_occF m2.1, m1.2, m2.2]
    push_cast; rfl
  · rw [if_neg hrc]
    refine Matrix.diagonal_apply_ne _ ?_
    intro he
    obtain ⟨h1, h2⟩ := (occ2_inj (n := 2) m1.1 m2.1 m3.1 m4.1).mp he
    have h1 := (List.Nodup.getElem_inj_iff su.nodup).mp h1
    have h2 := (List.Nodup.getElem_inj_iff sd.nodup).mp h2
    apply hrc
    rw [← Nat.mod_add_div r up.length, ← Nat.mod_add_div c up.length, h1, h2]

/-- Amplitude `r` of the one-electron eigenvector `j`: on one site, or on both with equal weights. -/
noncomputable def tiltVec (rot : Bool) (j r : ℕ) : ℝ :=
  if rot then (if j = 1 ∧ r = 1 then -√(1 / 2) else √(1 / 2)) else if r = j then 1 else 0

/-- Eigenpairs of the sectors: sites, or with `rot` their sum and difference in the two sectors with one electron. -/
noncomputable def tiltChoice (rot : Bool) (q : ℕ × ℕ) : EigRes :=
  (List.replicate (Nat.choose 2 q.1 * Nat.choose 2 q.2) ((q.1 + q.2 : ℕ) : ℝ),
    (List.range (Nat.choose 2 q.1 * Nat.choose 2 q.2)).map fun j r => if q = (1, 0) ∨ q = (0, 1) then tiltVec rot j r else if r = j then 1 else 0)

theorem half_sqrt : √(1 / 2 : ℝ) * √(1 / 2) = 1 / 2 := Real.mul_self_sqrt (by norm_num)

theorem tilt_eigh (rot : Bool) {q : ℕ × ℕ} (h1 : q.1 ≤ 2) (h2 : q.2 ≤ 2) {D : Dense ℝ} (h : IsSectorHam tiltArgs (gs 64 2 q.1) (gs 64 2 q.2) D) :
    Eigh D (tiltChoice rot q).1 (tiltChoice rot q).2 := by
  have su := sectorList_of_generate (n := 2) (by norm_num) (show 2 ≤ 64 by norm_num) h1 (generateStates_gs (w := 64) (n := 2) (p := q.1) (by omega))
  have sd := sectorList_of_generate (n := 2) (by norm_num) (show 2 ≤ 64 by norm_num) h2 (generateStates_gs (w := 64) (n := 2) (p := q.2) (by omega))
  have hsz : D.size = Nat.choose 2 q.1 * Nat.choose 2 q.2 := by rw [h.size, su.len, sd.len]
  refine ⟨by simp [tiltChoice, hsz], by simp [tiltChoice, hsz], ?_, ?_, ?_⟩
  · exact List.pairwise_replicate.mpr (Or.inr le_rfl)
  · intro i j hi hj
    have hvec : ∀ (i : ℕ) (hi : i < (tiltChoice rot q).2.length), (tiltChoice rot q).2[i] =
        fun r => if q = (1, 0) ∨ q = (0, 1) then tiltVec rot i r else if r = i then 1 else 0 := by
      intro i hi; simp [tiltChoice]
    rw [hvec, hvec]
    simp only [tiltChoice, List.length_map, List.length_range] at hi hj
    by_cases hq : q = (1, 0) ∨ q = (0, 1)
    · have hs2 : D.size = 2 := by rw [hsz]; rcases hq with rfl | rfl <;> rfl
      rw [← hsz, hs2] at hi hj
      simp only [if_pos hq]
      rw [hs2, Finset.sum_range_succ, Finset.sum_range_one]
      have := half_sqrt
      cases rot <;> interval_cases i <;> interval_cases j <;> simp only [tiltVec] <;> norm_num <;> norm_num at this <;> linarith
    · simp only [if_neg hq]
      rw [← hsz] at hi hj
      simp [Finset.sum_ite_eq', hi]
      simp [eq_comm]
      intro hh; omega
  · intro i hi hi' r hr
    rw [Finset.sum_congr rfl fun c hc => by rw [tilt_dense h1 h2 h hr (Finset.mem_range.mp hc)]]
    simp [tiltChoice, hr]

theorem tilt_run (rot : Bool) : BuildEspace 64 tiltArgs none (.ok (chosenEspace 64 2 (tiltChoice rot), ((0 : ℝ) : WithTop ℝ))) := by
  have h := chosen_run tiltArgs_valid (w := 64) (by simp [tiltArgs]) (ch := tiltChoice rot) (by
    intro q hq D hD
    obtain ⟨b1, b2⟩ := mem_ndindex2.mp hq
    have : tiltArgs.n = 2 := rfl
    exact tilt_eigh rot (by omega) (by omega) hD)
  have e : (ndindex2 (tiltArgs.n + 1) (tiltArgs.n + 1)).foldl (fun e q => min (eigMin (tiltChoice rot q).1) e) ⊤ = ((0 : ℝ) : WithTop ℝ) := by
    have hnd : ndindex2 (tiltArgs.n + 1) (tiltArgs.n + 1) = [(0, 0), (0, 1), (0, 2), (1, 0), (1, 1), (1, 2), (2, 0), (2, 1), (2, 2)] := rfl
    rw [hnd]
    simp [tiltChoice, List.replicate, eigMin]
    have h1 : (0 : WithTop ℝ) ≤ 1 + 2 := by exact_mod_cast (by norm_num : (0 : ℝ) ≤ 1 + 2)
    have h2 : (0 : WithTop ℝ) ≤ 2 + 1 := by exact_mod_cast (by norm_num : (0 : ℝ) ≤ 2 + 1)
    rw [min_eq_right h1, min_eq_right h2]
  rw [e] at h
  exact h


/-- The espace of the choice `rot`. -/
noncomputable def tiltEspace (rot : Bool) : Espace (ℕ × ℕ) := chosenEspace 64 2 (tiltChoice rot)

theorem tilt_sct (rot : Bool) {q : ℕ × ℕ} (h1 : q.1 ≤ 2) (h2 : q.2 ≤ 2) : sctAt (tiltEspace rot) q =
    ⟨.spin (gs 64 2 q.1) (gs 64 2 q.2), (gs 64 2 q.1).length * (gs 64 2 q.2).length, (tiltChoice rot q).1, (tiltChoice rot q).2⟩ := chosen_get h1 h2

theorem tilt_ground (rot : Bool) {q : ℕ × ℕ} (h1 : q.1 ≤ 2) (h2 : q.2 ≤ 2) : GroundSector (tiltEspace rot) 0 q ↔ q = (0, 0) := by
  unfold GroundSector
  rw [tilt_sct rot h1 h2]
  simp only [tiltChoice, List.mem_replicate]
  constructor
  · rintro ⟨e, ⟨-, rfl⟩, -, h⟩
    have h3 : q.1 + q.2 < 1 := by
      by_contra hc
      have : (1 : ℝ) ≤ ((q.1 + q.2 : ℕ) : ℝ) := by exact_mod_cast (by omega : 1 ≤ q.1 + q.2)
      rw [sub_zero, abs_of_nonneg (by linarith)] at h
      norm_num at h
      push_cast at this
      linarith
    exact Prod.ext (by simp only; omega) (by simp only; omega)
  · rintro rfl
    exact ⟨0, by simp, by simp, by simp; norm_num⟩

/-- The states that take part. -/
def tiltStates : List TId := [(0, 0, 0), (0, 1, 0), (0, 1, 1), (1, 0, 0), (1, 0, 1)]

theorem tilt_near (rot : Bool) (id : TId) : (IsState 2 id ∧ NearGround 2 (tiltEspace rot) 0 id) ↔ id ∈ tiltStates := by
  constructor
  · rintro ⟨⟨a1, a2, a3, a4, a5⟩, g, g1, g2, hg, h⟩
    rw [tilt_ground rot g1 g2] at hg
    subst hg
    obtain ⟨x, y, k⟩ := id
    simp only [Nat.cast_zero, sub_zero] at a1 a2 a3 a4 a5 h
    rw [abs_of_nonneg a1, abs_of_nonneg a3] at h
    have hx : x = 0 ∧ y = 0 ∨ x = 0 ∧ y = 1 ∨ x = 1 ∧ y = 0 := by omega
    rcases hx with ⟨rfl, rfl⟩ | ⟨rfl, rfl⟩ | ⟨rfl, rfl⟩
    · simp at a5; subst a5; simp [tiltStates]
    · simp at a5; interval_cases k <;> simp [tiltStates]
    · simp at a5; interval_cases k <;> simp [tiltStates]
  · intro h
    have hg := (tilt_ground rot (q := (0, 0)) (by simp) (by simp)).mpr rfl
    simp only [tiltStates, List.mem_cons, List.not_mem_nil, or_false] at h
    rcases h with rfl | rfl | rfl | rfl | rfl <;> exact ⟨by simp [IsState], (0, 0), by simp, by simp, hg, by simp⟩

theorem tilt_energy (rot : Bool) {x y k : ℕ} (hx : x ≤ 2) (hy : y ≤ 2) (hk : k < Nat.choose 2 x * Nat.choose 2 y) : idEnergy (tiltEspace rot) ((x : ℤ), (y : ℤ), k) = ((x + y : ℕ) : ℝ) := by
  have hE := buildEspace_eigen tiltArgs_valid (by simp [tiltArgs]) (tilt_run rot)
  obtain ⟨-, -, -, hg, -⟩ := hE.toCompleteEspace.at (u := x) (d := y) hx hy
  have hg' : dictGet (tiltEspace rot) (x, y) = .ok (sctAt (tiltEspace rot) (x, y)) := hg
  unfold idEnergy espaceGet
  simp only [Int.natCast_nonneg, and_self, if_true, Int.toNat_natCast]
  rw [hg', tilt_sct rot hx hy]
  simp [tiltChoice, hk]

/-- The spin of the electron of a state with one electron. -/
def tiltSpin (x : TId) : Bool := decide (x.2.1 = 1)

theorem ket_vac (v : ℕ → ℝ) : Spec.ket 2 [0] [0] v = Pi.single ∅ (v 0) := by
  funext S
  have e : Spec.ket 2 [0] [0] v S = ∑ iu : Fin 1, ∑ id : Fin 1, if S = occ2 2 ([0][(iu : ℕ)]'iu.2) ([0][(id : ℕ)]'id.2) then v ((iu : ℕ) + 1 * id) else 0 := rfl
  have ho : occ2 2 0 0 = ∅ := by decide
  rw [e, Fin.sum_univ_one, Fin.sum_univ_one, Pi.single_apply]
  simp [ho]

theorem ket_up (v : ℕ → ℝ) (k : Fin 2) : Spec.ket 2 [1, 2] [0] v {orb false k} = v k := by
  have e : ∀ S, Spec.ket 2 [1, 2] [0] v S = ∑ iu : Fin 2, ∑ id : Fin 1, if S = occ2 2 ([1, 2][(iu : ℕ)]'iu.2) ([0][(id : ℕ)]'id.2) then v ((iu : ℕ) + 2 * id) else 0 := fun _ => rfl
  rw [e, Fin.sum_univ_two, Fin.sum_univ_one, Fin.sum_univ_one]
  have h00 : ({orb false (0 : Fin 2)} : Finset (Fin (2 + 2))) = occ2 2 1 0 := by decide
  have h01 : ({orb false (0 : Fin 2)} : Finset (Fin (2 + 2))) ≠ occ2 2 2 0 := by decide
  have h10 : ({orb false (1 : Fin 2)} : Finset (Fin (2 + 2))) ≠ occ2 2 1 0 := by decide
  have h11 : ({orb false (1 : Fin 2)} : Finset (Fin (2 + 2))) = occ2 2 2 0 := by decide
  fin_cases k
  · simp only [Fin.zero_eta, Fin.val_zero, List.getElem_cons_zero, Fin.val_one, List.getElem_cons_succ]
    rw [if_pos h00, if_neg h01]; simp
  · simp only [Fin.mk_one, Fin.val_zero, List.getElem_cons_zero, Fin.val_one, List.getElem_cons_succ]
    rw [if_neg h10, if_pos h11]; simp

theorem ket_dw (v : ℕ → ℝ) (k : Fin 2) : Spec.ket 2 [0] [1, 2] v {orb true k} = v k := by
  have e : ∀ S, Spec.ket 2 [0] [1, 2] v S = ∑ iu : Fin 1, ∑ id : Fin 2, if S = occ2 2 ([0][(iu : ℕ)]'iu.2) ([1, 2][(id : ℕ)]'id.2) then v ((iu : ℕ) + 1 * id) else 0 := fun _ => rfl
  rw [e, Fin.sum_univ_one, Fin.sum_univ_two]
  have h00 : ({orb true (0 : Fin 2)} : Finset (Fin (2 + 2))) = occ2 2 0 1 := by decide
  have h01 : ({orb true (0 : Fin 2)} : Finset (Fin (2 + 2))) ≠ occ2 2 0 2 := by decide
  have h10 : ({orb true (1 : Fin 2)} : Finset (Fin (2 + 2))) ≠ occ2 2 0 1 := by decide
  have h11 : ({orb true (1 : Fin 2)} : Finset (Fin (2 + 2))) = occ2 2 0 2 := by decide
  fin_cases k
  · simp only [Fin.zero_eta, Fin.val_zero, List.getElem_cons_zero, Fin.val_one, List.getElem_cons_succ]
    rw [if_pos h00, if_neg h01]; simp
  · simp only [Fin.mk_one, Fin.val_zero, List.getElem_cons_zero, Fin.val_one, List.getElem_cons_succ]
    rw [if_neg h10, if_pos h11]; simp

theorem cre_vac (x : Fin (2 + 2)) (u : Finset (Fin (2 + 2)) → ℝ) : u ⬝ᵥ cre ℝ x *ᵥ Pi.single ∅ 1 = u {x} := by
  rw [mulVec_single_one]
  have : (cre ℝ x).col ∅ = Pi.single {x} 1 := by
    funext T
    rw [col_apply, cre_apply, Pi.single_apply]
    simp [sgn]
  rw [this, dotProduct_single, mul_one]

theorem tilt_amp (rot : Bool) {F : TId} (hF : F ∈ tiltStates) (h0 : F ≠ (0, 0, 0)) {k : ℕ} (hk : k < 2) : addAmp 2 (tiltEspace rot) (tiltSpin F) F (0, 0, 0) k = tiltVec rot F.2.2 k := by
  have hgs : gs 64 2 1 = [1, 2] := by decide
  have hgs0 : gs 64 2 0 = [0] := by decide
  have hI : idKet 2 (tiltEspace rot) (0, 0, 0) = Pi.single ∅ 1 := by
    unfold idKet
    simp only [Int.toNat_zero]
    rw [tilt_sct rot (by simp) (by simp)]
    unfold Sct.ket
    simp only [SectorStates.ups, SectorStates.dws, hgs0]
    rw [ket_vac]
    simp [tiltChoice]
  unfold addAmp
  rw [dif_pos hk, hI, cre_vac]
  unfold idKet
  simp only [tiltStates, List.mem_cons, List.not_mem_nil, or_false] at hF
  rcases hF with rfl | rfl | rfl | rfl | rfl
  · exact absurd rfl h0
  all_goals
    simp only [Int.toNat_zero, Int.toNat_one]
    rw [tilt_sct rot (by simp) (by simp)]
    unfold Sct.ket tiltSpin
    simp only [SectorStates.ups, SectorStates.dws, hgs0, hgs]
  · exact (ket_dw _ ⟨k, hk⟩).trans (by simp [tiltChoice])
  · exact (ket_dw _ ⟨k, hk⟩).trans (by simp [tiltChoice])
  · exact (ket_up _ ⟨k, hk⟩).trans (by simp [tiltChoice])
  · exact (ket_up _ ⟨k, hk⟩).trans (by simp [tiltChoice])


theorem call_tilt {g : GfT} {s t0 t1 : ℝ} (hs : s ^ 2 = 1) (hv : g.v = [s * t0, s * t1]) (a0 a1 beta mu : ℝ) :
    g.call [a0, a1] beta mu = .ok ((t0 * a0 + t1 * a1) ^ 2 * if g.el then fermi (g.E - mu) beta else fermi (-g.E + mu) beta) := by
  unfold GfT.call dotArr
  rw [hv]
  simp only [List.length_cons, List.length_nil, if_true, List.zipWith_cons_cons, List.zipWith_nil_left, List.sum_cons, List.sum_nil, bind, Except.bind, pure, Except.pure]
  congr 2
  linear_combination (t0 * a0 + t1 * a1) ^ 2 * hs

/-- The chemical potential and the couplings of a lead: lead 0 at site 0 and lead 1 at site 1. -/
def tiltMu (m0 m1 : ℝ) (lead : ℕ) : ℝ := if lead = 0 then m0 else m1

theorem tilt_gamma (rot : Bool) {junk : ℕ} {gd : GfDict} (hgd : sqBuild junk 2 0 (tiltEspace rot) none = .ok gd) :
    finalIds gd = tiltStates ∧ ∀ beta m0 m1 : ℝ, ∀ lead < 2, ∀ F ∈ tiltStates, ∀ I ∈ tiltStates,
      (sqGamma gd beta [m0, m1] [[1, 0], [0, 1]] lead F I).getD 0 =
        if I = (0, 0, 0) ∧ F ≠ (0, 0, 0) then tiltVec rot F.2.2 lead ^ 2 * fermi (1 - tiltMu m0 m1 lead) beta
        else if F = (0, 0, 0) ∧ I ≠ (0, 0, 0) then tiltVec rot I.2.2 lead ^ 2 * fermi (-1 + tiltMu m0 m1 lead) beta else 0 := by
  obtain ⟨gd', h1, h2, h3⟩ := C155_elements tiltArgs_valid (w := 64) (by simp [tiltArgs]) (tilt_run rot) junk 0 none
  have h1' : sqBuild junk 2 0 (tiltEspace rot) none = .ok gd' := h1
  rw [hgd] at h1'
  obtain rfl := Except.ok.inj h1'
  have hkeys : ∀ F I, (∃ g, dictGet gd (F, I) = .ok g) ↔ F ∈ tiltStates ∧ I ∈ tiltStates ∧ ((I = (0, 0, 0) ∧ F ≠ (0, 0, 0)) ∨ (F = (0, 0, 0) ∧ I ≠ (0, 0, 0))) := by
    intro F I
    have e2 : (∃ g, dictGet gd (F, I) = .ok g) ↔ IsState 2 F ∧ IsState 2 I ∧ (∃ σ, OneMore σ F I ∨ OneMore σ I F) ∧ NearGround 2 (tiltEspace rot) 0 F ∧
      NearGround 2 (tiltEspace rot) 0 I ∧ WithinCutoff (tiltEspace rot) 0 none F I := h2 F I
    rw [e2]
    have hx : (IsState 2 F ∧ IsState 2 I ∧ (∃ σ, OneMore σ F I ∨ OneMore σ I F) ∧ NearGround 2 (tiltEspace rot) 0 F ∧
      NearGround 2 (tiltEspace rot) 0 I ∧ WithinCutoff (tiltEspace rot) 0 none F I) ↔ F ∈ tiltStates ∧ I ∈ tiltStates ∧ ∃ σ, OneMore σ F I ∨ OneMore σ I F := by
      rw [← tilt_near rot F, ← tilt_near rot I]
      simp only [WithinCutoff, Option.mem_def, reduceCtorEq, false_implies, implies_true, and_true]
      exact ⟨fun ⟨x1, x2, x3, x4, x5⟩ => ⟨⟨x1, x4⟩, ⟨x2, x5⟩, x3⟩, fun ⟨⟨x1, x4⟩, ⟨x2, x5⟩, x3⟩ => ⟨x1, x2, x3, x4, x5⟩⟩
    rw [hx]
    refine and_congr_right fun hF => and_congr_right fun hI => ?_
    simp only [tiltStates, List.mem_cons, List.not_mem_nil, or_false] at hF hI
    rcases hF with rfl | rfl | rfl | rfl | rfl <;> rcases hI with rfl | rfl | rfl | rfl | rfl <;> simp [OneMore]
  constructor
  · refine finalIds_unique (by decide) (by decide) fun F => ?_
    constructor
    · intro hF
      by_cases h0 : F = (0, 0, 0)
      · exact ⟨(0, 1, 0), (hkeys _ _).mpr ⟨hF, by decide, .inr ⟨h0, by decide⟩⟩⟩
      · exact ⟨(0, 0, 0), (hkeys _ _).mpr ⟨hF, by decide, .inl ⟨rfl, h0⟩⟩⟩
    · rintro ⟨I, hg⟩
      exact ((hkeys F I).mp hg).1
  · intro beta m0 m1 lead hl F hF I hI
    obtain ⟨l1, l2⟩ := lead_items (m0 := m0) (m1 := m1) (a0 := [(1 : ℝ), 0]) (a1 := [0, 1]) hl
    have hE0 : idEnergy (tiltEspace rot) (0, 0, 0) = 0 := by
      have := tilt_energy rot (x := 0) (y := 0) (k := 0) (by norm_num) (by norm_num) (by norm_num)
      simpa using this
    have hE1 : ∀ X ∈ tiltStates, X ≠ (0, 0, 0) → idEnergy (tiltEspace rot) X = 1 ∧ OneMore (tiltSpin X) X (0, 0, 0) := by
      intro X hX h0
      simp only [tiltStates, List.mem_cons, List.not_mem_nil, or_false] at hX
      rcases hX with rfl | rfl | rfl | rfl | rfl
      · exact absurd rfl h0
      · exact ⟨by simpa using tilt_energy rot (x := 0) (y := 1) (k := 0) (by norm_num) (by norm_num) (by norm_num), by simp [OneMore, tiltSpin]⟩
      · exact ⟨by simpa using tilt_energy rot (x := 0) (y := 1) (k := 1) (by norm_num) (by norm_num) (by norm_num), by simp [OneMore, tiltSpin]⟩
      · exact ⟨by simpa using tilt_energy rot (x := 1) (y := 0) (k := 0) (by norm_num) (by norm_num) (by norm_num), by simp [OneMore, tiltSpin]⟩
      · exact ⟨by simpa using tilt_energy rot (x := 1) (y := 0) (k := 1) (by norm_num) (by norm_num) (by norm_num), by simp [OneMore, tiltSpin]⟩
    have hlead : (lead = 0 ∨ lead = 1) := by omega
    by_cases c1 : I = (0, 0, 0) ∧ F ≠ (0, 0, 0)
    · rw [if_pos c1]
      obtain ⟨rfl, hF0⟩ := c1
      obtain ⟨g, hg⟩ := (hkeys F (0, 0, 0)).mpr ⟨hF, hI, .inl ⟨rfl, hF0⟩⟩
      obtain ⟨d1, d2, s, hs, d3⟩ := (h3 F (0, 0, 0) g hg (tiltSpin F)).1 (hE1 F hF hF0).2
      have d2' : g.E = 1 := by
        have : g.E = idEnergy (tiltEspace rot) F - idEnergy (tiltEspace rot) (0, 0, 0) := d2
        rw [this, hE0, (hE1 F hF hF0).1]; norm_num
      have d3' : g.v = [s * tiltVec rot F.2.2 0, s * tiltVec rot F.2.2 1] := by
        rw [← tilt_amp rot hF hF0 (k := 0) (by norm_num), ← tilt_amp rot hF hF0 (k := 1) (by norm_num)]
        exact d3
      rcases hlead with rfl | rfl
      · rw [sqGamma_ok hg l2 l1 (call_tilt hs d3' 1 0 beta m0), d1, d2']
        simp [tiltMu]
      · rw [sqGamma_ok hg l2 l1 (call_tilt hs d3' 0 1 beta m1), d1, d2']
        simp [tiltMu]
    · rw [if_neg c1]
      by_cases c2 : F = (0, 0, 0) ∧ I ≠ (0, 0, 0)
      · rw [if_pos c2]
        obtain ⟨rfl, hI0⟩ := c2
        obtain ⟨g, hg⟩ := (hkeys (0, 0, 0) I).mpr ⟨hF, hI, .inr ⟨rfl, hI0⟩⟩
        obtain ⟨d1, d2, s, hs, d3⟩ := (h3 (0, 0, 0) I g hg (tiltSpin I)).2 (hE1 I hI hI0).2
        have d2' : g.E = 1 := by
          have : g.E = idEnergy (tiltEspace rot) I - idEnergy (tiltEspace rot) (0, 0, 0) := d2
          rw [this, hE0, (hE1 I hI hI0).1]; norm_num
        have d3' : g.v = [s * tiltVec rot I.2.2 0, s * tiltVec rot I.2.2 1] := by
          rw [← tilt_amp rot hI hI0 (k := 0) (by norm_num), ← tilt_amp rot hI hI0 (k := 1) (by norm_num)]
          exact d3
        rcases hlead with rfl | rfl
        · rw [sqGamma_ok hg l2 l1 (call_tilt hs d3' 1 0 beta m0), d1, d2']
          simp [tiltMu]
        · rw [sqGamma_ok hg l2 l1 (call_tilt hs d3' 0 1 beta m1), d1, d2']
          simp [tiltMu]
      · rw [if_neg c2]
        cases hg : dictGet gd (F, I) with
        | error e => simp [sqGamma, hg, bind, Except.bind, Except.toOption]
        | ok g =>
          rcases ((hkeys F I).mp ⟨g, hg⟩).2.2 with h | h
          · exact absurd h c1
          · exact absurd h c2

/-- Stationarity as a balance of flows. -/
theorem stationary_balance {gd : GfDict} {beta : ℝ} {mu : List ℝ} {A : List (List ℝ)} {p : ℕ → ℝ} (h : IsStationary (finalIds gd).length (sqRate gd beta mu A) p) {f : ℕ} (hf : f < (finalIds gd).length) :
    ∑ i ∈ (Finset.range (finalIds gd).length).erase f, ((sqFlow gd beta mu A 0 (i, f) + sqFlow gd beta mu A 1 (i, f)) * p i - (sqFlow gd beta mu A 0 (f, i) + sqFlow gd beta mu A 1 (f, i)) * p f) = 0 := by
  have h0 := h f hf
  rw [← Finset.add_sum_erase _ _ (Finset.mem_range.mpr hf), sqRate_diag _ _ _ _ hf] at h0
  rw [Finset.sum_sub_distrib, ← Finset.sum_mul, ← h0]
  rw [Finset.sum_congr rfl (g := fun i => sqRate gd beta mu A f i * p i) fun i hi => by
    rw [sqRate_off gd beta mu A hf (Finset.mem_range.mp (Finset.mem_of_mem_erase hi)) (Finset.ne_of_mem_erase hi).symm]]
  ring


theorem fermi_neg_add (x beta : ℝ) : fermi (-x) beta = 1 - fermi x beta := by
  unfold fermi
  have e : beta * -x = -(beta * x) := by ring
  rw [e]
  generalize hy : Real.exp (-(beta * x)) = y
  have h : y * Real.exp (beta * x) = 1 := by rw [← hy, ← Real.exp_add]; simp
  have := Real.exp_pos (beta * x)
  have : 0 < y := hy ▸ Real.exp_pos _
  field_simp
  linear_combination -h

/-- Balance of the states and the current through lead 0. -/
theorem tilt_balance (rot : Bool) {junk : ℕ} {gd : GfDict} (hgd : sqBuild junk 2 0 (tiltEspace rot) none = .ok gd) {beta m0 m1 : ℝ} {p : ℕ → ℝ}
    (hst : IsStationary (finalIds gd).length (sqRate gd beta [m0, m1] [[1, 0], [0, 1]]) p) :
    (∀ x, 1 ≤ x → x ≤ 4 → (tiltVec rot ((x - 1) % 2) 0 ^ 2 * fermi (1 - m0) beta + tiltVec rot ((x - 1) % 2) 1 ^ 2 * fermi (1 - m1) beta) * p 0 =
      (tiltVec rot ((x - 1) % 2) 0 ^ 2 * (1 - fermi (1 - m0) beta) + tiltVec rot ((x - 1) % 2) 1 ^ 2 * (1 - fermi (1 - m1) beta)) * p x) ∧
    leadCurrent gd beta m0 [1, 0] p = tiltVec rot 0 0 ^ 2 * (2 * fermi (1 - m0) beta * p 0 - (1 - fermi (1 - m0) beta) * (p 1 + p 3)) +
      tiltVec rot 1 0 ^ 2 * (2 * fermi (1 - m0) beta * p 0 - (1 - fermi (1 - m0) beta) * (p 2 + p 4)) := by
  obtain ⟨hids, hg⟩ := tilt_gamma rot hgd
  have hlen : (finalIds gd).length = 5 := by rw [hids]; rfl
  have hc : Conjugate gd (idEnergy (tiltEspace rot)) := (sqElems_of_run tiltArgs_valid (w := 64) (by simp [tiltArgs]) (tilt_run rot) hgd).2.1
  have hf0 : ∀ m : ℝ, fermi (-1 + m) beta = 1 - fermi (1 - m) beta := fun m => by rw [← fermi_neg_add]; congr 1; ring
  have hflow : ∀ lead < 2, ∀ i f (hi : i < 5) (hf : f < 5), sqFlow gd beta [m0, m1] [[1, 0], [0, 1]] lead (i, f) =
      if i = 0 ∧ f ≠ 0 then tiltVec rot ((f - 1) % 2) lead ^ 2 * fermi (1 - tiltMu m0 m1 lead) beta
      else if f = 0 ∧ i ≠ 0 then tiltVec rot ((i - 1) % 2) lead ^ 2 * (1 - fermi (1 - tiltMu m0 m1 lead) beta) else 0 := by
    intro lead hl i f hi hf
    have h1 : ∀ k < 5, ∃ X, (finalIds gd)[k]? = some X ∧ X ∈ tiltStates ∧ (X = (0, 0, 0) ↔ k = 0) ∧ (k ≠ 0 → X.2.2 = (k - 1) % 2) := by
      intro k hk
      rw [hids]
      interval_cases k <;> exact ⟨_, rfl, by decide, by decide, by decide⟩
    obtain ⟨F, e1, e2, e3, e4⟩ := h1 f hf
    obtain ⟨I, d1, d2, d3, d4⟩ := h1 i hi
    unfold sqFlow
    simp only [e1, d1]
    rw [hg beta m0 m1 lead hl F e2 I d2, hf0]
    simp only [ne_eq, e3, d3]
    by_cases c1 : i = 0 ∧ f ≠ 0
    · rw [if_pos c1, if_pos c1, e4 c1.2]
    · rw [if_neg c1, if_neg c1]
      by_cases c2 : f = 0 ∧ i ≠ 0
      · rw [if_pos c2, if_pos c2, d4 c2.2]
      · rw [if_neg c2, if_neg c2]
  constructor
  · intro x h1 h4
    have hb := stationary_balance hst (f := x) (by omega)
    rw [hlen, Finset.sum_eq_single_of_mem 0 (Finset.mem_erase.mpr ⟨by omega, by simp⟩) (fun i hi hi0 => by
      have hi5 := Finset.mem_range.mp (Finset.mem_of_mem_erase hi)
      rw [hflow 0 (by norm_num) i x hi5 (by omega), hflow 1 (by norm_num) i x hi5 (by omega), hflow 0 (by norm_num) x i (by omega) hi5, hflow 1 (by norm_num) x i (by omega) hi5]
      simp [hi0, show x ≠ 0 by omega]),
      hflow 0 (by norm_num) 0 x (by omega) (by omega), hflow 1 (by norm_num) 0 x (by omega) (by omega), hflow 0 (by norm_num) x 0 (by omega) (by omega),
      hflow 1 (by norm_num) x 0 (by omega) (by omega)] at hb
    simp only [tiltMu, show x ≠ 0 by omega, ne_eq, not_false_eq_true, and_self, if_true, false_and, if_false, one_ne_zero, not_true_eq_false, and_false] at hb
    linarith
  · have := leadCurrent_flow hc beta m0 m1 [1, 0] [0, 1] p (lead := 0) (by norm_num)
    simp only [if_true] at this
    have hch : ∀ k < 5, atId gd idCharge k = if k = 0 then 0 else 1 := by
      intro k hk
      unfold atId
      rw [dif_pos (by omega)]
      simp only [hids]
      interval_cases k <;> simp [tiltStates, idCharge]
    rw [this, hlen]
    have e : ∀ f ∈ Finset.range 5, ∀ i ∈ Finset.range 5, (if i ≠ f then sqFlow gd beta [m0, m1] [[1, 0], [0, 1]] 0 (i, f) * (atId gd idCharge f - atId gd idCharge i) * p i else 0) =
        if i = 0 ∧ f ≠ 0 then tiltVec rot ((f - 1) % 2) 0 ^ 2 * fermi (1 - m0) beta * p 0
        else if f = 0 ∧ i ≠ 0 then -(tiltVec rot ((i - 1) % 2) 0 ^ 2 * (1 - fermi (1 - m0) beta) * p i) else 0 := by
      intro f hf i hi
      have hf := Finset.mem_range.mp hf
      have hi := Finset.mem_range.mp hi
      rw [hflow 0 (by norm_num) i f hi hf, hch i hi, hch f hf]
      by_cases c1 : i = 0
      · subst c1
        by_cases c2 : f = 0
        · simp [c2]
        · simp [c2, Ne.symm c2, tiltMu]
      · by_cases c2 : f = 0
        · subst c2; simp [c1, tiltMu]
        · simp [c1, c2]
    rw [Finset.sum_congr rfl fun f hf => Finset.sum_congr rfl fun i hi => e f hf i hi]
    simp [Finset.sum_range_succ]
    ring

/-- **C157 is false with degenerate levels.** For two uncoupled sites, the first coupled to lead 0 and the second to lead 1, there are two runs of `build_espace` on the same arguments (with the same
energies) such that, at all temperatures and voltages, no current flows in any stationary state of the first, and in every stationary state of the second the current out of lead 0 is
`2 (f0 - f1) / (2 + 3 (f0 + f1))`, which is not zero when the chemical potentials differ. -/
theorem C157_refuted : ∃ (a : HamArgs) (es es1 : Espace (ℕ × ℕ)) (e0 : ℝ) (v0 v1 : List ℝ), a.Valid ∧ BuildEspace 64 a none (.ok (es, (e0 : WithTop ℝ))) ∧
    BuildEspace 64 a none (.ok (es1, (e0 : WithTop ℝ))) ∧ ∀ junk, ∃ gd gd1, sqBuild junk a.n e0 es none = .ok gd ∧ sqBuild junk a.n e0 es1 none = .ok gd1 ∧ ∀ beta m0 m1 p,
      (IsDist (finalIds gd).length p → IsStationary (finalIds gd).length (sqRate gd beta [m0, m1] [v0, v1]) p → leadCurrent gd beta m0 v0 p = 0) ∧
      (IsDist (finalIds gd1).length p → IsStationary (finalIds gd1).length (sqRate gd1 beta [m0, m1] [v0, v1]) p →
        leadCurrent gd1 beta m0 v0 p = 2 * (fermi (1 - m0) beta - fermi (1 - m1) beta) / (2 + 3 * (fermi (1 - m0) beta + fermi (1 - m1) beta)) ∧
        (0 < beta → m0 ≠ m1 → leadCurrent gd1 beta m0 v0 p ≠ 0)) := by
  refine ⟨tiltArgs, tiltEspace false, tiltEspace true, 0, [1, 0], [0, 1], tiltArgs_valid, tilt_run false, tilt_run true, fun junk => ?_⟩
  obtain ⟨gd, h1, -⟩ := C155_elements tiltArgs_valid (w := 64) (by simp [tiltArgs]) (tilt_run false) junk 0 none
  obtain ⟨gd1, h2, -⟩ := C155_elements tiltArgs_valid (w := 64) (by simp [tiltArgs]) (tilt_run true) junk 0 none
  have h1' : sqBuild junk 2 0 (tiltEspace false) none = .ok gd := h1
  have h2' : sqBuild junk 2 0 (tiltEspace true) none = .ok gd1 := h2
  refine ⟨gd, gd1, h1', h2', fun beta m0 m1 p => ⟨fun hp hst => ?_, fun hp hst => ?_⟩⟩
  · obtain ⟨b1, b2⟩ := tilt_balance false h1' hst
    rw [b2]
    have c1 := b1 1 (by norm_num) (by norm_num)
    have c3 := b1 3 (by norm_num) (by norm_num)
    simp [tiltVec] at c1 c3 ⊢
    linarith
  · obtain ⟨b1, b2⟩ := tilt_balance true h2' hst
    have hlen : (finalIds gd1).length = 5 := by rw [(tilt_gamma true h2').1]; rfl
    have hn := hp.2
    rw [hlen] at hn
    have hq : √(1 / 2 : ℝ) ^ 2 = 1 / 2 := Real.sq_sqrt (by norm_num)
    have hv : ∀ j r, tiltVec true j r ^ 2 = 1 / 2 := by
      intro j r
      unfold tiltVec
      rw [if_pos rfl]
      split <;> simp only [neg_sq, hq]
    simp only [hv] at b1 b2
    have c1 := b1 1 (by norm_num) (by norm_num)
    have c2 := b1 2 (by norm_num) (by norm_num)
    have c3 := b1 3 (by norm_num) (by norm_num)
    have c4 := b1 4 (by norm_num) (by norm_num)
    simp only [Finset.sum_range_succ, Finset.sum_range_zero] at hn
    have f0 := fermi_pos (1 - m0) beta
    have f1 := fermi_pos (1 - m1) beta
    have hcur : leadCurrent gd1 beta m0 [1, 0] p = 2 * (fermi (1 - m0) beta - fermi (1 - m1) beta) / (2 + 3 * (fermi (1 - m0) beta + fermi (1 - m1) beta)) := by
      rw [b2, eq_div_iff (by positivity)]
      set x := fermi (1 - m0) beta
      set y := fermi (1 - m1) beta
      have E1 : p 0 * (2 + 3 * (x + y)) = 2 - (x + y) := by linear_combination 2 * (c1 + c2 + c3 + c4) + (2 - (x + y)) * hn
      linear_combination (2 * x + (1 - x) / 2) * E1 - (1 - x) / 2 * (2 + 3 * (x + y)) * hn
    refine ⟨hcur, fun hb hm => ?_⟩
    rw [hcur]
    have hne : fermi (1 - m0) beta ≠ fermi (1 - m1) beta := by
      intro h
      unfold fermi at h
      rw [one_div, one_div, _root_.inv_inj, add_left_inj, Real.exp_eq_exp] at h
      have := mul_left_cancel₀ hb.ne' h
      exact hm (by linarith)
    exact div_ne_zero (mul_ne_zero two_ne_zero (sub_ne_zero.mpr hne)) (by positivity)


/-- Non-vacuity: both runs have stationary states, at every temperature and voltage. -/
example (rot : Bool) (beta m0 m1 : ℝ) : ∃ gd p, sqBuild 0 2 0 (tiltEspace rot) none = .ok gd ∧ IsDist (finalIds gd).length p ∧
    IsStationary (finalIds gd).length (sqRate gd beta [m0, m1] [[1, 0], [0, 1]]) p := by
  obtain ⟨gd, h, -⟩ := C155_elements tiltArgs_valid (w := 64) (by simp [tiltArgs]) (tilt_run rot) 0 0 none
  have h' : sqBuild 0 2 0 (tiltEspace rot) none = .ok gd := h
  obtain ⟨p, hp⟩ := exists_stationary (by rw [(tilt_gamma rot h').1]; decide) (C55_sequential gd beta [m0, m1] [[1, 0], [0, 1]])
  exact ⟨gd, p, h', hp⟩

/-! ## A case without degenerate levels -/

/-- Two uncoupled sites with energies 0 and 1 for spin up, 0 and 3 for spin down. -/
def apartArgs : HamArgs := ⟨2, fun s i j => if i = 1 ∧ j = 1 then (if s = 0 then 1 else 3) else 0, .array fun _ _ => 0, none, false, 0⟩

/-- The energy of an occupation. -/
def apartE (S : Finset (Fin (2 + 2))) : ℕ := (if orb false (1 : Fin 2) ∈ S then 1 else 0) + if orb true (1 : Fin 2) ∈ S then 3 else 0

theorem apartArgs_valid : apartArgs.Valid := by
  refine ⟨le_refl 2, by simp [apartArgs], rfl, ?_, by simp [apartArgs, VArg.array], by simp [apartArgs, VArg.array], by simp [apartArgs, VArg.array]⟩
  intro s i j _ _
  simp only [apartArgs, and_comm]

theorem apart_aux (S : Finset (Fin (2 + 2))) : (∑ s : Bool, ∑ i : Fin 2, (apartArgs.H (if s then 1 else 0) i i + 0 - (flatArgs.H (if s then 1 else 0) i i + flatArgs.mu)) *
    if orb s i ∈ S then 1 else 0) = (apartE S : ℝ) := by
  rw [Fintype.sum_bool, Fin.sum_univ_two, Fin.sum_univ_two]
  simp [apartArgs, flatArgs, apartE]
  by_cases h1 : orb true (1 : Fin 2) ∈ S <;> by_cases h2 : orb false (1 : Fin 2) ∈ S <;> simp [h1, h2] <;> norm_num

theorem apart_ham : apartArgs.ham = Matrix.diagonal fun S => (apartE S : ℝ) := by
  have h := withH_ham (a := flatArgs) (H := apartArgs.H) 0 (by
    intro s i j hij
    have : ¬ ((i : ℕ) = 1 ∧ (j : ℕ) = 1) := fun ⟨h1, h2⟩ => hij (Fin.ext (by omega))
    simp [apartArgs, flatArgs, this])
  have h3 : apartArgs.ham = flatArgs.hamH apartArgs.H 0 := rfl
  rw [h3, h, flat_ham, zero_add]
  congr 1
  funext S
  exact apart_aux S

/-- The energies of a sector in the order of its states. -/
def apartLevels (q : ℕ × ℕ) : List ℕ := (List.range ((gs 64 2 q.1).length * (gs 64 2 q.2).length)).map fun r =>
  apartE (occ2 2 ((gs 64 2 q.1)[r % (gs 64 2 q.1).length]?.getD 0) ((gs 64 2 q.2)[r / (gs 64 2 q.1).length]?.getD 0))

/-- The eigenpairs of the sectors. -/
def apartChoice (q : ℕ × ℕ) : EigRes := ((apartLevels q).map (fun k : ℕ => (k : ℝ)), (List.range (apartLevels q).length).map fun j r => if r = j then 1 else 0)

theorem apart_eigh {q : ℕ × ℕ} (hq : q ∈ ndindex2 3 3) {D : Dense ℝ} (h : IsSectorHam apartArgs (gs 64 2 q.1) (gs 64 2 q.2) D) : Eigh D (apartChoice q).1 (apartChoice q).2 := by
  obtain ⟨b1, b2⟩ := mem_ndindex2.mp hq
  have su := sectorList_of_generate (n := 2) (by norm_num) (show 2 ≤ 64 by norm_num) (by omega) (generateStates_gs (w := 64) (n := 2) (p := q.1) (by omega))
  have sd := sectorList_of_generate (n := 2) (by norm_num) (show 2 ≤ 64 by norm_num) (by omega) (generateStates_gs (w := 64) (n := 2) (p := q.2) (by omega))
  have hlen : (apartLevels q).length = D.size := by simp [apartLevels, h.size]
  have hval : ∀ r c, r < D.size → c < D.size → D.val r c = if r = c then (((apartLevels q)[r]?.getD 0 : ℕ) : ℝ) else 0 := by
    intro r c hr hc
    rw [h.size] at hr hc
    have hlv : (apartLevels q)[r]?.getD 0 = apartE (occ2 2 ((gs 64 2 q.1)[r % (gs 64 2 q.1).length]?.getD 0) ((gs 64 2 q.2)[r / (gs 64 2 q.1).length]?.getD 0)) := by
      simp [apartLevels, hr]
    rw [hlv]
    set up := gs 64 2 q.1
    set dw := gs 64 2 q.2
    have hu : 0 < up.length := Nat.pos_of_ne_zero fun h0 => by rw [h0] at hr; simp at hr
    have r1 := Nat.mod_lt r hu
    have c1 := Nat.mod_lt c hu
    have r2 : r / up.length < dw.length := Nat.div_lt_of_lt_mul hr
    have c2 : c / up.length < dw.length := Nat.div_lt_of_lt_mul hc
    have hv := h.val _ _ _ _ r1 r2 c1 c2
    rw [Nat.mod_add_div, Nat.mod_add_div, apart_ham] at hv
    rw [hv]
    have m1 := (su.mem _).mp (List.getElem_mem r1)
    have m2 := (sd.mem _).mp (List.getElem_mem r2)
    have m3 := (su.mem _).mp (List.getElem_mem c1)
    have m4 := (sd.mem _).mp (List.getElem_mem c2)
    by_cases hrc : r = c
    · subst hrc
      rw [if_pos rfl, List.getElem?_eq_getElem r1, List.getElem?_eq_getElem r2]
      exact Matrix.diagonal_apply_eq _ _
    · rw [if_neg hrc]
      refine Matrix.diagonal_apply_ne _ ?_
      intro he
      obtain ⟨h1, h2⟩ := (occ2_inj (n := 2) m1.1 m2.1 m3.1 m4.1).mp he
      have h1 := (List.Nodup.getElem_inj_iff su.nodup).mp h1
      have h2 := (List.Nodup.getElem_inj_iff sd.nodup).mp h2
      apply hrc
      rw [← Nat.mod_add_div r up.length, ← Nat.mod_add_div c up.length, h1, h2]
  have hvec : ∀ (i : ℕ) (hi : i < (apartChoice q).2.length), (apartChoice q).2[i] = fun r => if r = i then 1 else 0 := by
    intro i hi; simp [apartChoice]
  refine ⟨by simp [apartChoice, hlen], by simp [apartChoice, hlen], ?_, ?_, ?_⟩
  · have hs : ∀ q ∈ ndindex2 3 3, (apartLevels q).Pairwise (· ≤ ·) := by decide
    exact List.Pairwise.map _ (fun a b hab => by exact_mod_cast hab) (hs q hq)
  · intro i j hi hj
    rw [hvec, hvec]
    have hi' : i < D.size := by simpa [apartChoice, hlen] using hi
    simp [Finset.sum_ite_eq', hi']
    simp [eq_comm]
    intro hh; omega
  · intro i hi hi' r hr
    rw [Finset.sum_congr rfl fun c hc => by rw [hval r c hr (Finset.mem_range.mp hc)]]
    rw [hvec]
    have hil : i < (apartLevels q).length := by simpa [apartChoice] using hi
    simp only [ite_mul, zero_mul, Finset.sum_ite_eq, Finset.mem_range, hr, if_true]
    by_cases hri : r = i
    · subst hri
      simp [apartChoice, hil]
    · simp [hri]

/-- Non-vacuity: every run on this example has simple levels, and there is one. -/
theorem apart_nodup : (∃ es e0, BuildEspace 64 apartArgs none (.ok (es, e0))) ∧ ∀ es e0, BuildEspace 64 apartArgs none (.ok (es, e0)) → ∀ p ∈ es, p.2.eigvals.Nodup := by
  have hrun := chosen_run apartArgs_valid (w := 64) (by simp [apartArgs]) (ch := apartChoice) (fun q hq D hD => apart_eigh hq hD)
  refine ⟨⟨_, _, hrun⟩, fun es e0 h p hp => ?_⟩
  have hm := (C137_levels apartArgs_valid (by simp [apartArgs]) (by simp [apartArgs]) h hrun).1
  have h1 : (p.1, p.2.eigvals) ∈ es.map fun p => (p.1, p.2.eigvals) := List.mem_map.mpr ⟨p, hp, rfl⟩
  rw [hm] at h1
  obtain ⟨p', hp', he⟩ := List.mem_map.mp h1
  obtain ⟨q, hq, rfl⟩ := List.mem_map.mp hp'
  simp only [Prod.mk.injEq] at he
  rw [← he.2]
  have hs : ∀ q ∈ ndindex2 3 3, (apartLevels q).Nodup := by decide
  exact (hs q hq).map Nat.cast_injective

example : ∃ es e0 gd, BuildEspace 64 apartArgs none (.ok (es, e0)) ∧ (∀ p ∈ es, p.2.eigvals.Nodup) ∧ sqBuild 0 2 0 es none = .ok gd := by
  obtain ⟨⟨es, e0, h⟩, h2⟩ := apart_nodup
  obtain ⟨gd, hg, -⟩ := C155_elements apartArgs_valid (by simp [apartArgs]) h 0 0 none
  exact ⟨es, e0, gd, h, h2 es e0 h, hg⟩

end Edpyt
