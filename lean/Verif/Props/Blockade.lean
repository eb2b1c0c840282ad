import Verif.Props.SqElements
import Verif.Proof.Gibbs
import Verif.Proof.Eom
import Verif.Props.SolveHot
import Verif.Props.RatesPy
/-!
# C156: bounds on the current of sequential tunnelling, and the Coulomb blockade
-/
namespace Edpyt
open Spec Matrix

/-! ## Specification -/

/-- The strength of the coupling to a lead, `Σ_k a_k²`. -/
def Spec.coupling (a : List ℝ) : ℝ := (a.map (· ^ 2)).sum

/-- `p` is a distribution over `sz` states. -/
def Spec.IsDist (sz : ℕ) (p : ℕ → ℝ) : Prop := (∀ i < sz, 0 ≤ p i) ∧ ∑ i ∈ Finset.range sz, p i = 1

/-- The probability of a set of states. -/
noncomputable def Spec.probOf (gd : GfDict) (p : ℕ → ℝ) (S : TId → Prop) : ℝ := by
  classical exact ∑ i ∈ Finset.range (finalIds gd).length, if ∃ I, (finalIds gd)[i]? = some I ∧ S I then p i else 0

/-- What it costs to go from `I` to `F` with the electrons taken from, or put into, a lead at `m`. -/
noncomputable def Spec.cost (es : Espace (ℕ × ℕ)) (m : ℝ) (F I : TId) : ℝ := idEnergy es F - idEnergy es I - m * (idCharge F - idCharge I)

variable {n junk : ℕ} {es : Espace (ℕ × ℕ)}

/-! ## Helpers -/

/-- The operator that adds an electron in the orbital of the lead. -/
noncomputable def leadOp (n : ℕ) (σ : Bool) (a : List ℝ) : Matrix (Finset (Fin (n + n))) (Finset (Fin (n + n))) ℝ :=
  ∑ k : Fin n, (a[(k : ℕ)]?.getD 0) • cre ℝ (orb σ k)

theorem coupling_eq {a : List ℝ} (h : a.length = n) : coupling a = ∑ k : Fin n, (a[(k : ℕ)]?.getD 0) ^ 2 := by
  subst h
  unfold coupling
  rw [← List.sum_ofFn]
  congr 1
  apply List.ext_getElem (by simp)
  intro i h1 h2
  simp at h1
  simp [h1]

theorem leadOp_anticomm (σ : Bool) (a : List ℝ) :
    (leadOp n σ a)ᵀ * leadOp n σ a + leadOp n σ a * (leadOp n σ a)ᵀ = (∑ k : Fin n, (a[(k : ℕ)]?.getD 0) ^ 2) • (1 : Matrix (Finset (Fin (n + n))) (Finset (Fin (n + n))) ℝ) := by
  have ht : (leadOp n σ a)ᵀ = ∑ k : Fin n, (a[(k : ℕ)]?.getD 0) • ann ℝ (orb σ k) := by
    unfold leadOp
    rw [transpose_sum]
    refine Finset.sum_congr rfl fun k _ => ?_
    rw [transpose_smul, cre, transpose_transpose]
  rw [ht]
  unfold leadOp
  rw [Finset.sum_mul_sum, Finset.sum_mul_sum, Finset.sum_comm (f := fun (i j : Fin n) => (a[(i : ℕ)]?.getD 0 • cre ℝ (orb σ i)) * (a[(j : ℕ)]?.getD 0 • ann ℝ (orb σ j))), ← Finset.sum_add_distrib,
    Finset.sum_smul]
  refine Finset.sum_congr rfl fun i _ => ?_
  rw [← Finset.sum_add_distrib, Finset.sum_eq_single i]
  · rw [smul_mul_smul_comm, smul_mul_smul_comm, ← smul_add, ann_cre_anticomm, if_pos rfl, sq]
  · intro j _ hj
    rw [smul_mul_smul_comm, smul_mul_smul_comm, mul_comm (a[(j : ℕ)]?.getD 0), ← smul_add, ann_cre_anticomm, if_neg (by rw [orb_inj]; simp [Ne.symm hj]), smul_zero]
  · simp

theorem leadOp_norm (σ : Bool) (a : List ℝ) (u : Finset (Fin (n + n)) → ℝ) :
    (leadOp n σ a *ᵥ u) ⬝ᵥ (leadOp n σ a *ᵥ u) + ((leadOp n σ a)ᵀ *ᵥ u) ⬝ᵥ ((leadOp n σ a)ᵀ *ᵥ u) = (∑ k : Fin n, (a[(k : ℕ)]?.getD 0) ^ 2) * (u ⬝ᵥ u) := by
  have h1 : (leadOp n σ a *ᵥ u) ⬝ᵥ (leadOp n σ a *ᵥ u) = u ⬝ᵥ ((leadOp n σ a)ᵀ * leadOp n σ a) *ᵥ u := by
    rw [← mulVec_mulVec, dotProduct_mulVec u, vecMul_transpose]
  have h2 : ((leadOp n σ a)ᵀ *ᵥ u) ⬝ᵥ ((leadOp n σ a)ᵀ *ᵥ u) = u ⬝ᵥ (leadOp n σ a * (leadOp n σ a)ᵀ) *ᵥ u := by
    rw [← mulVec_mulVec, dotProduct_mulVec u, mulVec_transpose]
  rw [h1, h2, ← dotProduct_add, ← add_mulVec, leadOp_anticomm, smul_mulVec, one_mulVec, dotProduct_smul, smul_eq_mul]

/-- The weight of the transitions from `I` to `F`. -/
noncomputable def trWeight (n : ℕ) (es : Espace (ℕ × ℕ)) (a : List ℝ) (I F : TId) : ℝ :=
  ∑ σ : Bool, ((idKet n es F ⬝ᵥ leadOp n σ a *ᵥ idKet n es I) ^ 2 + (idKet n es F ⬝ᵥ (leadOp n σ a)ᵀ *ᵥ idKet n es I) ^ 2)

theorem trWeight_nonneg (a : List ℝ) (I F : TId) : 0 ≤ trWeight n es a I F := by
  unfold trWeight; positivity

/-- The label of an eigenstate. -/
def idOf (x : EigIdx n) : TId := ((x.1.1 : ℕ), (x.1.2 : ℕ), x.2)

theorem idOf_inj : Function.Injective (idOf (n := n)) := by
  rintro ⟨⟨u, d⟩, k⟩ ⟨⟨u', d'⟩, k'⟩ h
  simp only [idOf, Prod.mk.injEq, Nat.cast_inj] at h
  obtain ⟨h1, h2, h3⟩ := h
  obtain rfl := Fin.ext h1
  obtain rfl := Fin.ext h2
  obtain rfl := Fin.ext h3
  rfl

theorem idOf_surj {id : TId} (h : IsState n id) : ∃ x : EigIdx n, idOf x = id := by
  obtain ⟨u, d, k⟩ := id
  obtain ⟨h1, h2, h3, h4, h5⟩ := h
  simp only at h1 h2 h3 h4 h5
  refine ⟨⟨(⟨u.toNat, by omega⟩, ⟨d.toNat, by omega⟩), ⟨k, h5⟩⟩, ?_⟩
  simp [idOf, h1, h3]

theorem idKet_idOf (x : EigIdx n) : idKet n es (idOf x) = esKet n es x := by
  simp [idKet, idOf, esKet]

theorem trWeight_sum {H : Matrix (Finset (Fin (n + n))) (Finset (Fin (n + n))) ℝ} (hE : EigBasis H (esKet n es) (esVal n es)) {a : List ℝ} (ha : a.length = n) {I : TId} (hI : IsState n I) :
    ∑ x : EigIdx n, trWeight n es a I (idOf x) = 2 * coupling a := by
  obtain ⟨y, rfl⟩ := idOf_surj hI
  have hy : esKet n es y ⬝ᵥ esKet n es y = 1 := by rw [hE.orth, if_pos rfl]
  unfold trWeight
  simp only [idKet_idOf]
  rw [Finset.sum_comm]
  simp only [Finset.sum_add_distrib, hE.norm]
  rw [← Finset.sum_add_distrib]
  simp only [leadOp_norm, hy, mul_one, ← coupling_eq ha]
  simp

theorem dotArr_amp {a v : List ℝ} {s : ℝ} {f : ℕ → ℝ} (hv : v = (List.range n).map fun k => s * f k) {y : ℝ} (h : dotArr v a = .ok y) :
    a.length = n ∧ y = s * ∑ k : Fin n, (a[(k : ℕ)]?.getD 0) * f k := by
  unfold dotArr at h
  split at h
  · rename_i hl
    have e := Except.ok.inj h
    have hn : a.length = n := by rw [← hl, hv]; simp
    refine ⟨hn, ?_⟩
    subst hn
    rw [← e, hv, Finset.mul_sum, ← List.sum_ofFn]
    congr 1
    apply List.ext_getElem (by simp)
    intro i h1 h2
    simp at h1
    simp [h1]
    ring
  · cases h

theorem leadOp_dot (σ : Bool) (a : List ℝ) (F I : TId) :
    idKet n es F ⬝ᵥ leadOp n σ a *ᵥ idKet n es I = ∑ k : Fin n, (a[(k : ℕ)]?.getD 0) * addAmp n es σ F I k := by
  unfold leadOp
  rw [sum_mulVec, dotProduct_sum]
  refine Finset.sum_congr rfl fun k _ => ?_
  rw [smul_mulVec, dotProduct_smul, smul_eq_mul]
  simp [addAmp]

/-- What is used of a dictionary. -/
def SqElems (n : ℕ) (es : Espace (ℕ × ℕ)) (gd : GfDict) : Prop := ∀ F I g, dictGet gd (F, I) = .ok g → IsState n F ∧ IsState n I ∧
  ∃ σ s, s ^ 2 = 1 ∧ ((OneMore σ F I ∧ g.el = true ∧ g.E = idEnergy es F - idEnergy es I ∧ g.v = (List.range n).map fun k => s * addAmp n es σ F I k) ∨
    (OneMore σ I F ∧ g.el = false ∧ g.E = idEnergy es I - idEnergy es F ∧ g.v = (List.range n).map fun k => s * addAmp n es σ I F k))

theorem sqElems_of_run {a : HamArgs} (ha : a.Valid) {w : ℕ} (hw : a.n ≤ w) {e0 : WithTop ℝ} (h : BuildEspace w a none (.ok (es, e0))) {egs : ℝ} {cutoff : Option ℝ} {gd : GfDict}
    (hgd : sqBuild junk a.n egs es cutoff = .ok gd) : SqElems a.n es gd ∧ Conjugate gd (idEnergy es) ∧
      ∀ F I g, dictGet gd (F, I) = .ok g → NearGround a.n es egs F ∧ NearGround a.n es egs I := by
  obtain ⟨gd', h1, h2, h3⟩ := C155_elements ha hw h junk egs cutoff
  rw [hgd] at h1
  obtain rfl := Except.ok.inj h1
  obtain ⟨hs, ngs, hg, hact⟩ := espace_active ha hw h egs
  obtain ⟨gd', h4, h5⟩ := sqBuild_conjugate ha.le junk hs hg hact cutoff
  rw [hgd] at h4
  obtain rfl := Except.ok.inj h4
  refine ⟨fun F I g hg' => ?_, h5, fun F I g hg' => ?_⟩
  · obtain ⟨c1, c2, ⟨σ, hσ⟩, -⟩ := (h2 F I).mp ⟨g, hg'⟩
    rcases hσ with hσ | hσ
    · obtain ⟨d1, d2, s, hs, d3⟩ := (h3 F I g hg' σ).1 hσ
      exact ⟨c1, c2, σ, s, hs, .inl ⟨hσ, d1, d2, d3⟩⟩
    · obtain ⟨d1, d2, s, hs, d3⟩ := (h3 F I g hg' σ).2 hσ
      exact ⟨c1, c2, σ, s, hs, .inr ⟨hσ, d1, d2, d3⟩⟩
  · obtain ⟨-, -, -, c4, c5, -⟩ := (h2 F I).mp ⟨g, hg'⟩
    exact ⟨c4, c5⟩

theorem idCharge_oneMore {σ : Bool} {F I : TId} (h : OneMore σ F I) : idCharge F = idCharge I + 1 := by
  obtain ⟨h1, h2⟩ := h
  unfold idCharge
  rw [h1, h2]
  cases σ <;> push_cast <;> simp <;> ring

/-- The rate of one transition is its weight times the Fermi function of its cost. -/
theorem call_le {gd : GfDict} (hel : SqElems n es gd) {F I : TId} {g : GfT} (hg : dictGet gd (F, I) = .ok g) {a : List ℝ} {beta m γ : ℝ} (h : g.call a beta m = .ok γ) :
    a.length = n ∧ γ ≤ trWeight n es a I F * fermi (cost es m F I) beta := by
  unfold GfT.call at h
  cases hy : dotArr g.v a with
  | error e => rw [hy] at h; cases h
  | ok y =>
    rw [hy] at h
    have e := Except.ok.inj h
    obtain ⟨-, -, σ, s, hs, ⟨hm, e1, e2, e3⟩ | ⟨hm, e1, e2, e3⟩⟩ := hel F I g hg
    · obtain ⟨hn, ey⟩ := dotArr_amp e3 hy
      refine ⟨hn, ?_⟩
      rw [← leadOp_dot] at ey
      rw [← e, e1, if_pos rfl, show cost es m F I = g.E - m by unfold cost; rw [e2, idCharge_oneMore hm]; ring]
      refine mul_le_mul_of_nonneg_right ?_ (fermi_pos _ _).le
      rw [ey, mul_pow, hs, one_mul]
      unfold trWeight
      refine le_trans ?_ (Finset.single_le_sum (f := fun σ => (idKet n es F ⬝ᵥ leadOp n σ a *ᵥ idKet n es I) ^ 2 + (idKet n es F ⬝ᵥ (leadOp n σ a)ᵀ *ᵥ idKet n es I) ^ 2) (fun _ _ => by positivity) (Finset.mem_univ σ))
      exact le_add_of_nonneg_right (sq_nonneg _)
    · obtain ⟨hn, ey⟩ := dotArr_amp e3 hy
      refine ⟨hn, ?_⟩
      rw [← leadOp_dot] at ey
      rw [← e, e1, if_neg (by simp), show cost es m F I = -g.E + m by unfold cost; rw [e2, idCharge_oneMore hm]; ring]
      refine mul_le_mul_of_nonneg_right ?_ (fermi_pos _ _).le
      rw [ey, mul_pow, hs, one_mul]
      unfold trWeight
      refine le_trans ?_ (Finset.single_le_sum (f := fun σ => (idKet n es F ⬝ᵥ leadOp n σ a *ᵥ idKet n es I) ^ 2 + (idKet n es F ⬝ᵥ (leadOp n σ a)ᵀ *ᵥ idKet n es I) ^ 2) (fun _ _ => by positivity) (Finset.mem_univ σ))
      rw [show idKet n es I ⬝ᵥ leadOp n σ a *ᵥ idKet n es F = idKet n es F ⬝ᵥ (leadOp n σ a)ᵀ *ᵥ idKet n es I by
        rw [dotProduct_mulVec, ← mulVec_transpose, dotProduct_comm]]
      exact le_add_of_nonneg_left (sq_nonneg _)

theorem finalIds_nodup (gd : GfDict) : (finalIds gd).Nodup := by
  unfold finalIds uniqueSorted
  rw [(List.mergeSort_perm _ _).nodup_iff]
  exact List.nodup_dedup _

theorem finalIds_state {gd : GfDict} (hel : SqElems n es gd) {id : TId} (h : id ∈ finalIds gd) : IsState n id := by
  unfold finalIds at h
  rw [mem_uniqueSorted] at h
  obtain ⟨p, hp, rfl⟩ := List.mem_map.mp h
  obtain ⟨g, hg⟩ := dictGet_of_key (List.mem_map_of_mem (f := Prod.fst) hp)
  exact (hel p.1.1 p.1.2 g hg).1

theorem fermi_le_one (x beta : ℝ) : fermi x beta ≤ 1 := by
  unfold fermi
  rw [div_le_one (by positivity)]
  linarith [Real.exp_pos (beta * x)]

theorem fermi_le_exp {beta D x : ℝ} (hb : 0 ≤ beta) (h : D ≤ x) : fermi x beta ≤ Real.exp (-beta * D) := by
  unfold fermi
  rw [div_le_iff₀ (by positivity), show -beta * D = -(beta * D) by ring, Real.exp_neg, ← div_eq_inv_mul, le_div_iff₀ (Real.exp_pos _), one_mul]
  have := Real.exp_le_exp.mpr (mul_le_mul_of_nonneg_left h hb)
  linarith

/-- The flow of one transition. -/
theorem sqFlow_cases {gd : GfDict} {beta m0 m1 : ℝ} {a0 a1 : List ℝ} {lead : ℕ} (hl : lead < 2) {i f : ℕ} (h : sqFlow gd beta [m0, m1] [a0, a1] lead (i, f) ≠ 0) :
    ∃ F I g, (finalIds gd)[f]? = some F ∧ (finalIds gd)[i]? = some I ∧ dictGet gd (F, I) = .ok g ∧
      g.call (if lead = 0 then a0 else a1) beta (if lead = 0 then m0 else m1) = .ok (sqFlow gd beta [m0, m1] [a0, a1] lead (i, f)) := by
  unfold sqFlow at h ⊢
  simp only at h ⊢
  cases hF : (finalIds gd)[f]? with
  | none => simp [hF] at h
  | some F =>
    cases hI : (finalIds gd)[i]? with
    | none => simp [hF, hI] at h
    | some I =>
      simp only [hF, hI] at h ⊢
      cases hγ : sqGamma gd beta [m0, m1] [a0, a1] lead F I with
      | none => simp [hγ] at h
      | some γ =>
        obtain ⟨g, a, m, h1, h2, h3, h4⟩ := sqGamma_some hγ
        rw [(lead_items (m0 := m0) (m1 := m1) (a0 := a0) (a1 := a1) hl).1] at h3
        rw [(lead_items (m0 := m0) (m1 := m1) (a0 := a0) (a1 := a1) hl).2] at h2
        rw [Except.ok.inj h2, Except.ok.inj h3]
        exact ⟨F, I, g, rfl, rfl, h1, h4⟩

/-- **Escape rates.** All rates out of a state through one lead add up to at most `2 Σ a_k²` times the largest Fermi factor. -/
theorem escape_le {gd : GfDict} (hel : SqElems n es gd) {H : Matrix (Finset (Fin (n + n))) (Finset (Fin (n + n))) ℝ} (hE : EigBasis H (esKet n es) (esVal n es)) {beta m0 m1 B : ℝ} {a0 a1 : List ℝ}
    {lead : ℕ} (hl : lead < 2) (hB : 0 ≤ B) {i : ℕ} (hi : i < (finalIds gd).length)
    (hf : ∀ F I g, (finalIds gd)[i]? = some I → dictGet gd (F, I) = .ok g → fermi (cost es (if lead = 0 then m0 else m1) F I) beta ≤ B) :
    ∑ f ∈ Finset.range (finalIds gd).length, sqFlow gd beta [m0, m1] [a0, a1] lead (i, f) ≤ 2 * coupling (if lead = 0 then a0 else a1) * B := by
  classical
  set a := if lead = 0 then a0 else a1
  have hc0 : 0 ≤ coupling a := List.sum_nonneg (by intro x hx; obtain ⟨y, -, rfl⟩ := List.mem_map.mp hx; positivity)
  by_cases hn : a.length = n
  · set I := (finalIds gd)[i]
    have hI : (finalIds gd)[i]? = some I := List.getElem?_eq_getElem hi
    have hIs : IsState n I := finalIds_state hel (List.getElem_mem hi)
    have h1 : ∀ f ∈ Finset.range (finalIds gd).length, sqFlow gd beta [m0, m1] [a0, a1] lead (i, f) ≤ B * trWeight n es a I ((finalIds gd)[f]?.getD I) := by
      intro f hfr
      by_cases h0 : sqFlow gd beta [m0, m1] [a0, a1] lead (i, f) = 0
      · rw [h0]; exact mul_nonneg hB (trWeight_nonneg _ _ _)
      · obtain ⟨F, I', g, e1, e2, e3, e4⟩ := sqFlow_cases hl h0
        rw [hI] at e2
        obtain rfl := Option.some.inj e2
        have := (call_le hel e3 e4).2
        rw [e1, Option.getD_some]
        refine this.trans ?_
        rw [mul_comm]
        exact mul_le_mul_of_nonneg_right (hf F _ g hI e3) (trWeight_nonneg _ _ _)
    refine (Finset.sum_le_sum h1).trans ?_
    rw [← Finset.mul_sum, mul_comm _ B]
    refine mul_le_mul_of_nonneg_left ?_ hB
    rw [← trWeight_sum hE hn hIs]
    have e1 : ∑ f ∈ Finset.range (finalIds gd).length, trWeight n es a I ((finalIds gd)[f]?.getD I) = ((finalIds gd).map fun F => trWeight n es a I F).sum := by
      rw [Finset.sum_range, ← List.sum_ofFn]
      congr 1
      apply List.ext_getElem (by simp)
      intro k k1 k2
      simp at k2
      simp [k2]
    rw [e1, ← List.sum_toFinset _ (finalIds_nodup gd), ← Finset.sum_image (s := Finset.univ) (g := idOf) (f := fun F => trWeight n es a I F) (fun _ _ _ _ h => idOf_inj h)]
    refine Finset.sum_le_sum_of_subset_of_nonneg ?_ fun _ _ _ => trWeight_nonneg _ _ _
    intro id hid
    obtain ⟨x, hx⟩ := idOf_surj (finalIds_state hel (List.mem_toFinset.mp hid))
    exact Finset.mem_image.mpr ⟨x, Finset.mem_univ _, hx⟩
  · rw [Finset.sum_eq_zero]
    · positivity
    · intro f _
      by_contra h0
      obtain ⟨F, I', g, e1, e2, e3, e4⟩ := sqFlow_cases hl h0
      exact hn (call_le hel e3 e4).1

/-- Only transitions between neighbouring charges carry a flow. -/
theorem sqFlow_charge {gd : GfDict} (hel : SqElems n es gd) {beta m0 m1 : ℝ} {a0 a1 : List ℝ} {lead : ℕ} (hl : lead < 2) {i f : ℕ} (h : sqFlow gd beta [m0, m1] [a0, a1] lead (i, f) ≠ 0) :
    |atId gd idCharge f - atId gd idCharge i| = 1 := by
  obtain ⟨F, I, g, e1, e2, e3, -⟩ := sqFlow_cases hl h
  obtain ⟨hf, rfl⟩ := List.getElem?_eq_some_iff.mp e1
  obtain ⟨hi, rfl⟩ := List.getElem?_eq_some_iff.mp e2
  unfold atId
  rw [dif_pos hf, dif_pos hi]
  obtain ⟨-, -, σ, s, hs, ⟨hm, -⟩ | ⟨hm, -⟩⟩ := hel _ _ g e3 <;> rw [idCharge_oneMore hm] <;> norm_num

theorem leadCurrent_le {gd : GfDict} (hel : SqElems n es gd) (hc : Conjugate gd (idEnergy es)) (beta m0 m1 : ℝ) (a0 a1 : List ℝ) {p : ℕ → ℝ} (hp : ∀ i < (finalIds gd).length, 0 ≤ p i) {lead : ℕ} (hl : lead < 2) :
    |leadCurrent gd beta (if lead = 0 then m0 else m1) (if lead = 0 then a0 else a1) p| ≤
      ∑ f ∈ Finset.range (finalIds gd).length, ∑ i ∈ Finset.range (finalIds gd).length, if i ≠ f then sqFlow gd beta [m0, m1] [a0, a1] lead (i, f) * p i else 0 := by
  rw [leadCurrent_flow hc beta m0 m1 a0 a1 p hl]
  refine (Finset.abs_sum_le_sum_abs _ _).trans (Finset.sum_le_sum fun f _ => ?_)
  refine (Finset.abs_sum_le_sum_abs _ _).trans (Finset.sum_le_sum fun i hi => ?_)
  split_ifs with hif
  · by_cases h0 : sqFlow gd beta [m0, m1] [a0, a1] lead (i, f) = 0
    · simp [h0]
    · rw [abs_mul, abs_mul, sqFlow_charge hel hl h0, mul_one, abs_of_nonneg (sqFlow_nonneg _ _ _ _ _ _), abs_of_nonneg (hp i (Finset.mem_range.mp hi))]
  · simp

/-! ## C156 -/

/-- A general bound: states whose transitions all cost at least `D` contribute at most `2 Σ a_k² exp(-β D)`, the others at most `2 Σ a_k²`. -/
theorem current_bound {gd : GfDict} (hel : SqElems n es gd) (hc : Conjugate gd (idEnergy es)) {H : Matrix (Finset (Fin (n + n))) (Finset (Fin (n + n))) ℝ} (hE : EigBasis H (esKet n es) (esVal n es))
    {beta m D : ℝ} (hb : 0 ≤ beta) {a : List ℝ} {p : ℕ → ℝ} (hp : ∀ i < (finalIds gd).length, 0 ≤ p i) (S : TId → Prop) (hS : ∀ F I g, dictGet gd (F, I) = .ok g → S I → D ≤ cost es m F I) :
    |leadCurrent gd beta m a p| ≤ 2 * coupling a * (Real.exp (-beta * D) * probOf gd p S + probOf gd p fun I => ¬ S I) := by
  classical
  have h := leadCurrent_le hel hc beta m m a a hp (lead := 0) (by norm_num)
  simp only [if_true] at h
  refine h.trans ?_
  rw [Finset.sum_comm]
  unfold probOf
  rw [Finset.mul_sum (Finset.range _) _ (Real.exp _), ← Finset.sum_add_distrib, Finset.mul_sum]
  refine Finset.sum_le_sum fun i hi => ?_
  have hir := Finset.mem_range.mp hi
  have hp' := hp i hir
  have h1 : (∑ f ∈ Finset.range (finalIds gd).length, if i ≠ f then sqFlow gd beta [m, m] [a, a] 0 (i, f) * p i else 0) ≤ (∑ f ∈ Finset.range (finalIds gd).length, sqFlow gd beta [m, m] [a, a] 0 (i, f)) * p i := by
    rw [Finset.sum_mul]
    refine Finset.sum_le_sum fun f _ => ?_
    split_ifs
    · exact le_rfl
    · exact mul_nonneg (sqFlow_nonneg _ _ _ _ _ _) hp'
  refine h1.trans ?_
  have hI : (finalIds gd)[i]? = some (finalIds gd)[i] := List.getElem?_eq_getElem hir
  by_cases hs : S (finalIds gd)[i]
  · have h2 := escape_le hel hE (beta := beta) (m0 := m) (m1 := m) (B := Real.exp (-beta * D)) (a0 := a) (a1 := a) (lead := 0) (by norm_num) (Real.exp_pos _).le hir fun F I g e1 e2 => by
      rw [hI] at e1
      obtain rfl := Option.some.inj e1
      simp only [if_true]
      exact fermi_le_exp hb (hS F _ g e2 hs)
    simp only [if_true] at h2
    rw [if_pos ⟨_, hI, hs⟩, if_neg]
    · have := mul_le_mul_of_nonneg_right h2 hp'
      linarith
    · rintro ⟨I, e1, e2⟩
      rw [hI] at e1
      obtain rfl := Option.some.inj e1
      exact e2 hs
  · have h2 := escape_le hel hE (beta := beta) (m0 := m) (m1 := m) (B := 1) (a0 := a) (a1 := a) (lead := 0) (by norm_num) zero_le_one hir fun F I g e1 e2 => fermi_le_one _ _
    simp only [if_true] at h2
    rw [if_pos (c := ∃ I, (finalIds gd)[i]? = some I ∧ ¬ S I) ⟨_, hI, hs⟩, if_neg]
    · have := mul_le_mul_of_nonneg_right h2 hp'
      linarith
    · rintro ⟨I, e1, e2⟩
      rw [hI] at e1
      obtain rfl := Option.some.inj e1
      exact hs e2

/-- **C156** For every Hamiltonian, temperature, chemical potential, couplings `a_k` and distribution over the states, the current through a lead is at most `2 Σ_k a_k²`
(one electron of each spin), whatever the number of states. -/
theorem C156_limit {a : HamArgs} (ha : a.Valid) {w : ℕ} (hw : a.n ≤ w) {e0 : WithTop ℝ} (h : BuildEspace w a none (.ok (es, e0))) {egs : ℝ} {cutoff : Option ℝ} {gd : GfDict}
    (hgd : sqBuild junk a.n egs es cutoff = .ok gd) {beta : ℝ} (hb : 0 ≤ beta) (m : ℝ) (v : List ℝ) {p : ℕ → ℝ} (hp : IsDist (finalIds gd).length p) :
    |leadCurrent gd beta m v p| ≤ 2 * coupling v := by
  obtain ⟨h1, h2, -⟩ := sqElems_of_run ha hw h hgd
  have := current_bound h1 h2 (buildEspace_eigen ha hw h).basis (m := m) (D := 0) hb (a := v) hp.1 (fun _ => False) (fun _ _ _ _ hF => hF.elim)
  refine this.trans_eq ?_
  have e : (probOf gd p fun _ => ¬ False) = 1 := by
    unfold probOf
    rw [← hp.2]
    refine Finset.sum_congr rfl fun i hi => ?_
    rw [if_pos ⟨_, List.getElem?_eq_getElem (Finset.mem_range.mp hi), id⟩]
  have e' : (probOf gd p fun _ => False) = 0 := by
    unfold probOf
    simp
  rw [e, e']; ring

/-- **C156** States that are left only at a cost of at least `D` contribute at most `2 Σ_k a_k² exp(-β D)` to the current, for every distribution. -/
theorem C156_states {a : HamArgs} (ha : a.Valid) {w : ℕ} (hw : a.n ≤ w) {e0 : WithTop ℝ} (h : BuildEspace w a none (.ok (es, e0))) {egs : ℝ} {cutoff : Option ℝ} {gd : GfDict}
    (hgd : sqBuild junk a.n egs es cutoff = .ok gd) {beta m D : ℝ} (hb : 0 ≤ beta) (v : List ℝ) {p : ℕ → ℝ} (hp : IsDist (finalIds gd).length p) (S : TId → Prop)
    (hS : ∀ F I g, dictGet gd (F, I) = .ok g → S I → D ≤ cost es m F I) :
    |leadCurrent gd beta m v p| ≤ 2 * coupling v * (Real.exp (-beta * D) * probOf gd p S + probOf gd p fun I => ¬ S I) := by
  obtain ⟨h1, h2, -⟩ := sqElems_of_run ha hw h hgd
  exact current_bound h1 h2 (buildEspace_eigen ha hw h).basis hb hp.1 S hS

/-- **C156** Coulomb blockade: if all ground states have charge `N` and every transition from a state of charge `N` costs at least `D` at both leads, then in every stationary state of the rate
matrix the current through either lead is at most `2 (Σ a0_k² + Σ a1_k²) exp(-β D)`, whatever the voltage. -/
theorem C156_blockade {a : HamArgs} (ha : a.Valid) {w : ℕ} (hw : a.n ≤ w) {e0 : WithTop ℝ} (h : BuildEspace w a none (.ok (es, e0))) {egs : ℝ} {cutoff : Option ℝ} {gd : GfDict}
    (hgd : sqBuild junk a.n egs es cutoff = .ok gd) {beta m0 m1 D : ℝ} (hb : 0 ≤ beta) (a0 a1 : List ℝ) {p : ℕ → ℝ} (hp : IsDist (finalIds gd).length p)
    (hst : IsStationary (finalIds gd).length (sqRate gd beta [m0, m1] [a0, a1]) p) (N : ℕ) (hN : ∀ g : ℕ × ℕ, g.1 ≤ a.n → g.2 ≤ a.n → GroundSector es egs g → g.1 + g.2 = N)
    (hD : ∀ F I g, dictGet gd (F, I) = .ok g → idCharge I = N → D ≤ cost es m0 F I ∧ D ≤ cost es m1 F I) :
    |leadCurrent gd beta m0 a0 p| ≤ 2 * (coupling a0 + coupling a1) * Real.exp (-beta * D) ∧ |leadCurrent gd beta m1 a1 p| ≤ 2 * (coupling a0 + coupling a1) * Real.exp (-beta * D) := by
  classical
  obtain ⟨hel, hc, hnear⟩ := sqElems_of_run ha hw h hgd
  have hE := (buildEspace_eigen ha hw h).basis
  have hcons := C94_conservation hc hst
  set sz := (finalIds gd).length
  set ind : ℕ → ℝ := fun i => if atId gd idCharge i = N then 1 else 0
  have h0 := leadCurrent_le hel hc beta m0 m1 a0 a1 hp.1 (lead := 0) (by norm_num)
  have h1 := leadCurrent_le hel hc beta m0 m1 a0 a1 hp.1 (lead := 1) (by norm_num)
  simp only [if_true] at h0
  simp only [one_ne_zero, if_false] at h1
  -- exactly one end of a transition has charge `N`
  have hone : ∀ lead < 2, ∀ i f, sqFlow gd beta [m0, m1] [a0, a1] lead (i, f) ≠ 0 → ind i + ind f = 1 := by
    intro lead hl i f h0
    obtain ⟨F, I, g, e1, e2, e3, -⟩ := sqFlow_cases hl h0
    obtain ⟨hf, rfl⟩ := List.getElem?_eq_some_iff.mp e1
    obtain ⟨hi, rfl⟩ := List.getElem?_eq_some_iff.mp e2
    obtain ⟨n1, n2⟩ := hnear _ _ g e3
    obtain ⟨-, -, σ, s, -, hm⟩ := hel _ _ g e3
    have hm' : ∃ σ, OneMore σ (finalIds gd)[f] (finalIds gd)[i] ∨ OneMore σ (finalIds gd)[i] (finalIds gd)[f] := ⟨σ, hm.imp And.left And.left⟩
    have key : ∀ id : TId, NearGround a.n es egs id → |id.1 + id.2.1 - (N : ℤ)| ≤ 1 := by
      rintro id ⟨g, g1, g2, g3, g4⟩
      have := hN g g1 g2 g3
      rw [abs_add_abs_le_one] at g4
      rw [abs_le]
      omega
    have k1 := key _ n1
    have k2 := key _ n2
    have ec : ∀ (j : ℕ) (hj : j < (finalIds gd).length), (atId gd idCharge j = N ↔ (finalIds gd)[j].1 + (finalIds gd)[j].2.1 = (N : ℤ)) := by
      intro j hj
      unfold atId idCharge
      rw [dif_pos hj]
      exact_mod_cast Iff.rfl
    simp only [ind, ec i hi, ec f hf]
    generalize (finalIds gd)[f] = F at *
    generalize (finalIds gd)[i] = I at *
    rw [abs_le] at k1 k2
    have hx : (F.1 + F.2.1 = I.1 + I.2.1 + 1) ∨ (I.1 + I.2.1 = F.1 + F.2.1 + 1) := by
      obtain ⟨σ, hσ | hσ⟩ := hm' <;> obtain ⟨s1, s2⟩ := hσ <;> cases σ <;> simp at s1 s2 <;> omega
    by_cases cI : I.1 + I.2.1 = (N : ℤ)
    · rw [if_pos cI, if_neg (by omega)]; norm_num
    · rw [if_neg cI, if_pos (by omega)]; norm_num
  have hsum : ∀ lead < 2, ∀ i f, sqFlow gd beta [m0, m1] [a0, a1] lead (i, f) = sqFlow gd beta [m0, m1] [a0, a1] lead (i, f) * (ind i + ind f) := by
    intro lead hl i f
    by_cases hz : sqFlow gd beta [m0, m1] [a0, a1] lead (i, f) = 0
    · rw [hz, zero_mul]
    · rw [hone lead hl i f hz, mul_one]
  have hmean := rate_mean gd beta [m0, m1] [a0, a1] p ind
  rw [Finset.sum_eq_zero (s := Finset.range (finalIds gd).length) (f := fun f => ind f * _) (fun f hf => by rw [hst f (Finset.mem_range.mp hf), mul_zero])] at hmean
  have htot : (∑ f ∈ Finset.range sz, ∑ i ∈ Finset.range sz, if i ≠ f then sqFlow gd beta [m0, m1] [a0, a1] 0 (i, f) * p i else 0) +
      (∑ f ∈ Finset.range sz, ∑ i ∈ Finset.range sz, if i ≠ f then sqFlow gd beta [m0, m1] [a0, a1] 1 (i, f) * p i else 0) =
      2 * ∑ f ∈ Finset.range sz, ∑ i ∈ Finset.range sz, if i ≠ f then (sqFlow gd beta [m0, m1] [a0, a1] 0 (i, f) + sqFlow gd beta [m0, m1] [a0, a1] 1 (i, f)) * ind i * p i else 0 := by
    rw [← sub_eq_zero, ← Finset.sum_add_distrib, Finset.mul_sum, ← Finset.sum_sub_distrib, ← hmean]
    refine Finset.sum_congr rfl fun f _ => ?_
    rw [← Finset.sum_add_distrib, Finset.mul_sum, ← Finset.sum_sub_distrib]
    refine Finset.sum_congr rfl fun i _ => ?_
    split_ifs
    · have e0 := hsum 0 (by norm_num) i f
      have e1 := hsum 1 (by norm_num) i f
      linear_combination p i * e0 + p i * e1
    · ring
  have hD0 : 0 ≤ Real.exp (-beta * D) := (Real.exp_pos _).le
  have hout : (∑ f ∈ Finset.range sz, ∑ i ∈ Finset.range sz, if i ≠ f then (sqFlow gd beta [m0, m1] [a0, a1] 0 (i, f) + sqFlow gd beta [m0, m1] [a0, a1] 1 (i, f)) * ind i * p i else 0) ≤
      2 * (coupling a0 + coupling a1) * Real.exp (-beta * D) := by
    rw [Finset.sum_comm, ← mul_one (2 * (coupling a0 + coupling a1) * Real.exp (-beta * D)), ← hp.2, Finset.mul_sum]
    refine Finset.sum_le_sum fun i hi => ?_
    have hir := Finset.mem_range.mp hi
    have hp' := hp.1 i hir
    have hcp : ∀ v, 0 ≤ coupling v := fun v => List.sum_nonneg (by intro x hx; obtain ⟨y, -, rfl⟩ := List.mem_map.mp hx; positivity)
    have hle : (∑ f ∈ Finset.range sz, if i ≠ f then (sqFlow gd beta [m0, m1] [a0, a1] 0 (i, f) + sqFlow gd beta [m0, m1] [a0, a1] 1 (i, f)) * ind i * p i else 0) ≤
        (∑ f ∈ Finset.range sz, sqFlow gd beta [m0, m1] [a0, a1] 0 (i, f) + ∑ f ∈ Finset.range sz, sqFlow gd beta [m0, m1] [a0, a1] 1 (i, f)) * ind i * p i := by
      rw [← Finset.sum_add_distrib, Finset.sum_mul, Finset.sum_mul]
      refine Finset.sum_le_sum fun f _ => ?_
      split_ifs
      · exact le_rfl
      · have i0 : 0 ≤ ind i := by simp only [ind]; split_ifs <;> norm_num
        exact mul_nonneg (mul_nonneg (add_nonneg (sqFlow_nonneg _ _ _ _ _ _) (sqFlow_nonneg _ _ _ _ _ _)) i0) hp'
    refine hle.trans (mul_le_mul_of_nonneg_right ?_ hp')
    by_cases hi : atId gd idCharge i = N
    · have hind : ind i = 1 := if_pos hi
      rw [hind, mul_one]
      have hch : ∀ I, (finalIds gd)[i]? = some I → idCharge I = N := by
        intro I hI
        obtain ⟨hi', rfl⟩ := List.getElem?_eq_some_iff.mp hI
        rw [← hi]
        unfold atId
        rw [dif_pos hi']
      have l0 := escape_le hel hE (beta := beta) (m0 := m0) (m1 := m1) (B := Real.exp (-beta * D)) (a0 := a0) (a1 := a1) (lead := 0) (by norm_num) hD0 hir fun F I g e1 e2 => by
        simp only [if_true]
        exact fermi_le_exp hb (hD F I g e2 (hch I e1)).1
      have l1 := escape_le hel hE (beta := beta) (m0 := m0) (m1 := m1) (B := Real.exp (-beta * D)) (a0 := a0) (a1 := a1) (lead := 1) (by norm_num) hD0 hir fun F I g e1 e2 => by
        simp only [one_ne_zero, if_false]
        exact fermi_le_exp hb (hD F I g e2 (hch I e1)).2
      simp only [if_true] at l0
      simp only [one_ne_zero, if_false] at l1
      linarith
    · have hind : ind i = 0 := if_neg hi
      rw [hind, mul_zero]
      have := hcp a0
      have := hcp a1
      positivity
  have habs : |leadCurrent gd beta m0 a0 p| = |leadCurrent gd beta m1 a1 p| := by rw [hcons, abs_neg]
  constructor <;> linarith

/-- Every rate matrix has a stationary distribution. -/
theorem exists_stationary {sz : ℕ} (hsz : 0 < sz) {W : ℕ → ℕ → ℝ} (hW : IsRateMatrix sz W) : ∃ p, IsDist sz p ∧ IsStationary sz W p := by
  have hx : ∃ x : ℕ → ℝ, IsStationary sz W x ∧ ∃ i, i < sz ∧ x i ≠ 0 := by
    obtain ⟨x0, ⟨i, hi, hne⟩, h⟩ := rate_zero hW hsz
    have hre : IsStationary sz W fun i => (x0 i).re := fun f hf => by
      have := congrArg Complex.re (h f hf)
      rw [zero_mul, Complex.re_sum] at this
      simpa using this
    have him : IsStationary sz W fun i => (x0 i).im := fun f hf => by
      have := congrArg Complex.im (h f hf)
      rw [zero_mul, Complex.im_sum] at this
      simpa using this
    by_cases h0 : (x0 i).re = 0
    · exact ⟨_, him, i, hi, fun h1 => hne (Complex.ext h0 h1)⟩
    · exact ⟨_, hre, i, hi, h0⟩
  obtain ⟨x, hst, i, hi, hne⟩ := hx
  have hpos : 0 < ∑ i ∈ Finset.range sz, |x i| := by
    refine lt_of_lt_of_le (abs_pos.mpr hne) (Finset.single_le_sum (f := fun i => |x i|) (fun _ _ => abs_nonneg _) (Finset.mem_range.mpr hi))
  refine ⟨fun i => |x i| / ∑ i ∈ Finset.range sz, |x i|, ⟨fun i _ => by positivity, by rw [← Finset.sum_div, div_self hpos.ne']⟩, fun f hf => ?_⟩
  have := abs_stationary hW hst f hf
  simp only [← mul_div_assoc, ← Finset.sum_div, this, zero_div]

/-- Non-vacuity: two sites filled with four electrons, at a bias of 1, with both leads coupled to both sites. -/
example : ∃ es e0 gd p, BuildEspace 64 hotArgs none (.ok (es, e0)) ∧ sqBuild 0 2 (-6) es none = .ok gd ∧ IsDist (finalIds gd).length p ∧
    IsStationary (finalIds gd).length (sqRate gd 100 [1 / 2, -1 / 2] [[1, 2], [3, 4]]) p ∧ |leadCurrent gd 100 (1 / 2) [1, 2] p| ≤ 60 * Real.exp (-50) := by
  obtain ⟨l, hl, hlb⟩ := C25_default_neig hotArgs.n
  obtain ⟨⟨⟨es, e0⟩, h⟩, -⟩ := C25_build_espace_partial hotArgs_valid (w := 64) (by simp [hotArgs, Imp.args]) l hlb
  have h' : BuildEspace 64 hotArgs none (.ok (es, e0)) := by
    simp only [BuildEspace, hl]
    simpa only [BuildEspace, neigOrDefault] using h
  have hE : EigenEspace 2 (Matrix.diagonal hotE) es := by
    have := buildEspace_eigen hotArgs_valid (by simp [hotArgs, Imp.args]) h'
    rw [hot_ham] at this
    exact this
  have hsct : ∀ u d : ℕ, u ≤ 2 → d ≤ 2 → SctSub 2 (Matrix.diagonal hotE) (u, d) (sctAt es (u, d)) ∧ (sctAt es (u, d)).eigvals.length = Nat.choose 2 u * Nat.choose 2 d := by
    intro u d hu hd
    obtain ⟨up, dw, hm, -, hok, hc, -, hlen⟩ := hE.toCompleteEspace.at (u := u) (d := d) hu hd
    exact ⟨SctSub.of_complete ⟨⟨up, dw, hok⟩, fun k hk => hE.eig _ hm k hk⟩ hc, hlen⟩
  have hen : ∀ id : TId, IsState 2 id → (id.1 = 2 ∧ id.2.1 = 2 → idEnergy es id = -6) ∧ (¬ (id.1 = 2 ∧ id.2.1 = 2) → -5 ≤ idEnergy es id) := by
    rintro ⟨x, y, k⟩ ⟨b1, b2, b3, b4, b5⟩
    obtain ⟨u, rfl⟩ := Int.eq_ofNat_of_zero_le b1
    obtain ⟨d, rfl⟩ := Int.eq_ofNat_of_zero_le b3
    simp only [Int.toNat_natCast] at b5
    simp only at b2 b4
    have hu : u ≤ 2 := by exact_mod_cast b2
    have hd : d ≤ 2 := by exact_mod_cast b4
    obtain ⟨hS, hlen⟩ := hsct u d hu hd
    have e : idEnergy es ((u : ℤ), (d : ℤ), k) = (sctAt es (u, d)).eigvals[k]?.getD 0 := by
      unfold idEnergy
      obtain ⟨up, dw, hm, hget, -⟩ := hE.toCompleteEspace.at (u := u) (d := d) hu hd
      simp only
      rw [show (((u : ℤ), (d : ℤ)) : ℤ × ℤ) = zp (u, d) from rfl, espaceGet_zp, hget]
    rw [e]
    simp only
    constructor
    · rintro ⟨h1, h2⟩
      obtain rfl : u = 2 := by exact_mod_cast h1
      obtain rfl : d = 2 := by exact_mod_cast h2
      exact (hot_low hS (by rw [hlen]; exact b5)).1
    · intro hne
      exact hot_high (by rintro ⟨⟩; exact hne ⟨rfl, rfl⟩) hS (by rw [hlen]; exact b5)
  have hground : ∀ g : ℕ × ℕ, g.1 ≤ 2 → g.2 ≤ 2 → (GroundSector es (-6) g ↔ g = (2, 2)) := by
    rintro ⟨u, d⟩ hu hd
    simp only at hu hd
    obtain ⟨hS, hlen⟩ := hsct u d hu hd
    constructor
    · rintro ⟨e, he, -, hlt⟩
      by_contra hne
      obtain ⟨k, hk, rfl⟩ := List.getElem_of_mem he
      have := hot_high hne hS hk
      rw [List.getElem?_eq_getElem hk, Option.getD_some] at this
      rw [abs_lt] at hlt
      norm_num at hlt
      linarith [hlt.2]
    · rintro ⟨⟩
      have hk : 0 < (sctAt es (2, 2)).eigvals.length := by rw [hlen]; decide
      have hall : ∀ e ∈ (sctAt es (2, 2)).eigvals, e = -6 := by
        intro e he
        obtain ⟨k, hk, rfl⟩ := List.getElem_of_mem he
        have := (hot_low hS hk).1
        rwa [List.getElem?_eq_getElem hk, Option.getD_some] at this
      refine ⟨_, List.getElem_mem hk, fun e' he' => by rw [hall _ (List.getElem_mem hk), hall e' he'], ?_⟩
      rw [hall _ (List.getElem_mem hk)]
      norm_num
  obtain ⟨gd, h1, h2, -⟩ := C155_elements hotArgs_valid (w := 64) (by simp [hotArgs, Imp.args]) h' 0 (-6) none
  have hsz : 0 < (finalIds gd).length := by
    obtain ⟨g, hg⟩ := (h2 (1, 2, 0) (2, 2, 0)).mpr ⟨by simp [IsState, hotArgs, Imp.args], by simp [IsState, hotArgs, Imp.args], ⟨false, .inr (by simp [OneMore])⟩,
      ⟨(2, 2), by simp [hotArgs, Imp.args], by simp [hotArgs, Imp.args], (hground (2, 2) le_rfl le_rfl).mpr rfl, by simp⟩,
      ⟨(2, 2), by simp [hotArgs, Imp.args], by simp [hotArgs, Imp.args], (hground (2, 2) le_rfl le_rfl).mpr rfl, by simp⟩, by simp [WithinCutoff]⟩
    have hm : ((1, 2, 0) : TId) ∈ finalIds gd := by
      unfold finalIds
      rw [mem_uniqueSorted]
      exact List.mem_map.mpr ⟨_, dictGet_mem_of_ok hg, rfl⟩
    exact List.length_pos_of_mem hm
  obtain ⟨p, hp, hst⟩ := exists_stationary hsz (C55_sequential gd 100 [1 / 2, -1 / 2] [[1, 2], [3, 4]])
  refine ⟨es, e0, gd, p, h', h1, hp, hst, ?_⟩
  have := (C156_blockade hotArgs_valid (w := 64) (by simp [hotArgs, Imp.args]) h' h1 (D := 1 / 2) (by norm_num) _ _ hp hst 4 (fun g g1 g2 hg => by rw [(hground g g1 g2).mp hg]; norm_num) ?_).1
  · refine this.trans (le_of_eq ?_)
    norm_num [coupling]
  · intro F I g hg hI
    obtain ⟨c1, c2, ⟨σ, hσ⟩, -⟩ := (h2 F I).mp ⟨g, hg⟩
    have hI' : I.1 + I.2.1 = 4 := by
      unfold idCharge at hI
      exact_mod_cast hI
    have c1' : IsState 2 F := c1
    have c2' : IsState 2 I := c2
    have i1 : I.1 = 2 ∧ I.2.1 = 2 := by
      obtain ⟨b1, b2, b3, b4, -⟩ := c2'
      push_cast at b2 b4
      omega
    have f1 : idCharge F = 3 ∧ ¬ (F.1 = 2 ∧ F.2.1 = 2) := by
      obtain ⟨b1, b2, b3, b4, -⟩ := c1'
      push_cast at b2 b4
      rcases hσ with hσ | hσ
      · obtain ⟨s1, s2⟩ := hσ
        cases σ <;> simp at s1 s2 <;> omega
      · have h3 := idCharge_oneMore hσ
        refine ⟨by rw [hI] at h3; push_cast at h3; linarith, ?_⟩
        obtain ⟨s1, s2⟩ := hσ
        cases σ <;> simp at s1 s2 <;> omega
    have e1 := (hen I c2').1 i1
    have e2 := (hen F c1').2 f1.2
    unfold cost
    rw [e1, f1.1, hI]
    constructor <;> push_cast <;> linarith

end Edpyt
