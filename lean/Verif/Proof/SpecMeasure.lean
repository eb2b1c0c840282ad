import Verif.Proof.ContFrac
import Verif.Proof.Amplitude
import Verif.Proof.Gibbs
import Verif.Props.Stable
import Mathlib.Analysis.InnerProductSpace.PiL2
/-!
The resolvent of a symmetric matrix at one site determines the spectral weights at that site; two matrices with the same local resolvent
have a common set of eigenvectors that contain the site.
-/
namespace Edpyt
open Edpyt.Spec Matrix

/-- Weight of the site `i0` in the eigenspace of energy `p`. -/
noncomputable def siteWeight {ι : Type} [Fintype ι] (u : ι → ι → ℝ) (E : ι → ℝ) (i0 : ι) (p : ℝ) : ℝ := ∑ l, if E l = p then u l i0 ^ 2 else 0

open Filter Topology in
/-- The residue of a sum of poles. -/
theorem residue_lim {ι : Type} [Fintype ι] (w E : ι → ℝ) (p : ℝ) :
    Tendsto (fun η : ℝ => (Complex.I * η) * ∑ l, (w l : ℂ) / (p + Complex.I * η - E l)) (𝓝[≠] 0) (𝓝 ((∑ l, if E l = p then w l else 0 : ℝ) : ℂ)) := by
  have h : ∀ l, Tendsto (fun η : ℝ => (Complex.I * η) * ((w l : ℂ) / (p + Complex.I * η - E l))) (𝓝[≠] 0) (𝓝 ((if E l = p then w l else 0 : ℝ) : ℂ)) := by
    intro l
    by_cases hl : E l = p
    · rw [if_pos hl]
      refine tendsto_const_nhds.congr' ?_
      filter_upwards [self_mem_nhdsWithin] with η hη
      have : (Complex.I * η : ℂ) ≠ 0 := mul_ne_zero Complex.I_ne_zero (Complex.ofReal_ne_zero.mpr hη)
      rw [hl, add_sub_cancel_left]
      rw [mul_div_assoc', mul_comm, mul_div_assoc, div_self this, mul_one]
    · rw [if_neg hl]
      have hc : ContinuousAt (fun η : ℝ => (Complex.I * η) * ((w l : ℂ) / (p + Complex.I * η - E l))) 0 := by
        refine ContinuousAt.mul (by fun_prop) (ContinuousAt.div (by fun_prop) (by fun_prop) ?_)
        simp only [Complex.ofReal_zero, mul_zero, add_zero]
        rw [← Complex.ofReal_sub]
        exact Complex.ofReal_ne_zero.mpr (sub_ne_zero.mpr (Ne.symm hl))
      have := hc.tendsto
      simp only [Complex.ofReal_zero, mul_zero, zero_mul] at this ⊢
      exact this.mono_left nhdsWithin_le_nhds
  have := tendsto_finset_sum Finset.univ fun l _ => h l
  rw [Complex.ofReal_sum]
  simpa only [Finset.mul_sum] using this

theorem EigBasis.resolvent_site {n : ℕ} {t : Matrix (Fin n) (Fin n) ℝ} (hs : t.IsSymm) {u : Fin n → Fin n → ℝ} {E : Fin n → ℝ} (h : EigBasis t u E) {z : ℂ} (hz : z.im ≠ 0) (i0 : Fin n) :
    resolvent z t i0 i0 = ∑ l, ((u l i0 ^ 2 : ℝ) : ℂ) / (z - E l) := by
  have horth : (Matrix.of fun i r => u r i)ᵀ * (Matrix.of fun i r => u r i) = (1 : Matrix (Fin n) (Fin n) ℝ) := by
    ext a b
    rw [Matrix.mul_apply, Matrix.one_apply]
    exact h.orth a b
  have heig : t * (Matrix.of fun i r => u r i) = (Matrix.of fun i r => u r i) * Matrix.diagonal E := by
    ext i r
    rw [Matrix.mul_apply, Matrix.mul_diagonal]
    exact (congrFun (h.eig r) i).trans (mul_comm _ _)
  rw [eigen_resolvent hs hz horth heig]
  refine Finset.sum_congr rfl fun l _ => ?_
  rw [div_eq_mul_inv, sq, Complex.ofReal_mul]; rfl

theorem siteWeight_congr {n : ℕ} {t t' : Matrix (Fin n) (Fin n) ℝ} (hs : t.IsSymm) (hs' : t'.IsSymm) {u u' : Fin n → Fin n → ℝ} {E E' : Fin n → ℝ} (h : EigBasis t u E) (h' : EigBasis t' u' E') {i0 : Fin n}
    (hr : ∀ z : ℂ, z.im ≠ 0 → resolvent z t i0 i0 = resolvent z t' i0 i0) (p : ℝ) : siteWeight u E i0 p = siteWeight u' E' i0 p := by
  have h1 := residue_lim (fun l => u l i0 ^ 2) E p
  have h2 := residue_lim (fun l => u' l i0 ^ 2) E' p
  refine Complex.ofReal_injective (tendsto_nhds_unique (h1.congr' ?_) h2)
  filter_upwards [self_mem_nhdsWithin] with η hη
  have hz : (p + Complex.I * η : ℂ).im ≠ 0 := by simpa using hη
  rw [← h.resolvent_site hs hz, ← h'.resolvent_site hs' hz, hr _ hz]

/-- The normalised component of the site `i0` in the eigenspace of energy `p`. -/
noncomputable def siteVec {ι : Type} [Fintype ι] (u : ι → ι → ℝ) (E : ι → ℝ) (i0 : ι) (p : ℝ) : ι → ℝ :=
  ∑ l, (if E l = p then u l i0 / Real.sqrt (siteWeight u E i0 p) else 0) • u l

variable {n : ℕ} {t : Matrix (Fin n) (Fin n) ℝ} {u : Fin n → Fin n → ℝ} {E : Fin n → ℝ}

theorem EigBasis.dot_sum (h : EigBasis t u E) (x y : Fin n → ℝ) : (∑ l, x l • u l) ⬝ᵥ (∑ l, y l • u l) = ∑ l, x l * y l := by
  rw [sum_dotProduct]
  refine Finset.sum_congr rfl fun l _ => ?_
  rw [dotProduct_sum, Finset.sum_eq_single l]
  · rw [smul_dotProduct, dotProduct_smul, h.orth, if_pos rfl]; simp
  · intro k _ hk; rw [smul_dotProduct, dotProduct_smul, h.orth, if_neg hk.symm]; simp
  · intro h; exact absurd (Finset.mem_univ _) h

theorem siteVec_orth (h : EigBasis t u E) {i0 : Fin n} {p q : ℝ} (hp : 0 < siteWeight u E i0 p) :
    siteVec u E i0 p ⬝ᵥ siteVec u E i0 q = if p = q then 1 else 0 := by
  unfold siteVec
  rw [h.dot_sum]
  by_cases hpq : p = q
  · subst hpq
    rw [if_pos rfl]
    have : ∀ l, (if E l = p then u l i0 / Real.sqrt (siteWeight u E i0 p) else 0) * (if E l = p then u l i0 / Real.sqrt (siteWeight u E i0 p) else 0) =
        (if E l = p then u l i0 ^ 2 else 0) / siteWeight u E i0 p := by
      intro l
      by_cases hl : E l = p
      · rw [if_pos hl, if_pos hl, div_mul_div_comm, Real.mul_self_sqrt hp.le, sq]
      · rw [if_neg hl, if_neg hl]; simp
    rw [Finset.sum_congr rfl fun l _ => this l, ← Finset.sum_div]
    exact div_self hp.ne'
  · rw [if_neg hpq]
    refine Finset.sum_eq_zero fun l _ => ?_
    by_cases hl : E l = p
    · rw [if_neg (fun e => hpq (hl.symm.trans e)), mul_zero]
    · rw [if_neg hl, zero_mul]

theorem siteVec_eig (h : EigBasis t u E) (i0 : Fin n) (p : ℝ) : t *ᵥ siteVec u E i0 p = p • siteVec u E i0 p := by
  unfold siteVec
  rw [Matrix.mulVec_sum, Finset.smul_sum]
  refine Finset.sum_congr rfl fun l _ => ?_
  rw [Matrix.mulVec_smul, h.eig]
  by_cases hl : E l = p
  · rw [if_pos hl, hl, smul_comm]
  · rw [if_neg hl]; simp

theorem siteVec_site (u : Fin n → Fin n → ℝ) (E : Fin n → ℝ) {i0 : Fin n} {p : ℝ} (hp : 0 < siteWeight u E i0 p) : siteVec u E i0 p i0 = Real.sqrt (siteWeight u E i0 p) := by
  unfold siteVec
  rw [Finset.sum_apply]
  have : ∀ l, ((if E l = p then u l i0 / Real.sqrt (siteWeight u E i0 p) else 0) • u l) i0 = (if E l = p then u l i0 ^ 2 else 0) / Real.sqrt (siteWeight u E i0 p) := by
    intro l
    by_cases hl : E l = p
    · rw [if_pos hl, if_pos hl, Pi.smul_apply, smul_eq_mul]; ring
    · rw [if_neg hl, if_neg hl]; simp
  rw [Finset.sum_congr rfl fun l _ => this l, ← Finset.sum_div]
  exact Real.div_sqrt

theorem siteWeight_nonneg (u : Fin n → Fin n → ℝ) (E : Fin n → ℝ) (i0 : Fin n) (p : ℝ) : 0 ≤ siteWeight u E i0 p :=
  Finset.sum_nonneg fun l _ => by split_ifs <;> positivity

/-- The energies that have weight at the site. -/
noncomputable def siteSpec (u : Fin n → Fin n → ℝ) (E : Fin n → ℝ) (i0 : Fin n) : Finset ℝ := (Finset.univ.image E).filter fun p => 0 < siteWeight u E i0 p

theorem mem_siteSpec {u : Fin n → Fin n → ℝ} {E : Fin n → ℝ} {i0 : Fin n} {p : ℝ} : p ∈ siteSpec u E i0 ↔ 0 < siteWeight u E i0 p := by
  unfold siteSpec
  rw [Finset.mem_filter, and_iff_right_iff_imp]
  intro h
  by_contra hc
  refine h.ne' (Finset.sum_eq_zero fun l _ => if_neg fun e => hc (Finset.mem_image.mpr ⟨l, Finset.mem_univ _, e⟩))

theorem siteSpec_card (u : Fin n → Fin n → ℝ) (E : Fin n → ℝ) (i0 : Fin n) : (siteSpec u E i0).card ≤ n :=
  ((Finset.card_filter_le _ _).trans Finset.card_image_le).trans (by simp)

theorem siteSpec_sum (h : EigBasis t u E) (i0 : Fin n) : ∑ p ∈ siteSpec u E i0, siteWeight u E i0 p = 1 := by
  have h1 : ∑ p ∈ siteSpec u E i0, siteWeight u E i0 p = ∑ p ∈ Finset.univ.image E, siteWeight u E i0 p := by
    refine Finset.sum_subset (Finset.filter_subset _ _) fun p _ hp => ?_
    rw [mem_siteSpec, not_lt] at hp
    exact le_antisymm hp (siteWeight_nonneg _ _ _ _)
  rw [h1]
  unfold siteWeight
  rw [Finset.sum_comm]
  have h2 : ∀ l, ∑ p ∈ Finset.univ.image E, (if E l = p then u l i0 ^ 2 else 0) = u l i0 ^ 2 := fun l => by
    rw [Finset.sum_ite_eq, if_pos (Finset.mem_image_of_mem _ (Finset.mem_univ _))]
  rw [Finset.sum_congr rfl fun l _ => h2 l]
  have := h.norm (Pi.single i0 1)
  simpa using this

/-- A labelling of the energies with weight at the site by part of the sites. -/
structure SiteLabel (u : Fin n → Fin n → ℝ) (E : Fin n → ℝ) (i0 : Fin n) (C : Finset (Fin n)) (p : Fin n → ℝ) : Prop where
  inj : Set.InjOn p C
  img : C.image p = siteSpec u E i0

theorem siteLabel_exists (u : Fin n → Fin n → ℝ) (E : Fin n → ℝ) (i0 : Fin n) : ∃ C p, SiteLabel u E i0 C p := by
  classical
  have hc : Fintype.card (siteSpec u E i0) ≤ Fintype.card (Fin n) := by rw [Fintype.card_coe, Fintype.card_fin]; exact siteSpec_card u E i0
  obtain ⟨f⟩ := Function.Embedding.nonempty_of_card_le hc
  refine ⟨Finset.univ.image f, fun k => if hk : ∃ q, f q = k then (hk.choose : ℝ) else 0, ?_, ?_⟩
  · intro k hk l hl hkl
    simp only [Finset.coe_image, Finset.coe_univ, Set.image_univ, Set.mem_range] at hk hl
    simp only [dif_pos hk, dif_pos hl] at hkl
    rw [← hk.choose_spec, ← hl.choose_spec, Subtype.ext hkl]
  · have key : ∀ q, (if hk : ∃ q', f q' = f q then (hk.choose : ℝ) else 0) = q := fun q => by
      have hk : ∃ q', f q' = f q := ⟨q, rfl⟩
      rw [dif_pos hk, f.injective hk.choose_spec]
    ext x
    simp only [Finset.mem_image, Finset.mem_univ, true_and]
    constructor
    · rintro ⟨_, ⟨q, rfl⟩, rfl⟩
      rw [key q]; exact q.2
    · exact fun hx => ⟨f ⟨x, hx⟩, ⟨_, rfl⟩, key ⟨x, hx⟩⟩

theorem siteBasis_exists (h : EigBasis t u E) {i0 : Fin n} {C : Finset (Fin n)} {p : Fin n → ℝ} (hl : SiteLabel u E i0 C p) :
    ∃ b : OrthonormalBasis (Fin n) ℝ (EuclideanSpace ℝ (Fin n)),
      (∀ k ∈ C, (∀ i, ∑ j, t i j * b k j = p k * b k i) ∧ b k i0 = Real.sqrt (siteWeight u E i0 (p k))) ∧ ∀ k, k ∉ C → b k i0 = 0 := by
  classical
  have hpos : ∀ k ∈ C, 0 < siteWeight u E i0 (p k) := fun k hk => mem_siteSpec.mp (hl.img ▸ Finset.mem_image_of_mem p hk)
  have ho : Orthonormal ℝ ((C : Set (Fin n)).domRestrict fun k => (WithLp.toLp 2 (siteVec u E i0 (p k)) : EuclideanSpace ℝ (Fin n))) := by
    rw [orthonormal_iff_ite]
    rintro ⟨k, hk⟩ ⟨l, hl'⟩
    have h1 := siteVec_orth h (q := p l) (hpos k hk)
    have h2 : inner ℝ (WithLp.toLp 2 (siteVec u E i0 (p k)) : EuclideanSpace ℝ (Fin n)) (WithLp.toLp 2 (siteVec u E i0 (p l))) = siteVec u E i0 (p k) ⬝ᵥ siteVec u E i0 (p l) := by
      rw [EuclideanSpace.inner_toLp_toLp, dotProduct_comm]; simp
    refine h2.trans (h1.trans ?_)
    by_cases e : k = l
    · subst e; simp
    · rw [if_neg fun e' => e (hl.inj hk hl' e'), if_neg fun e' => e (congrArg Subtype.val e')]
  obtain ⟨b, hb⟩ := ho.exists_orthonormalBasis_extension_of_card_eq (by simp)
  have hsite : ∀ k ∈ C, b k i0 = Real.sqrt (siteWeight u E i0 (p k)) := fun k hk => by
    rw [hb k hk]; exact siteVec_site u E (hpos k hk)
  refine ⟨b, fun k hk => ⟨fun i => ?_, hsite k hk⟩, ?_⟩
  · rw [hb k hk]
    exact congrFun (siteVec_eig h i0 (p k)) i
  · have hsum : ∑ k, b k i0 ^ 2 = 1 := by
      have h1 := b.sum_sq_norm_inner_right (EuclideanSpace.single i0 (1 : ℝ))
      have h2 : ∀ k, ‖inner ℝ (b k) (EuclideanSpace.single i0 (1 : ℝ))‖ ^ 2 = b k i0 ^ 2 := fun k => by
        rw [EuclideanSpace.inner_single_right]; simp
      rw [Finset.sum_congr rfl fun k _ => h2 k] at h1
      simpa using h1
    have hC : ∑ k ∈ C, b k i0 ^ 2 = 1 := by
      rw [← siteSpec_sum h i0, ← hl.img, Finset.sum_image hl.inj]
      exact Finset.sum_congr rfl fun k hk => by rw [hsite k hk, Real.sq_sqrt (siteWeight_nonneg _ _ _ _)]
    intro k hk
    have h3 : ∑ k ∈ Cᶜ, b k i0 ^ 2 = 0 := by
      have := Finset.sum_add_sum_compl C fun k => b k i0 ^ 2
      rw [hsum, hC] at this; linarith
    have h4 := (Finset.sum_eq_zero_iff_of_nonneg fun k _ => sq_nonneg (b k i0)).mp h3 k (Finset.mem_compl.mpr hk)
    exact pow_eq_zero_iff two_ne_zero |>.mp h4

/-- **Two symmetric matrices with the same resolvent at a site** have orthonormal bases in which the part connected to the site is the same diagonal matrix, and the site is the same vector. -/
theorem common_site_basis {t' : Matrix (Fin n) (Fin n) ℝ} (hs : t.IsSymm) (hs' : t'.IsSymm) {i0 : Fin n} (hr : ∀ z : ℂ, z.im ≠ 0 → resolvent z t i0 i0 = resolvent z t' i0 i0) :
    ∃ (C : Finset (Fin n)) (p φ : Fin n → ℝ) (b b' : OrthonormalBasis (Fin n) ℝ (EuclideanSpace ℝ (Fin n))),
      (∀ k ∈ C, ∀ i, ∑ j, t i j * b k j = p k * b k i) ∧ (∀ k ∈ C, ∀ i, ∑ j, t' i j * b' k j = p k * b' k i) ∧
      (∀ k, b k i0 = φ k) ∧ (∀ k, b' k i0 = φ k) ∧ ∀ k, k ∉ C → φ k = 0 := by
  obtain ⟨u, E, h⟩ := EigBasis.of_symm (show tᵀ = t from hs)
  obtain ⟨u', E', h'⟩ := EigBasis.of_symm (show t'ᵀ = t' from hs')
  have hw : siteWeight u' E' i0 = siteWeight u E i0 := funext fun p => (siteWeight_congr hs hs' h h' hr p).symm
  obtain ⟨C, p, hl⟩ := siteLabel_exists u E i0
  have hl' : SiteLabel u' E' i0 C p := ⟨hl.inj, by
    rw [hl.img]; ext x; rw [mem_siteSpec, mem_siteSpec, hw]⟩
  obtain ⟨b, hb, hb0⟩ := siteBasis_exists h hl
  obtain ⟨b', hb', hb0'⟩ := siteBasis_exists h' hl'
  refine ⟨C, p, fun k => b k i0, b, b', fun k hk => (hb k hk).1, fun k hk => (hb' k hk).1, fun k => rfl, fun k => ?_, hb0⟩
  change b' k i0 = b k i0
  by_cases hk : k ∈ C
  · rw [(hb k hk).2, (hb' k hk).2, hw]
  · rw [hb0 k hk, hb0' k hk]

end Edpyt
