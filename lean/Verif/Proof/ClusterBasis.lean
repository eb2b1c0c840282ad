import Verif.Proof.SpecMeasure
import Verif.Props.Variational
/-!
The resolvent of a symmetric matrix between the sites of a cluster determines the spectral weights of the cluster; two matrices with the same resolvent there
have a common set of eigenvectors that contain the cluster.
-/
namespace Edpyt
open Edpyt.Spec Matrix
variable {n : ℕ} {t t' : Matrix (Fin n) (Fin n) ℝ} {u u' : Fin n → Fin n → ℝ} {E E' : Fin n → ℝ}

theorem EigBasis.resolvent_entry (hs : t.IsSymm) (h : EigBasis t u E) {z : ℂ} (hz : z.im ≠ 0) (i j : Fin n) :
    resolvent z t i j = ∑ l, ((u l i * u l j : ℝ) : ℂ) / (z - E l) := by
  have horth : (Matrix.of fun i r => u r i)ᵀ * (Matrix.of fun i r => u r i) = (1 : Matrix (Fin n) (Fin n) ℝ) := by
    ext a b
    rw [Matrix.mul_apply, Matrix.one_apply]
    exact h.orth a b
  have heig : t * (Matrix.of fun i r => u r i) = (Matrix.of fun i r => u r i) * Matrix.diagonal E := by
    ext i r
    rw [Matrix.mul_apply, Matrix.mul_diagonal]
    exact (congrFun (h.eig r) i).trans (mul_comm _ _)
  rw [eigen_resolvent hs hz horth heig]
  refine Finset.sum_congr rfl fun l _ => ?_
  rw [div_eq_mul_inv, Complex.ofReal_mul]; rfl

open Classical in
/-- Weights of the sites `S` in the eigenspace of energy `p`. -/
noncomputable def clW (S : Fin n → Prop) (u : Fin n → Fin n → ℝ) (E : Fin n → ℝ) (p : ℝ) : Matrix (Fin n) (Fin n) ℝ :=
  Matrix.of fun i j => if S i ∧ S j then ∑ l, (if E l = p then u l i * u l j else 0) else 0

theorem clW_congr {S : Fin n → Prop} (hs : t.IsSymm) (hs' : t'.IsSymm) (h : EigBasis t u E) (h' : EigBasis t' u' E')
    (hr : ∀ i j, S i → S j → ∀ z : ℂ, z.im ≠ 0 → resolvent z t i j = resolvent z t' i j) (p : ℝ) : clW S u E p = clW S u' E' p := by
  ext i j
  unfold clW
  rw [Matrix.of_apply, Matrix.of_apply]
  by_cases hS : S i ∧ S j
  · rw [if_pos hS, if_pos hS]
    have h1 := residue_lim (fun l => u l i * u l j) E p
    have h2 := residue_lim (fun l => u' l i * u' l j) E' p
    refine Complex.ofReal_injective (tendsto_nhds_unique (h1.congr' ?_) h2)
    filter_upwards [self_mem_nhdsWithin] with η hη
    have hz : (p + Complex.I * η : ℂ).im ≠ 0 := by simpa using hη
    rw [← h.resolvent_entry hs hz, ← h'.resolvent_entry hs' hz, hr i j hS.1 hS.2 _ hz]
  · rw [if_neg hS, if_neg hS]

theorem clW_symm (S : Fin n → Prop) (u : Fin n → Fin n → ℝ) (E : Fin n → ℝ) (p : ℝ) : (clW S u E p)ᵀ = clW S u E p := by
  ext i j
  unfold clW
  rw [Matrix.transpose_apply, Matrix.of_apply, Matrix.of_apply]
  by_cases hS : S i ∧ S j
  · rw [if_pos hS, if_pos hS.symm]
    exact Finset.sum_congr rfl fun l _ => by rw [mul_comm]
  · rw [if_neg hS, if_neg fun hc => hS hc.symm]

open Classical in
/-- Overlap of the cluster part of `x` with the eigenvector `l`. -/
noncomputable def clDot (S : Fin n → Prop) (u : Fin n → Fin n → ℝ) (x : Fin n → ℝ) (l : Fin n) : ℝ := ∑ i, if S i then x i * u l i else 0

theorem clW_mulVec (S : Fin n → Prop) (u : Fin n → Fin n → ℝ) (E : Fin n → ℝ) (p : ℝ) (x : Fin n → ℝ) {j : Fin n} (hj : S j) :
    (clW S u E p *ᵥ x) j = ∑ l, if E l = p then clDot S u x l * u l j else 0 := by
  classical
  unfold clW clDot Matrix.mulVec dotProduct
  simp only [Matrix.of_apply, hj, true_and]
  have : ∀ i, (if S i then ∑ l, (if E l = p then u l j * u l i else 0) else 0) * x i = ∑ l, if E l = p then (if S i then x i * u l i else 0) * u l j else 0 := by
    intro i
    by_cases hi : S i
    · simp only [if_pos hi, Finset.sum_mul]
      refine Finset.sum_congr rfl fun l _ => ?_
      by_cases hl : E l = p
      · simp only [if_pos hl]; ring
      · simp only [if_neg hl]; ring
    · simp [hi]
  rw [Finset.sum_congr rfl fun i _ => this i, Finset.sum_comm]
  refine Finset.sum_congr rfl fun l _ => ?_
  by_cases hl : E l = p
  · simp only [if_pos hl, Finset.sum_mul]
  · simp only [if_neg hl]; simp

theorem clW_form (S : Fin n → Prop) (u : Fin n → Fin n → ℝ) (E : Fin n → ℝ) (p : ℝ) (x y : Fin n → ℝ) :
    y ⬝ᵥ clW S u E p *ᵥ x = ∑ l, if E l = p then clDot S u x l * clDot S u y l else 0 := by
  classical
  have h1 : ∀ j, y j * (clW S u E p *ᵥ x) j = ∑ l, if E l = p then clDot S u x l * (if S j then y j * u l j else 0) else 0 := by
    intro j
    by_cases hj : S j
    · rw [clW_mulVec S u E p x hj, Finset.mul_sum]
      refine Finset.sum_congr rfl fun l _ => ?_
      by_cases hl : E l = p
      · simp only [if_pos hl, if_pos hj]; ring
      · simp only [if_neg hl, mul_zero]
    · have : (clW S u E p *ᵥ x) j = 0 := by
        unfold clW Matrix.mulVec dotProduct
        exact Finset.sum_eq_zero fun i _ => by simp [hj]
      rw [this, mul_zero]
      symm
      exact Finset.sum_eq_zero fun l _ => by rw [if_neg hj, mul_zero, ite_self]
  unfold dotProduct
  rw [Finset.sum_congr rfl fun j _ => h1 j, Finset.sum_comm]
  refine Finset.sum_congr rfl fun l _ => ?_
  by_cases hl : E l = p
  · simp only [if_pos hl]
    unfold clDot
    rw [Finset.mul_sum]
  · simp only [if_neg hl]; simp

/-- Eigenvectors of the weights, for every energy. -/
structure ClEig (S : Fin n → Prop) (u : Fin n → Fin n → ℝ) (E : Fin n → ℝ) (v : ℝ → Fin n → Fin n → ℝ) (m : ℝ → Fin n → ℝ) : Prop where
  basis : ∀ p, EigBasis (clW S u E p) (v p) (m p)

/-- The normalised component of the cluster in the eigenspace of energy `p`. -/
noncomputable def clVec (S : Fin n → Prop) (u : Fin n → Fin n → ℝ) (E : Fin n → ℝ) (v : ℝ → Fin n → Fin n → ℝ) (m : ℝ → Fin n → ℝ) (x : ℝ × Fin n) : Fin n → ℝ :=
  ∑ l, (if E l = x.1 then clDot S u (v x.1 x.2) l / Real.sqrt (m x.1 x.2) else 0) • u l

section
variable {S : Fin n → Prop} {v : ℝ → Fin n → Fin n → ℝ} {m : ℝ → Fin n → ℝ}

theorem ClEig.form (c : ClEig S u E v m) (p : ℝ) (r r' : Fin n) : ∑ l, (if E l = p then clDot S u (v p r) l * clDot S u (v p r') l else 0) = if r = r' then m p r else 0 := by
  rw [← clW_form, (c.basis p).eig, dotProduct_smul, (c.basis p).orth, smul_eq_mul]
  by_cases h : r = r'
  · subst h; simp
  · rw [if_neg h, if_neg (Ne.symm h), mul_zero]

theorem clVec_orth (h : EigBasis t u E) (c : ClEig S u E v m) {x y : ℝ × Fin n} (hx : 0 < m x.1 x.2) (hy : 0 < m y.1 y.2) :
    clVec S u E v m x ⬝ᵥ clVec S u E v m y = if x = y then 1 else 0 := by
  obtain ⟨p, r⟩ := x
  obtain ⟨q, r'⟩ := y
  simp only at hx hy
  unfold clVec
  rw [h.dot_sum]
  simp only
  by_cases hpq : p = q
  · subst hpq
    have : ∀ l, (if E l = p then clDot S u (v p r) l / Real.sqrt (m p r) else 0) * (if E l = p then clDot S u (v p r') l / Real.sqrt (m p r') else 0) =
        (if E l = p then clDot S u (v p r) l * clDot S u (v p r') l else 0) / (Real.sqrt (m p r) * Real.sqrt (m p r')) := by
      intro l
      by_cases hl : E l = p
      · simp only [if_pos hl]; rw [div_mul_div_comm]
      · simp only [if_neg hl]; simp
    rw [Finset.sum_congr rfl fun l _ => this l, ← Finset.sum_div, c.form]
    by_cases hr : r = r'
    · subst hr
      rw [if_pos rfl, if_pos rfl, Real.mul_self_sqrt hx.le, div_self hx.ne']
    · rw [if_neg hr, if_neg (by simp [hr]), zero_div]
  · rw [if_neg (by simp [hpq])]
    refine Finset.sum_eq_zero fun l _ => ?_
    by_cases hl : E l = p
    · rw [if_neg (fun e => hpq (hl.symm.trans e)), mul_zero]
    · rw [if_neg hl, zero_mul]

theorem clVec_eig (h : EigBasis t u E) (x : ℝ × Fin n) : t *ᵥ clVec S u E v m x = x.1 • clVec S u E v m x := by
  unfold clVec
  rw [Matrix.mulVec_sum, Finset.smul_sum]
  refine Finset.sum_congr rfl fun l _ => ?_
  rw [Matrix.mulVec_smul, h.eig]
  by_cases hl : E l = x.1
  · rw [if_pos hl, hl, smul_comm]
  · rw [if_neg hl]; simp

theorem clVec_site (c : ClEig S u E v m) {x : ℝ × Fin n} (hx : 0 < m x.1 x.2) {j : Fin n} (hj : S j) : clVec S u E v m x j = Real.sqrt (m x.1 x.2) * v x.1 x.2 j := by
  unfold clVec
  rw [Finset.sum_apply]
  have : ∀ l, ((if E l = x.1 then clDot S u (v x.1 x.2) l / Real.sqrt (m x.1 x.2) else 0) • u l) j = (if E l = x.1 then clDot S u (v x.1 x.2) l * u l j else 0) / Real.sqrt (m x.1 x.2) := by
    intro l
    by_cases hl : E l = x.1
    · rw [if_pos hl, if_pos hl, Pi.smul_apply, smul_eq_mul]; ring
    · rw [if_neg hl, if_neg hl]; simp
  rw [Finset.sum_congr rfl fun l _ => this l, ← Finset.sum_div, ← clW_mulVec S u E x.1 _ hj, (c.basis x.1).eig, Pi.smul_apply, smul_eq_mul, mul_div_right_comm, Real.div_sqrt]

theorem ClEig.nonneg (c : ClEig S u E v m) (p : ℝ) (r : Fin n) : 0 ≤ m p r := by
  have := c.form p r r
  rw [if_pos rfl] at this
  rw [← this]
  exact Finset.sum_nonneg fun l _ => by split_ifs; exacts [mul_self_nonneg _, le_rfl]

/-- The pairs of an energy and a direction with weight in the cluster. -/
noncomputable def clSpec (E : Fin n → ℝ) (m : ℝ → Fin n → ℝ) : Finset (ℝ × Fin n) := ((Finset.univ.image E) ×ˢ Finset.univ).filter fun x => 0 < m x.1 x.2

theorem mem_clSpec (c : ClEig S u E v m) {x : ℝ × Fin n} : x ∈ clSpec E m ↔ 0 < m x.1 x.2 := by
  unfold clSpec
  rw [Finset.mem_filter, and_iff_right_iff_imp]
  intro h
  rw [Finset.mem_product]
  refine ⟨?_, Finset.mem_univ _⟩
  by_contra hc
  have := c.form x.1 x.2 x.2
  rw [if_pos rfl] at this
  rw [← this] at h
  exact h.ne' (Finset.sum_eq_zero fun l _ => if_neg fun e => hc (Finset.mem_image.mpr ⟨l, Finset.mem_univ _, e⟩))

theorem clSpec_orth (h : EigBasis t u E) (c : ClEig S u E v m) : Orthonormal ℝ (fun x : clSpec E m => (WithLp.toLp 2 (clVec S u E v m x) : EuclideanSpace ℝ (Fin n))) := by
  classical
  rw [orthonormal_iff_ite]
  rintro ⟨x, hx⟩ ⟨y, hy⟩
  have h1 := clVec_orth h c ((mem_clSpec c).mp hx) ((mem_clSpec c).mp hy)
  have h2 : inner ℝ (WithLp.toLp 2 (clVec S u E v m x) : EuclideanSpace ℝ (Fin n)) (WithLp.toLp 2 (clVec S u E v m y)) = clVec S u E v m x ⬝ᵥ clVec S u E v m y := by
    rw [EuclideanSpace.inner_toLp_toLp, dotProduct_comm]; simp
  refine h2.trans (h1.trans ?_)
  by_cases e : x = y
  · subst e; simp
  · rw [if_neg e, if_neg fun e' => e (congrArg Subtype.val e')]

theorem clSpec_card (h : EigBasis t u E) (c : ClEig S u E v m) : (clSpec E m).card ≤ n := by
  have := (clSpec_orth h c).linearIndependent.fintype_card_le_finrank
  simpa using this

theorem clSpec_sum (h : EigBasis t u E) (c : ClEig S u E v m) {j : Fin n} (hj : S j) : ∑ x ∈ clSpec E m, m x.1 x.2 * v x.1 x.2 j ^ 2 = 1 := by
  classical
  have h1 : ∑ x ∈ clSpec E m, m x.1 x.2 * v x.1 x.2 j ^ 2 = ∑ x ∈ (Finset.univ.image E) ×ˢ Finset.univ, m x.1 x.2 * v x.1 x.2 j ^ 2 := by
    refine Finset.sum_subset (Finset.filter_subset _ _) fun x _ hx => ?_
    rw [mem_clSpec c, not_lt] at hx
    rw [le_antisymm hx (c.nonneg _ _), zero_mul]
  rw [h1, Finset.sum_product]
  have h2 : ∀ p, ∑ r, m p r * v p r j ^ 2 = ∑ l, if E l = p then u l j ^ 2 else 0 := by
    intro p
    have e1 := ((c.basis p).quad (Pi.single j 1)).1
    have e2 := clW_form S u E p (Pi.single j 1) (Pi.single j 1)
    rw [e1] at e2
    have e3 : ∀ l, clDot S u (Pi.single j 1) l = u l j := fun l => by
      unfold clDot
      rw [Finset.sum_eq_single j]
      · simp [hj]
      · intro i _ hi; simp [hi]
      · simp
    simp only [e3, dotProduct_single, mul_one] at e2
    rw [e2]
    exact Finset.sum_congr rfl fun l _ => by rw [sq]
  rw [Finset.sum_congr rfl fun p _ => h2 p, Finset.sum_comm]
  have h3 : ∀ l, ∑ p ∈ Finset.univ.image E, (if E l = p then u l j ^ 2 else 0) = u l j ^ 2 := fun l => by
    rw [Finset.sum_ite_eq, if_pos (Finset.mem_image_of_mem _ (Finset.mem_univ _))]
  rw [Finset.sum_congr rfl fun l _ => h3 l]
  have := h.norm (Pi.single j 1)
  simpa using this

/-- A labelling of the pairs by part of the sites. -/
structure ClLabel (E : Fin n → ℝ) (m : ℝ → Fin n → ℝ) (C : Finset (Fin n)) (q : Fin n → ℝ × Fin n) : Prop where
  inj : Set.InjOn q C
  img : C.image q = clSpec E m

theorem clLabel_exists [NeZero n] (h : EigBasis t u E) (c : ClEig S u E v m) : ∃ C q, ClLabel E m C q := by
  classical
  have hc : Fintype.card (clSpec E m) ≤ Fintype.card (Fin n) := by rw [Fintype.card_coe, Fintype.card_fin]; exact clSpec_card h c
  obtain ⟨f⟩ := Function.Embedding.nonempty_of_card_le hc
  refine ⟨Finset.univ.image f, fun k => if hk : ∃ q, f q = k then (hk.choose : ℝ × Fin n) else (0, 0), ?_, ?_⟩
  · intro k hk l hl hkl
    simp only [Finset.coe_image, Finset.coe_univ, Set.image_univ, Set.mem_range] at hk hl
    simp only [dif_pos hk, dif_pos hl] at hkl
    rw [← hk.choose_spec, ← hl.choose_spec, Subtype.ext hkl]
  · have key : ∀ q, (if hk : ∃ q', f q' = f q then (hk.choose : ℝ × Fin n) else (0, 0)) = q := fun q => by
      have hk : ∃ q', f q' = f q := ⟨q, rfl⟩
      rw [dif_pos hk, f.injective hk.choose_spec]
    ext x
    simp only [Finset.mem_image, Finset.mem_univ, true_and]
    constructor
    · rintro ⟨_, ⟨q, rfl⟩, rfl⟩
      rw [key q]; exact q.2
    · exact fun hx => ⟨f ⟨x, hx⟩, ⟨_, rfl⟩, key ⟨x, hx⟩⟩

theorem clBasis_exists (h : EigBasis t u E) (c : ClEig S u E v m) {C : Finset (Fin n)} {q : Fin n → ℝ × Fin n} (hl : ClLabel E m C q) :
    ∃ b : OrthonormalBasis (Fin n) ℝ (EuclideanSpace ℝ (Fin n)),
      (∀ k ∈ C, (∀ i, ∑ j, t i j * b k j = (q k).1 * b k i) ∧ ∀ j, S j → b k j = Real.sqrt (m (q k).1 (q k).2) * v (q k).1 (q k).2 j) ∧ ∀ k, k ∉ C → ∀ j, S j → b k j = 0 := by
  classical
  have hpos : ∀ k ∈ C, 0 < m (q k).1 (q k).2 := fun k hk => (mem_clSpec c).mp (hl.img ▸ Finset.mem_image_of_mem q hk)
  have ho : Orthonormal ℝ ((C : Set (Fin n)).domRestrict fun k => (WithLp.toLp 2 (clVec S u E v m (q k)) : EuclideanSpace ℝ (Fin n))) := by
    rw [orthonormal_iff_ite]
    rintro ⟨k, hk⟩ ⟨l, hl'⟩
    have h1 := clVec_orth h c (hpos k hk) (hpos l hl')
    have h2 : inner ℝ (WithLp.toLp 2 (clVec S u E v m (q k)) : EuclideanSpace ℝ (Fin n)) (WithLp.toLp 2 (clVec S u E v m (q l))) = clVec S u E v m (q k) ⬝ᵥ clVec S u E v m (q l) := by
      rw [EuclideanSpace.inner_toLp_toLp, dotProduct_comm]; simp
    refine h2.trans (h1.trans ?_)
    by_cases e : k = l
    · subst e; simp
    · rw [if_neg fun e' => e (hl.inj hk hl' e'), if_neg fun e' => e (congrArg Subtype.val e')]
  obtain ⟨b, hb⟩ := ho.exists_orthonormalBasis_extension_of_card_eq (by simp)
  have hsite : ∀ k ∈ C, ∀ j, S j → b k j = Real.sqrt (m (q k).1 (q k).2) * v (q k).1 (q k).2 j := fun k hk j hj => by
    rw [hb k hk]; exact clVec_site c (hpos k hk) hj
  refine ⟨b, fun k hk => ⟨fun i => ?_, hsite k hk⟩, ?_⟩
  · rw [hb k hk]
    exact congrFun (clVec_eig h (q k)) i
  · intro k hk j hj
    have hsum : ∑ k, b k j ^ 2 = 1 := by
      have h1 := b.sum_sq_norm_inner_right (EuclideanSpace.single j (1 : ℝ))
      have h2 : ∀ k, ‖inner ℝ (b k) (EuclideanSpace.single j (1 : ℝ))‖ ^ 2 = b k j ^ 2 := fun k => by
        rw [EuclideanSpace.inner_single_right]; simp
      rw [Finset.sum_congr rfl fun k _ => h2 k] at h1
      simpa using h1
    have hC : ∑ k ∈ C, b k j ^ 2 = 1 := by
      rw [← clSpec_sum h c hj, ← hl.img, Finset.sum_image hl.inj]
      exact Finset.sum_congr rfl fun k hk => by rw [hsite k hk j hj, mul_pow, Real.sq_sqrt (c.nonneg _ _)]
    have h3 : ∑ k ∈ Cᶜ, b k j ^ 2 = 0 := by
      have := Finset.sum_add_sum_compl C fun k => b k j ^ 2
      rw [hsum, hC] at this; linarith
    have h4 := (Finset.sum_eq_zero_iff_of_nonneg fun k _ => sq_nonneg (b k j)).mp h3 k (Finset.mem_compl.mpr hk)
    exact pow_eq_zero_iff two_ne_zero |>.mp h4

end

/-- **Two symmetric matrices with the same resolvent between the sites of a cluster** have orthonormal bases in which the part connected to the cluster is the same diagonal matrix, and the
sites of the cluster are the same vectors. -/
theorem common_cluster_basis [NeZero n] {S : Fin n → Prop} (hs : t.IsSymm) (hs' : t'.IsSymm) (hr : ∀ i j, S i → S j → ∀ z : ℂ, z.im ≠ 0 → resolvent z t i j = resolvent z t' i j) :
    ∃ (C : Finset (Fin n)) (p : Fin n → ℝ) (b b' : OrthonormalBasis (Fin n) ℝ (EuclideanSpace ℝ (Fin n))),
      (∀ k ∈ C, ∀ i, ∑ j, t i j * b k j = p k * b k i) ∧ (∀ k ∈ C, ∀ i, ∑ j, t' i j * b' k j = p k * b' k i) ∧
      (∀ k i, S i → b k i = b' k i) ∧ (∀ k, k ∉ C → ∀ i, S i → b k i = 0) := by
  obtain ⟨u, E, h⟩ := EigBasis.of_symm (show tᵀ = t from hs)
  obtain ⟨u', E', h'⟩ := EigBasis.of_symm (show t'ᵀ = t' from hs')
  have hw := clW_congr hs hs' h h' hr
  choose v m hv using fun p => EigBasis.of_symm (clW_symm S u E p)
  have c : ClEig S u E v m := ⟨hv⟩
  have c' : ClEig S u' E' v m := ⟨fun p => by rw [← hw p]; exact hv p⟩
  obtain ⟨C, q, hl⟩ := clLabel_exists h c
  have hl' : ClLabel E' m C q := ⟨hl.inj, by
    rw [hl.img]; ext x; rw [mem_clSpec c, mem_clSpec c']⟩
  obtain ⟨b, hb, hb0⟩ := clBasis_exists h c hl
  obtain ⟨b', hb', hb0'⟩ := clBasis_exists h' c' hl'
  refine ⟨C, fun k => (q k).1, b, b', fun k hk => (hb k hk).1, fun k hk => (hb' k hk).1, fun k i hi => ?_, hb0⟩
  by_cases hk : k ∈ C
  · rw [(hb k hk).2 i hi, (hb' k hk).2 i hi]
  · rw [hb0 k hk i hi, hb0' k hk i hi]

end Edpyt
