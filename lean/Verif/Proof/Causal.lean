import Verif.Props.OccupationGf
/-!
# A Green function with normalised spectral weight has an inverse with imaginary part at least that of `z`
-/
namespace Edpyt
open Spec Matrix

section
variable {κ n : Type} [Fintype κ] [Fintype n] [DecidableEq n]

/-- A matrix `G` whose spectral weights `A x i * A x j` add up to one. -/
theorem dilation_causal {A : κ → n → ℝ} {ω : κ → ℝ} (hA : ∀ i j, ∑ x, A x i * A x j = if i = j then 1 else 0) {z : ℂ} (hz : 0 < z.im) {G M : Matrix n n ℂ}
    (hG : ∀ i j, G i j = ∑ x, ((A x i * A x j : ℝ) : ℂ) / (z - (ω x : ℂ))) (hM : M * G = 1) (v : n → ℂ) :
    z.im * (star v ⬝ᵥ v).re ≤ (star v ⬝ᵥ (M *ᵥ v)).im := by
  have hM' : G * M = 1 := _root_.mul_eq_one_comm.mp hM
  have hne : ∀ x, z - (ω x : ℂ) ≠ 0 := fun x h0 => by
    have := congrArg Complex.im h0
    simp at this
    exact hz.ne' this
  set u := M *ᵥ v with hu
  have hv : v = G *ᵥ u := by rw [hu, Matrix.mulVec_mulVec, hM', Matrix.one_mulVec]
  let a : κ → ℂ := fun x => ∑ j, (A x j : ℂ) * u j
  let b : κ → ℂ := fun x => a x / (z - (ω x : ℂ))
  have hvi : ∀ i, v i = ∑ x, (A x i : ℂ) * b x := fun i => by
    rw [hv]
    simp only [Matrix.mulVec, dotProduct, hG, Finset.sum_mul, b, a, Finset.mul_sum, Finset.sum_div]
    rw [Finset.sum_comm]
    refine Finset.sum_congr rfl fun x _ => Finset.sum_congr rfl fun j _ => ?_
    push_cast
    ring
  have h1 : star v ⬝ᵥ u = ∑ x, star (b x) * a x := by
    simp only [dotProduct, Pi.star_apply, hvi, star_sum, Finset.sum_mul, a, Finset.mul_sum]
    rw [Finset.sum_comm]
    refine Finset.sum_congr rfl fun x _ => Finset.sum_congr rfl fun j _ => ?_
    rw [star_mul']
    simp only [Complex.star_def, Complex.conj_ofReal]
    ring
  have h2 : (star v ⬝ᵥ u).im = z.im * ∑ x, Complex.normSq (b x) := by
    rw [h1, Complex.im_sum, Finset.mul_sum]
    refine Finset.sum_congr rfl fun x _ => ?_
    have : a x = (z - (ω x : ℂ)) * b x := by simp only [b]; rw [mul_div_cancel₀ _ (hne x)]
    rw [this, show star (b x) * ((z - (ω x : ℂ)) * b x) = (z - (ω x : ℂ)) * (b x * star (b x)) by ring, Complex.star_def, Complex.mul_conj, Complex.im_mul_ofReal]
    simp
  rw [h2]
  refine mul_le_mul_of_nonneg_left ?_ hz.le
  have h3 : ∑ x, Complex.normSq (b x - ∑ i, (A x i : ℂ) * v i) = ∑ x, Complex.normSq (b x) - (star v ⬝ᵥ v).re := by
    have e1 : ∑ x, star (b x) * ∑ i, (A x i : ℂ) * v i = star v ⬝ᵥ v := by
      simp only [dotProduct, Pi.star_apply, Finset.mul_sum]
      rw [Finset.sum_comm]
      refine Finset.sum_congr rfl fun i _ => ?_
      rw [show star (v i) = ∑ x, star (b x) * (A x i : ℂ) by
        rw [hvi i, star_sum]
        refine Finset.sum_congr rfl fun x _ => ?_
        rw [star_mul']; simp only [Complex.star_def, Complex.conj_ofReal]; ring, Finset.sum_mul]
      exact Finset.sum_congr rfl fun x _ => by ring
    have e2 : ∑ x, star (∑ i, (A x i : ℂ) * v i) * b x = star v ⬝ᵥ v := by
      simp only [dotProduct, Pi.star_apply, star_sum, Finset.sum_mul]
      rw [Finset.sum_comm]
      refine Finset.sum_congr rfl fun i _ => ?_
      rw [hvi i, Finset.mul_sum]
      refine Finset.sum_congr rfl fun x _ => ?_
      rw [← hvi i, star_mul']; simp only [Complex.star_def, Complex.conj_ofReal]; ring
    have e3 : ∑ x, star (∑ i, (A x i : ℂ) * v i) * (∑ j, (A x j : ℂ) * v j) = star v ⬝ᵥ v := by
      simp only [dotProduct, Pi.star_apply, star_sum, Finset.sum_mul, Finset.mul_sum]
      rw [Finset.sum_comm]
      refine Finset.sum_congr rfl fun i _ => ?_
      rw [Finset.sum_comm]
      have : ∀ j, ∑ x, star ((A x j : ℂ) * v j) * ((A x i : ℂ) * v i) = star (v j) * v i * ((if j = i then 1 else 0 : ℝ) : ℂ) := fun j => by
        rw [← hA j i, Complex.ofReal_sum, Finset.mul_sum]
        refine Finset.sum_congr rfl fun x _ => ?_
        rw [star_mul']; simp only [Complex.star_def, Complex.conj_ofReal]; push_cast; ring
      rw [Finset.sum_congr rfl fun j _ => this j, Finset.sum_eq_single i (fun j _ hj => by rw [if_neg hj]; simp) (fun h => absurd (Finset.mem_univ i) h)]
      simp
    have e4 : ((∑ x, Complex.normSq (b x - ∑ i, (A x i : ℂ) * v i) : ℝ) : ℂ) = ((∑ x, Complex.normSq (b x) : ℝ) : ℂ) - star v ⬝ᵥ v := by
      push_cast
      simp only [← Complex.mul_conj, ← Complex.star_def, star_sub]
      rw [Finset.sum_congr rfl fun x _ => show (b x - ∑ i, (A x i : ℂ) * v i) * (star (b x) - star (∑ i, (A x i : ℂ) * v i)) =
        b x * star (b x) - star (b x) * (∑ i, (A x i : ℂ) * v i) - star (∑ i, (A x i : ℂ) * v i) * b x + star (∑ i, (A x i : ℂ) * v i) * (∑ i, (A x i : ℂ) * v i) by ring,
        Finset.sum_add_distrib, Finset.sum_sub_distrib, Finset.sum_sub_distrib, e1, e2, e3]
      ring
    have := congrArg Complex.re e4
    simpa only [Complex.sub_re, Complex.ofReal_re] using this
  have h4 : 0 ≤ ∑ x, Complex.normSq (b x - ∑ i, (A x i : ℂ) * v i) := Finset.sum_nonneg fun _ _ => Complex.normSq_nonneg _
  linarith

/-- Such a matrix is invertible. -/
theorem dilation_unit {A : κ → n → ℝ} {ω : κ → ℝ} (hA : ∀ i j, ∑ x, A x i * A x j = if i = j then 1 else 0) {z : ℂ} (hz : 0 < z.im) {G : Matrix n n ℂ}
    (hG : ∀ i j, G i j = ∑ x, ((A x i * A x j : ℝ) : ℂ) / (z - (ω x : ℂ))) : IsUnit G := by
  rw [← Matrix.mulVec_injective_iff_isUnit, ← Matrix.coe_mulVecLin, injective_iff_map_eq_zero]
  intro u hu
  rw [Matrix.mulVecLin_apply] at hu
  let a : κ → ℂ := fun x => ∑ j, (A x j : ℂ) * u j
  have h1 : star u ⬝ᵥ (G *ᵥ u) = ∑ x, ((Complex.normSq (a x) : ℝ) : ℂ) / (z - (ω x : ℂ)) := by
    have e : ∀ i, (G *ᵥ u) i = ∑ x, (A x i : ℂ) * (a x / (z - (ω x : ℂ))) := fun i => by
      simp only [Matrix.mulVec, dotProduct, hG, Finset.sum_mul, a, Finset.mul_sum, Finset.sum_div]
      rw [Finset.sum_comm]
      refine Finset.sum_congr rfl fun x _ => Finset.sum_congr rfl fun j _ => ?_
      push_cast
      ring
    have e' : ∀ x, ((Complex.normSq (a x) : ℝ) : ℂ) = (∑ i, star (u i) * (A x i : ℂ)) * a x := fun x => by
      rw [← Complex.mul_conj, mul_comm]
      congr 1
      simp only [a, map_sum, map_mul, Complex.conj_ofReal, Complex.star_def]
      exact Finset.sum_congr rfl fun j _ => mul_comm _ _
    simp only [dotProduct, e, Pi.star_apply, Finset.mul_sum, e', Finset.sum_mul, Finset.sum_div]
    rw [Finset.sum_comm]
    exact Finset.sum_congr rfl fun x _ => Finset.sum_congr rfl fun j _ => by ring
  rw [hu, dotProduct_zero] at h1
  have h2 : ∀ x, ((((Complex.normSq (a x) : ℝ) : ℂ) / (z - (ω x : ℂ)))).im = -(z.im * (Complex.normSq (a x) / Complex.normSq (z - (ω x : ℂ)))) := fun x => by
    rw [Complex.div_im]
    simp
    ring
  have hpos : ∀ x, 0 < Complex.normSq (z - (ω x : ℂ)) := fun x => Complex.normSq_pos.mpr fun h0 => by
    have := congrArg Complex.im h0
    simp at this
    exact hz.ne' this
  have h3 : ∑ x, z.im * (Complex.normSq (a x) / Complex.normSq (z - (ω x : ℂ))) = 0 := by
    have := congrArg Complex.im h1
    rw [Complex.im_sum, Finset.sum_congr rfl fun x _ => h2 x, Finset.sum_neg_distrib, Complex.zero_im] at this
    linarith
  rw [Finset.sum_eq_zero_iff_of_nonneg fun x _ => mul_nonneg hz.le (div_nonneg (Complex.normSq_nonneg _) (hpos x).le)] at h3
  have h4 : ∀ x, a x = 0 := fun x => by
    have := h3 x (Finset.mem_univ _)
    rwa [mul_eq_zero, or_iff_right hz.ne', div_eq_zero_iff, or_iff_left (hpos x).ne', Complex.normSq_eq_zero] at this
  funext i
  have h5 : u i = ∑ x, (A x i : ℂ) * a x := by
    simp only [a, Finset.mul_sum]
    rw [Finset.sum_comm]
    have : ∀ j, ∑ x, (A x i : ℂ) * ((A x j : ℂ) * u j) = ((if i = j then 1 else 0 : ℝ) : ℂ) * u j := fun j => by
      rw [← hA i j, Complex.ofReal_sum, Finset.sum_mul]
      exact Finset.sum_congr rfl fun x _ => by push_cast; ring
    rw [Finset.sum_congr rfl fun j _ => this j, Finset.sum_eq_single i (fun j _ hj => by rw [if_neg hj.symm]; simp) (fun h => absurd (Finset.mem_univ i) h)]
    simp
  rw [h5]
  simp [h4]

/-- The matrix of Green functions `⟨⟨c_i; c_j†⟩⟩` of any symmetric Hamiltonian, over modes `m i`. -/
theorem green_causal {ι κ' : Type} [Fintype ι] [DecidableEq ι] [Nonempty ι] [Fintype κ'] [DecidableEq κ'] {H : Matrix ι ι ℝ} {u : κ' → ι → ℝ} {E : κ' → ℝ} (h : EigBasis H u E) (β : ℝ) {c : n → Matrix ι ι ℝ}
    (hc : ∀ i j, c i * (c j)ᵀ + (c j)ᵀ * c i = if i = j then 1 else 0) {z : ℂ} (hz : 0 < z.im) {G : Matrix n n ℂ} (hG : ∀ i j, IsGreen β H (c i) (c j)ᵀ z (G i j)) :
    IsUnit G ∧ ∀ M, M * G = 1 → ∀ v : n → ℂ, z.im * (star v ⬝ᵥ v).re ≤ (star v ⬝ᵥ (M *ᵥ v)).im := by
  have hZ : 0 < ∑ a, Real.exp (-β * E a) := by
    have : Nonempty κ' := Fintype.card_pos_iff.mp (h.card ▸ Fintype.card_pos)
    exact Finset.sum_pos (fun _ _ => Real.exp_pos _) Finset.univ_nonempty
  let A : κ' × κ' → n → ℝ := fun x i => Real.sqrt ((Real.exp (-β * E x.1) + Real.exp (-β * E x.2)) / ∑ a, Real.exp (-β * E a)) * (u x.1 ⬝ᵥ (c i *ᵥ u x.2))
  have hAA : ∀ x i j, A x i * A x j = lehmannW β u E (c i) (c j)ᵀ x := fun x i j => by
    have e : u x.2 ⬝ᵥ ((c j)ᵀ *ᵥ u x.1) = u x.1 ⬝ᵥ (c j *ᵥ u x.2) := by
      rw [Matrix.mulVec_transpose, dotProduct_comm, ← Matrix.dotProduct_mulVec]
    simp only [A]
    rw [mul_mul_mul_comm, Real.mul_self_sqrt (by positivity)]
    unfold lehmannW
    rw [e]
    ring
  suffices hs : (∀ i j, ∑ x, A x i * A x j = if i = j then 1 else 0) ∧ ∀ i j, G i j = ∑ x : κ' × κ', ((A x i * A x j : ℝ) : ℂ) / (z - ((E x.2 - E x.1 : ℝ) : ℂ)) from
    ⟨dilation_unit hs.1 hz hs.2, fun M hM v => dilation_causal hs.1 hz hs.2 hM v⟩
  refine ⟨fun i j => ?_, fun i j => ?_⟩
  · simp only [hAA]
    rw [h.weight_sum, hc]
    by_cases hij : i = j
    · rw [if_pos hij, if_pos hij]
      simp only [Matrix.one_mulVec]
      rw [Finset.sum_congr rfl fun b _ => show Real.exp (-β * E b) * (u b ⬝ᵥ u b) = Real.exp (-β * E b) by rw [h.orth, if_pos rfl, mul_one], div_self hZ.ne']
    · rw [if_neg hij, if_neg hij]
      simp
  · rw [(h.green_pairs β _ _ hz.ne' _).mp (hG i j)]
    simp only [hAA]

end

end Edpyt
