import Verif.Props.OccupationGf
import Verif.Props.GfLanczos
/-!
The electron and the hole part of a thermal Green function in the eigenbasis, and uniqueness of pole expansions.
-/
namespace Edpyt
open Spec Matrix Filter Topology

section
variable {ι : Type} [Fintype ι] [DecidableEq ι]

/-- The hole part in a diagonalising basis. -/
theorem Diag.hole {H U : Matrix ι ι ℝ} {E : ι → ℝ} (h : Diag H U E) (β : ℝ) (A B : Matrix ι ι ℝ) {z : ℂ} (hz : z.im ≠ 0) {ge gh : ℂ} (hp : IsGreenParts β H A B z ge gh) :
    gh = (∑ b, ∑ a, (Real.exp (-β * E b) : ℂ) * ((((fun i => U i b) ⬝ᵥ (B *ᵥ fun i => U i a) : ℝ) : ℂ) *
      ((((fun i => U i a) ⬝ᵥ (A *ᵥ fun i => U i b) : ℝ) : ℂ) * (z - ((E b - E a : ℝ) : ℂ))⁻¹))) / ((∑ a, Real.exp (-β * E a) : ℝ) : ℂ) := by
  have hne : ∀ a b, z - ((E b - E a : ℝ) : ℂ) ≠ 0 := by
    intro a b h0
    apply hz
    have := congrArg Complex.im h0
    simpa using this
  have hL : cplx Uᵀ * cplx U = 1 := by rw [← cplx_mul', h.left, cplx_one]
  have hR : cplx U * cplx Uᵀ = 1 := by rw [← cplx_mul', h.right, cplx_one]
  have hH : cplx H = cplx U * diagonal (fun a => (E a : ℂ)) * cplx Uᵀ := by
    conv_lhs => rw [h.diag]
    rw [cplx_mul', cplx_mul']
    congr 2
    ext i j
    simp only [cplx, Matrix.map_apply, diagonal_apply]
    split <;> simp
  obtain ⟨X, hX, -, rfl⟩ := hp
  have h1 : cplx Uᵀ * (z • X - (X * cplx H - cplx H * X)) * cplx U =
      z • (cplx Uᵀ * X * cplx U) - ((cplx Uᵀ * X * cplx U) * diagonal (fun a => (E a : ℂ)) - diagonal (fun a => (E a : ℂ)) * (cplx Uᵀ * X * cplx U)) := by
    rw [hH]
    simp only [Matrix.mul_sub, Matrix.sub_mul, Matrix.mul_smul, Matrix.smul_mul]
    congr 2
    · simp only [Matrix.mul_assoc]
      rw [hL, Matrix.mul_one]
    · simp only [← Matrix.mul_assoc]
      rw [hL, Matrix.one_mul]
  have hel : ∀ a b, (cplx Uᵀ * X * cplx U) a b = (cplx Uᵀ * cplx A * cplx U) a b * (z - ((E b - E a : ℝ) : ℂ))⁻¹ := by
    intro a b
    rw [hX] at h1
    have h2 := congrFun (congrFun h1 a) b
    simp only [Matrix.sub_apply, Matrix.smul_apply, smul_eq_mul, Matrix.mul_diagonal, Matrix.diagonal_mul] at h2
    rw [h2, eq_mul_inv_iff_mul_eq₀ (hne a b)]
    push_cast
    ring
  rw [h.thermal]
  congr 1
  refine Finset.sum_congr rfl fun b _ => ?_
  have ins : cplx Uᵀ * (cplx B * X) * cplx U = (cplx Uᵀ * cplx B * cplx U) * (cplx Uᵀ * X * cplx U) := by
    symm
    calc cplx Uᵀ * cplx B * cplx U * (cplx Uᵀ * X * cplx U) = cplx Uᵀ * cplx B * (cplx U * cplx Uᵀ) * X * cplx U := by simp only [Matrix.mul_assoc]
      _ = _ := by rw [hR, Matrix.mul_one]; simp only [Matrix.mul_assoc]
  rw [ins, Matrix.mul_apply, Finset.mul_sum]
  refine Finset.sum_congr rfl fun a _ => ?_
  rw [hel a b, cplx_elem, cplx_elem]

variable {H : Matrix ι ι ℝ} {κ : Type} [Fintype κ] [DecidableEq κ] {u : κ → ι → ℝ} {E : κ → ℝ}

theorem fermi_key (β x y : ℝ) : (Real.exp (-β * x) + Real.exp (-β * y)) * fermiOcc β (y - x) = Real.exp (-β * y) := by
  unfold fermiOcc
  rw [mul_one_div, div_eq_iff (by positivity), mul_add, mul_one, ← Real.exp_add]
  congr 2; ring

/-- The hole part is the spectral weight times the Fermi function. -/
theorem EigBasis.hole_pairs (h : EigBasis H u E) (β : ℝ) (A B : Matrix ι ι ℝ) {z : ℂ} (hz : z.im ≠ 0) {ge gh : ℂ} (hp : IsGreenParts β H A B z ge gh) :
    gh = ∑ x : κ × κ, (lehmannW β u E A B x : ℂ) * ((fermiOcc β (E x.2 - E x.1) : ℂ) / (z - ((E x.2 - E x.1 : ℝ) : ℂ))) := by
  let e : ι ≃ κ := Fintype.equivOfCardEq h.card.symm
  have h1 : (∑ a, Real.exp (-β * E (e a))) = ∑ a, Real.exp (-β * E a) := e.sum_comp (fun a => Real.exp (-β * E a))
  have h2 : (∑ x : κ × κ, (lehmannW β u E A B x : ℂ) * ((fermiOcc β (E x.2 - E x.1) : ℂ) / (z - ((E x.2 - E x.1 : ℝ) : ℂ)))) =
      ∑ a, ∑ b, (lehmannW β u E A B (e a, e b) : ℂ) * ((fermiOcc β (E (e b) - E (e a)) : ℂ) / (z - ((E (e b) - E (e a) : ℝ) : ℂ))) := by
    rw [Fintype.sum_prod_type, ← e.sum_comp fun a => ∑ b, (lehmannW β u E A B (a, b) : ℂ) * ((fermiOcc β (E b - E a) : ℂ) / (z - ((E b - E a : ℝ) : ℂ)))]
    exact Finset.sum_congr rfl fun a _ => (e.sum_comp fun b => (lehmannW β u E A B (e a, b) : ℂ) * ((fermiOcc β (E b - E (e a)) : ℂ) / (z - ((E b - E (e a) : ℝ) : ℂ)))).symm
  rw [(h.diag e).hole β A B hz hp, h2, Finset.sum_comm]
  simp only [Matrix.of_apply]
  rw [h1, Finset.sum_div]
  refine Finset.sum_congr rfl fun a _ => ?_
  rw [Finset.sum_div]
  refine Finset.sum_congr rfl fun b _ => ?_
  have k := fermi_key β (E (e a)) (E (e b))
  change (Real.exp (-β * E (e b)) : ℂ) * (((u (e b) ⬝ᵥ (B *ᵥ u (e a)) : ℝ) : ℂ) * (((u (e a) ⬝ᵥ (A *ᵥ u (e b)) : ℝ) : ℂ) * (z - ((E (e b) - E (e a) : ℝ) : ℂ))⁻¹)) / _ = _
  have kc := congrArg (fun x : ℝ => (x : ℂ)) k
  simp only [Complex.ofReal_mul, Complex.ofReal_add] at kc
  unfold lehmannW
  simp only [Complex.ofReal_mul, Complex.ofReal_add, Complex.ofReal_div]
  rw [div_eq_mul_inv, div_eq_mul_inv, div_eq_mul_inv]
  linear_combination (-((u (e b) ⬝ᵥ (B *ᵥ u (e a)) : ℝ) : ℂ) * ((u (e a) ⬝ᵥ (A *ᵥ u (e b)) : ℝ) : ℂ) * (z - ((E (e b) - E (e a) : ℝ) : ℂ))⁻¹ *
    (((∑ a, Real.exp (-β * E a) : ℝ) : ℂ))⁻¹) * kc
end

/-- The residue at one point. -/
theorem residue_tendsto {σ : Type} [Fintype σ] (a : σ → ℂ) (l : σ → ℝ) (p : ℝ) :
    Tendsto (fun η : ℝ => (Complex.I * η) * ∑ i, a i / (((p : ℂ) + Complex.I * η) - l i)) (𝓝[>] 0) (𝓝 (∑ i, if l i = p then a i else 0)) := by
  simp only [Finset.mul_sum]
  refine tendsto_finset_sum _ fun i _ => ?_
  by_cases hi : l i = p
  · rw [if_pos hi]
    refine Tendsto.congr' ?_ tendsto_const_nhds
    filter_upwards [self_mem_nhdsWithin] with η hη
    have : (η : ℂ) ≠ 0 := by exact_mod_cast (ne_of_gt hη)
    rw [hi]
    field_simp [Complex.I_ne_zero]
    ring
  · rw [if_neg hi]
    have hne : ((p : ℂ) + Complex.I * ((0 : ℝ) : ℂ)) - l i ≠ 0 := by
      rw [Complex.ofReal_zero, mul_zero, add_zero, sub_ne_zero]
      exact fun h => hi (Complex.ofReal_injective h).symm
    have hc : ContinuousAt (fun η : ℝ => (Complex.I * η) * (a i / (((p : ℂ) + Complex.I * η) - l i))) 0 := by
      refine ContinuousAt.mul (by fun_prop) (ContinuousAt.div (by fun_prop) (by fun_prop) hne)
    have := hc.tendsto
    rw [show (Complex.I * ((0 : ℝ) : ℂ)) * (a i / (((p : ℂ) + Complex.I * ((0 : ℝ) : ℂ)) - l i)) = 0 by simp] at this
    exact this.mono_left nhdsWithin_le_nhds

/-- Two pole expansions that agree off the real axis have the same weights at every energy. -/
theorem poles_unique {σ τ : Type} [Fintype σ] [Fintype τ] (a : σ → ℂ) (l : σ → ℝ) (b : τ → ℂ) (m : τ → ℝ)
    (h : ∀ e eta : ℝ, eta ≠ 0 → ∑ i, a i / ((e + Complex.I * eta : ℂ) - l i) = ∑ j, b j / ((e + Complex.I * eta : ℂ) - m j)) (F : ℝ → ℂ) :
    ∑ i, a i * F (l i) = ∑ j, b j * F (m j) := by
  classical
  have hres : ∀ p : ℝ, (∑ i, if l i = p then a i else 0) = ∑ j, if m j = p then b j else 0 := by
    intro p
    refine tendsto_nhds_unique (residue_tendsto a l p) ((residue_tendsto b m p).congr' ?_)
    filter_upwards [self_mem_nhdsWithin] with η hη
    rw [h p η (ne_of_gt hη)]
  let S : Finset ℝ := Finset.univ.image l ∪ Finset.univ.image m
  have e1 : ∑ i, a i * F (l i) = ∑ p ∈ S, (∑ i, if l i = p then a i else 0) * F p := by
    simp only [Finset.sum_mul]
    rw [Finset.sum_comm]
    refine Finset.sum_congr rfl fun i _ => ?_
    rw [Finset.sum_eq_single (l i)]
    · simp
    · intro p _ hp; rw [if_neg (Ne.symm hp), zero_mul]
    · intro hn; exact absurd (by simp [S]) hn
  have e2 : ∑ j, b j * F (m j) = ∑ p ∈ S, (∑ j, if m j = p then b j else 0) * F p := by
    simp only [Finset.sum_mul]
    rw [Finset.sum_comm]
    refine Finset.sum_congr rfl fun i _ => ?_
    rw [Finset.sum_eq_single (m i)]
    · simp
    · intro p _ hp; rw [if_neg (Ne.symm hp), zero_mul]
    · intro hn; exact absurd (by simp [S]) hn
  rw [e1, e2]
  exact Finset.sum_congr rfl fun p _ => by rw [hres p]

end Edpyt
