import Verif.Spec.Thermal
import Mathlib.LinearAlgebra.Matrix.NonsingularInverse
import Mathlib.Analysis.SpecialFunctions.Exponential
import Mathlib.Tactic.Ring
import Mathlib.Tactic.LinearCombination
/-!
Thermal averages and Green functions in an orthonormal basis of eigenvectors.
-/
namespace Edpyt
open Matrix Spec
variable {ι : Type} [Fintype ι] [DecidableEq ι]

theorem cplx_mul {κ μ : Type} [Fintype κ] (A : Matrix ι κ ℝ) (B : Matrix κ μ ℝ) : cplx (A * B) = Matrix.of fun i j => ∑ k, (A i k : ℂ) * (B k j : ℂ) := by
  ext i j
  simp [cplx, Matrix.mul_apply]

theorem cplx_mul' (A B : Matrix ι ι ℝ) : cplx (A * B) = cplx A * cplx B := by
  ext i j
  simp [cplx, Matrix.mul_apply]

theorem cplx_one : cplx (1 : Matrix ι ι ℝ) = 1 := by
  ext i j
  simp only [cplx, Matrix.map_apply, Matrix.one_apply]
  split <;> simp

/-- Orthonormal eigenvectors as the columns of a square matrix. -/
structure Diag (H : Matrix ι ι ℝ) (U : Matrix ι ι ℝ) (E : ι → ℝ) : Prop where
  left : Uᵀ * U = 1
  right : U * Uᵀ = 1
  diag : H = U * diagonal E * Uᵀ

theorem Diag.gibbsOp {H U : Matrix ι ι ℝ} {E : ι → ℝ} (h : Diag H U E) (β : ℝ) :
    Spec.gibbsOp β H = U * diagonal (fun i => Real.exp (-β * E i)) * Uᵀ := by
  have hu : IsUnit U := ⟨⟨U, Uᵀ, h.right, h.left⟩, rfl⟩
  have hinv : U⁻¹ = Uᵀ := Matrix.inv_eq_right_inv h.right
  unfold Spec.gibbsOp
  have : -β • H = U * diagonal (fun i => -β * E i) * U⁻¹ := by
    rw [hinv]
    conv_lhs => rw [h.diag]
    rw [← Matrix.smul_mul, ← Matrix.mul_smul]
    congr 2
    ext i j
    simp only [Matrix.smul_apply, diagonal_apply, smul_eq_mul]
    split <;> simp
  rw [this, Matrix.exp_conj U _ hu, hinv, Matrix.exp_diagonal]
  congr 3
  funext i
  rw [Pi.coe_exp, Real.exp_eq_exp_ℝ]

/-- The matrix elements in the eigenbasis. -/
theorem trace_conj (U : Matrix ι ι ℝ) (D : ι → ℝ) (A : Matrix ι ι ℂ) :
    trace (cplx (U * diagonal D * Uᵀ) * A) = ∑ a, (D a : ℂ) * (cplx Uᵀ * A * cplx U) a a := by
  have h1 : cplx (U * diagonal D * Uᵀ) = cplx U * diagonal (fun a => (D a : ℂ)) * cplx Uᵀ := by
    rw [cplx_mul', cplx_mul']
    congr 2
    ext i j
    simp only [cplx, Matrix.map_apply, diagonal_apply]
    split <;> simp
  rw [h1, Matrix.mul_assoc, Matrix.mul_assoc, Matrix.trace_mul_comm, Matrix.mul_assoc]
  simp only [Matrix.trace, Matrix.diag_apply, Matrix.diagonal_mul, Matrix.mul_assoc]

theorem Diag.thermal {H U : Matrix ι ι ℝ} {E : ι → ℝ} (h : Diag H U E) (β : ℝ) (A : Matrix ι ι ℂ) :
    Spec.thermal β H A = (∑ a, (Real.exp (-β * E a) : ℂ) * (cplx Uᵀ * A * cplx U) a a) / ((∑ a, Real.exp (-β * E a) : ℝ) : ℂ) := by
  unfold Spec.thermal
  rw [h.gibbsOp β, trace_conj]
  congr 1
  have := trace_conj U (fun i => Real.exp (-β * E i)) 1
  rw [Matrix.mul_one] at this
  rw [this, Matrix.mul_one, ← cplx_mul', h.left, cplx_one]
  simp

theorem cplx_elem (U A : Matrix ι ι ℝ) (a b : ι) :
    (cplx Uᵀ * cplx A * cplx U) a b = (((fun i => U i a) ⬝ᵥ (A *ᵥ fun i => U i b) : ℝ) : ℂ) := by
  rw [← cplx_mul', ← cplx_mul']
  simp only [cplx, Matrix.map_apply]
  congr 1
  rw [Matrix.mul_assoc, Matrix.mul_apply]
  simp only [dotProduct, Matrix.transpose_apply]
  rfl

theorem Diag.green {H U : Matrix ι ι ℝ} {E : ι → ℝ} (h : Diag H U E) (β : ℝ) (A B : Matrix ι ι ℝ) {z : ℂ} (hz : z.im ≠ 0) (g : ℂ) :
    IsGreen β H A B z g ↔ g =
      (∑ a, ∑ b, ((Real.exp (-β * E a) + Real.exp (-β * E b) : ℝ) : ℂ) * (((fun i => U i a) ⬝ᵥ (A *ᵥ fun i => U i b) : ℝ) : ℂ) *
        (((fun i => U i b) ⬝ᵥ (B *ᵥ fun i => U i a) : ℝ) : ℂ) * (z - ((E b - E a : ℝ) : ℂ))⁻¹) / ((∑ a, Real.exp (-β * E a) : ℝ) : ℂ) := by
  have hne : ∀ a b, z - ((E b - E a : ℝ) : ℂ) ≠ 0 := by
    intro a b h0
    apply hz
    have := congrArg Complex.im h0
    simpa using this
  have hL : cplx Uᵀ * cplx U = 1 := by rw [← cplx_mul', h.left, cplx_one]
  have hR : cplx U * cplx Uᵀ = 1 := by rw [← cplx_mul', h.right, cplx_one]
  have hH : cplx H = cplx U * diagonal (fun a => (E a : ℂ)) * cplx Uᵀ := by
    conv_lhs => rw [h.diag]
    rw [cplx_mul', cplx_mul']
    congr 2
    ext i j
    simp only [cplx, Matrix.map_apply, diagonal_apply]
    split <;> simp
  -- the equation of motion in the eigenbasis
  have key : ∀ X : Matrix ι ι ℂ, z • X - (X * cplx H - cplx H * X) = cplx A ↔
      ∀ a b, (cplx Uᵀ * X * cplx U) a b = (cplx Uᵀ * cplx A * cplx U) a b * (z - ((E b - E a : ℝ) : ℂ))⁻¹ := by
    intro X
    have h1 : cplx Uᵀ * (z • X - (X * cplx H - cplx H * X)) * cplx U =
        z • (cplx Uᵀ * X * cplx U) - ((cplx Uᵀ * X * cplx U) * diagonal (fun a => (E a : ℂ)) - diagonal (fun a => (E a : ℂ)) * (cplx Uᵀ * X * cplx U)) := by
      rw [hH]
      simp only [Matrix.mul_sub, Matrix.sub_mul, Matrix.mul_smul, Matrix.smul_mul]
      congr 2
      · simp only [Matrix.mul_assoc]
        rw [hL, Matrix.mul_one]
      · simp only [← Matrix.mul_assoc]
        rw [hL, Matrix.one_mul]
    constructor
    · intro hX a b
      rw [hX] at h1
      have h2 := congrFun (congrFun h1 a) b
      simp only [Matrix.sub_apply, Matrix.smul_apply, smul_eq_mul, Matrix.mul_diagonal, Matrix.diagonal_mul] at h2
      rw [h2, eq_mul_inv_iff_mul_eq₀ (hne a b)]
      push_cast
      ring
    · intro hX
      have h2 : cplx Uᵀ * (z • X - (X * cplx H - cplx H * X)) * cplx U = cplx Uᵀ * cplx A * cplx U := by
        rw [h1]
        ext a b
        simp only [Matrix.sub_apply, Matrix.smul_apply, smul_eq_mul, Matrix.mul_diagonal, Matrix.diagonal_mul]
        have := hX a b
        rw [eq_mul_inv_iff_mul_eq₀ (hne a b)] at this
        rw [← this]
        push_cast
        ring
      have h3 := congrArg (fun M => cplx U * M * cplx Uᵀ) h2
      simp only [Matrix.mul_assoc] at h3
      rw [hR] at h3
      simp only [← Matrix.mul_assoc] at h3
      rw [hR] at h3
      simpa using h3
  have value : ∀ X : Matrix ι ι ℂ, (∀ a b, (cplx Uᵀ * X * cplx U) a b = (cplx Uᵀ * cplx A * cplx U) a b * (z - ((E b - E a : ℝ) : ℂ))⁻¹) →
      Spec.thermal β H (X * cplx B + cplx B * X) =
      (∑ a, ∑ b, ((Real.exp (-β * E a) + Real.exp (-β * E b) : ℝ) : ℂ) * (((fun i => U i a) ⬝ᵥ (A *ᵥ fun i => U i b) : ℝ) : ℂ) *
        (((fun i => U i b) ⬝ᵥ (B *ᵥ fun i => U i a) : ℝ) : ℂ) * (z - ((E b - E a : ℝ) : ℂ))⁻¹) / ((∑ a, Real.exp (-β * E a) : ℝ) : ℂ) := by
    intro X hX
    rw [h.thermal]
    congr 1
    have e1 : cplx Uᵀ * (X * cplx B + cplx B * X) * cplx U = (cplx Uᵀ * X * cplx U) * (cplx Uᵀ * cplx B * cplx U) +
        (cplx Uᵀ * cplx B * cplx U) * (cplx Uᵀ * X * cplx U) := by
      have ins : ∀ M N : Matrix ι ι ℂ, cplx Uᵀ * M * cplx U * (cplx Uᵀ * N * cplx U) = cplx Uᵀ * (M * N) * cplx U := by
        intro M N
        calc cplx Uᵀ * M * cplx U * (cplx Uᵀ * N * cplx U) = cplx Uᵀ * M * (cplx U * cplx Uᵀ) * N * cplx U := by simp only [Matrix.mul_assoc]
          _ = _ := by rw [hR, Matrix.mul_one]; simp only [Matrix.mul_assoc]
      rw [ins, ins, Matrix.mul_add, Matrix.add_mul]
    rw [e1]
    simp only [Matrix.add_apply, Matrix.mul_apply (M := cplx Uᵀ * X * cplx U), Matrix.mul_apply (N := cplx Uᵀ * X * cplx U), mul_add,
      Finset.sum_add_distrib, Finset.mul_sum]
    have sw : ∑ a, ∑ b, (Real.exp (-β * E a) : ℂ) * ((cplx Uᵀ * cplx B * cplx U) a b * (cplx Uᵀ * X * cplx U) b a) =
        ∑ a, ∑ b, (Real.exp (-β * E b) : ℂ) * ((cplx Uᵀ * cplx B * cplx U) b a * (cplx Uᵀ * X * cplx U) a b) := Finset.sum_comm
    rw [sw, ← Finset.sum_add_distrib]
    apply Finset.sum_congr rfl; intro a _
    rw [← Finset.sum_add_distrib]
    apply Finset.sum_congr rfl; intro b _
    rw [hX a b, cplx_elem, cplx_elem]
    push_cast
    ring
  constructor
  · rintro ⟨X, hX, rfl⟩
    exact value X ((key X).mp hX)
  · rintro rfl
    let X' : Matrix ι ι ℂ := Matrix.of fun a b => (cplx Uᵀ * cplx A * cplx U) a b * (z - ((E b - E a : ℝ) : ℂ))⁻¹
    have hX : ∀ a b, (cplx Uᵀ * (cplx U * X' * cplx Uᵀ) * cplx U) a b = (cplx Uᵀ * cplx A * cplx U) a b * (z - ((E b - E a : ℝ) : ℂ))⁻¹ := by
      intro a b
      have : cplx Uᵀ * (cplx U * X' * cplx Uᵀ) * cplx U = X' := by
        calc cplx Uᵀ * (cplx U * X' * cplx Uᵀ) * cplx U = (cplx Uᵀ * cplx U) * X' * (cplx Uᵀ * cplx U) := by simp only [Matrix.mul_assoc]
          _ = X' := by rw [hL, Matrix.one_mul, Matrix.mul_one]
      rw [this]; rfl
    exact ⟨_, (key _).mpr hX, (value _ hX).symm⟩

/-- An orthonormal family of eigenvectors with as many members as the dimension. -/
structure EigBasis (H : Matrix ι ι ℝ) {κ : Type} [Fintype κ] [DecidableEq κ] (u : κ → ι → ℝ) (E : κ → ℝ) : Prop where
  card : Fintype.card κ = Fintype.card ι
  orth : ∀ a b, u a ⬝ᵥ u b = if a = b then 1 else 0
  eig : ∀ k, H *ᵥ u k = E k • u k

section
variable {H : Matrix ι ι ℝ} {κ : Type} [Fintype κ] [DecidableEq κ] {u : κ → ι → ℝ} {E : κ → ℝ}

theorem EigBasis.diag (h : EigBasis H u E) (e : ι ≃ κ) : Diag H (Matrix.of fun i a => u (e a) i) (fun a => E (e a)) := by
  have hl : (Matrix.of fun i a => u (e a) i)ᵀ * (Matrix.of fun i a => u (e a) i) = (1 : Matrix ι ι ℝ) := by
    ext a b
    rw [Matrix.mul_apply, Matrix.one_apply]
    have := h.orth (e a) (e b)
    simp only [e.apply_eq_iff_eq] at this
    rw [← this]; rfl
  have hr := _root_.mul_eq_one_comm.mp hl
  refine ⟨hl, hr, ?_⟩
  have : H * (Matrix.of fun i a => u (e a) i) = (Matrix.of fun i a => u (e a) i) * diagonal (fun a => E (e a)) := by
    ext i a
    rw [Matrix.mul_diagonal]
    have := congrFun (h.eig (e a)) i
    simp only [Pi.smul_apply, smul_eq_mul] at this
    rw [Matrix.of_apply, mul_comm, ← this]; rfl
  rw [← this, Matrix.mul_assoc, hr, Matrix.mul_one]

/-- The spectral form of the thermal Green function, and its uniqueness. -/
theorem EigBasis.green (h : EigBasis H u E) (β : ℝ) (A B : Matrix ι ι ℝ) {z : ℂ} (hz : z.im ≠ 0) (g : ℂ) :
    IsGreen β H A B z g ↔ g =
      (∑ a, ∑ b, ((Real.exp (-β * E a) + Real.exp (-β * E b) : ℝ) : ℂ) * ((u a ⬝ᵥ (A *ᵥ u b) : ℝ) : ℂ) *
        ((u b ⬝ᵥ (B *ᵥ u a) : ℝ) : ℂ) * (z - ((E b - E a : ℝ) : ℂ))⁻¹) / ((∑ a, Real.exp (-β * E a) : ℝ) : ℂ) := by
  let e : ι ≃ κ := Fintype.equivOfCardEq h.card.symm
  rw [(h.diag e).green β A B hz g]
  have h1 : (∑ a, Real.exp (-β * E (e a))) = ∑ a, Real.exp (-β * E a) := e.sum_comp (fun a => Real.exp (-β * E a))
  simp only [Matrix.of_apply]
  rw [h1]
  have h2 := e.sum_comp fun a => ∑ b, ((Real.exp (-β * E a) + Real.exp (-β * E b) : ℝ) : ℂ) * ((u a ⬝ᵥ (A *ᵥ u b) : ℝ) : ℂ) *
        ((u b ⬝ᵥ (B *ᵥ u a) : ℝ) : ℂ) * (z - ((E b - E a : ℝ) : ℂ))⁻¹
  rw [← h2]
  have h3 : ∀ a, (∑ b, ((Real.exp (-β * E (e a)) + Real.exp (-β * E b) : ℝ) : ℂ) * ((u (e a) ⬝ᵥ (A *ᵥ u b) : ℝ) : ℂ) *
        ((u b ⬝ᵥ (B *ᵥ u (e a)) : ℝ) : ℂ) * (z - ((E b - E (e a) : ℝ) : ℂ))⁻¹) =
      ∑ b, ((Real.exp (-β * E (e a)) + Real.exp (-β * E (e b)) : ℝ) : ℂ) * ((u (e a) ⬝ᵥ (A *ᵥ u (e b)) : ℝ) : ℂ) *
        ((u (e b) ⬝ᵥ (B *ᵥ u (e a)) : ℝ) : ℂ) * (z - ((E (e b) - E (e a) : ℝ) : ℂ))⁻¹ := fun a =>
    (e.sum_comp fun b => ((Real.exp (-β * E (e a)) + Real.exp (-β * E b) : ℝ) : ℂ) * ((u (e a) ⬝ᵥ (A *ᵥ u b) : ℝ) : ℂ) *
        ((u b ⬝ᵥ (B *ᵥ u (e a)) : ℝ) : ℂ) * (z - ((E b - E (e a) : ℝ) : ℂ))⁻¹).symm
  rw [Finset.sum_congr rfl fun a _ => h3 a]

/-- Thermal averages of real operators in the eigenbasis. -/
theorem EigBasis.thermal (h : EigBasis H u E) (β : ℝ) (A : Matrix ι ι ℝ) :
    Spec.thermal β H (cplx A) = (((∑ a, Real.exp (-β * E a) * (u a ⬝ᵥ (A *ᵥ u a))) / ∑ a, Real.exp (-β * E a) : ℝ) : ℂ) := by
  let e : ι ≃ κ := Fintype.equivOfCardEq h.card.symm
  rw [(h.diag e).thermal β]
  simp only [cplx_elem, Matrix.of_apply]
  have h1 : (∑ a, Real.exp (-β * E (e a))) = ∑ a, Real.exp (-β * E a) := e.sum_comp (fun a => Real.exp (-β * E a))
  have h2 := e.sum_comp fun a => Real.exp (-β * E a) * (u a ⬝ᵥ (A *ᵥ u a))
  rw [h1, ← h2]
  push_cast
  rfl

end
end Edpyt
