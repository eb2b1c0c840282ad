import Verif.Proof.Thermal
import Verif.Proof.Fock
import Verif.Spec.Hubbard
import Mathlib.Tactic.NoncommRing
import Mathlib.LinearAlgebra.Matrix.PosDef
import Mathlib.LinearAlgebra.Matrix.DotProduct
import Mathlib.Analysis.Complex.Order
/-!
Equations of motion: commutators of the ladder operators with the Hamiltonian, and uniqueness of the solution of the equation of motion.
-/
namespace Edpyt
open Matrix Spec

section algebra
variable {M : Type} [Fintype M] [LinearOrder M] {R : Type} [CommRing R]

/-- `[c_k, c†_i c_j] = δ_ki c_j`. -/
theorem ann_comm_pair (k i j : M) : ann R k * (cre R i * ann R j) - cre R i * ann R j * ann R k = if k = i then ann R j else 0 := by
  have h1 := ann_cre_anticomm (R := R) k i
  have h2 := ann_anticomm (R := R) k j
  have : ann R k * (cre R i * ann R j) - cre R i * ann R j * ann R k =
      (ann R k * cre R i + cre R i * ann R k) * ann R j - cre R i * (ann R k * ann R j + ann R j * ann R k) := by noncomm_ring
  rw [this, h1, h2, Matrix.mul_zero, sub_zero]
  split_ifs <;> simp

/-- `[c_k, n_i] = δ_ki c_k`. -/
theorem ann_comm_num (k i : M) : ann R k * num R i - num R i * ann R k = if k = i then ann R k else 0 := by
  unfold num
  rw [ann_comm_pair]
  split_ifs with h
  · rw [h]
  · rfl

theorem cplx_ann (i : M) : cplx (ann ℝ i) = ann ℂ i := by
  ext T S
  simp only [cplx, Matrix.map_apply, ann_apply]
  split_ifs <;> simp

theorem cplx_cre (i : M) : cplx (cre ℝ i) = cre ℂ i := by
  ext T S
  simp only [cplx, Matrix.map_apply, cre_apply]
  split_ifs <;> simp

end algebra

section
variable {R : Type} [Field R] {n : ℕ}

theorem orb_inj {s s' : Bool} {i j : Fin n} : orb s i = orb s' j ↔ s = s' ∧ i = j := by
  unfold orb
  cases s <;> cases s' <;> simp [Fin.ext_iff] <;> omega

/-- `[c_ks, Σ t c†c] = Σ_j t^s_kj c_js`. -/
theorem ann_comm_kinetic (t : Bool → Fin n → Fin n → R) (s : Bool) (k : Fin n) :
    ann R (orb s k) * kinetic t - kinetic t * ann R (orb s k) = ∑ j, t s k j • ann R (orb s j) := by
  unfold kinetic
  rw [Matrix.mul_sum, Matrix.sum_mul, ← Finset.sum_sub_distrib, Finset.sum_eq_single s]
  · rw [Matrix.mul_sum, Matrix.sum_mul, ← Finset.sum_sub_distrib, Finset.sum_eq_single k]
    · rw [Matrix.mul_sum, Matrix.sum_mul, ← Finset.sum_sub_distrib]
      refine Finset.sum_congr rfl fun j _ => ?_
      rw [Matrix.mul_smul, Matrix.smul_mul, ← smul_sub, ann_comm_pair, if_pos rfl]
    · intro i _ hi
      rw [Matrix.mul_sum, Matrix.sum_mul, ← Finset.sum_sub_distrib]
      refine Finset.sum_eq_zero fun j _ => ?_
      rw [Matrix.mul_smul, Matrix.smul_mul, ← smul_sub, ann_comm_pair, if_neg (by rw [orb_inj]; exact fun h => hi h.2.symm), smul_zero]
    · simp
  · intro s' _ hs
    rw [Matrix.mul_sum, Matrix.sum_mul, ← Finset.sum_sub_distrib]
    refine Finset.sum_eq_zero fun i _ => ?_
    rw [Matrix.mul_sum, Matrix.sum_mul, ← Finset.sum_sub_distrib]
    refine Finset.sum_eq_zero fun j _ => ?_
    rw [Matrix.mul_smul, Matrix.smul_mul, ← smul_sub, ann_comm_pair, if_neg (by rw [orb_inj]; exact fun h => hs h.1.symm), smul_zero]
  · simp

end

section
variable {ι : Type} [Fintype ι] [DecidableEq ι]

theorem cplx_smul (c : ℝ) (A : Matrix ι ι ℝ) : cplx (c • A) = (c : ℂ) • cplx A := by
  ext i j; simp [cplx]

theorem cplx_add' (A B : Matrix ι ι ℝ) : cplx (A + B) = cplx A + cplx B := by
  ext i j; simp [cplx]

theorem cplx_sub' (A B : Matrix ι ι ℝ) : cplx (A - B) = cplx A - cplx B := by
  ext i j; simp [cplx]

theorem cplx_zero' : cplx (0 : Matrix ι ι ℝ) = 0 := by
  ext i j; simp [cplx]

theorem cplx_sum {κ : Type} (s : Finset κ) (A : κ → Matrix ι ι ℝ) : cplx (∑ k ∈ s, A k) = ∑ k ∈ s, cplx (A k) := by
  ext i j; simp [cplx, Matrix.sum_apply]

theorem gibbs_trace_pos {κ : Type} [Fintype κ] [DecidableEq κ] {H : Matrix ι ι ℝ} {u : κ → ι → ℝ} {E : κ → ℝ} [Nonempty ι] (h : EigBasis H u E) (β : ℝ) :
    thermal β H 1 = 1 := by
  rw [← cplx_one, h.thermal]
  have : ∀ a, u a ⬝ᵥ ((1 : Matrix ι ι ℝ) *ᵥ u a) = 1 := fun a => by rw [Matrix.one_mulVec, h.orth, if_pos rfl]
  simp only [this, mul_one]
  have : Nonempty κ := by
    have := Fintype.card_pos (α := ι)
    rw [← h.card] at this
    exact Fintype.card_pos_iff.mp this
  rw [div_self (Finset.sum_pos (fun a _ => Real.exp_pos _) Finset.univ_nonempty).ne']
  simp

theorem thermal_smul (β : ℝ) (H : Matrix ι ι ℝ) (c : ℂ) (A : Matrix ι ι ℂ) : thermal β H (c • A) = c * thermal β H A := by
  unfold thermal
  rw [Matrix.mul_smul, Matrix.trace_smul, smul_eq_mul, mul_div_assoc]

open ComplexOrder in
/-- The equation of motion has at most one solution off the real axis. -/
theorem eom_unique {H : Matrix ι ι ℝ} (hH : H.IsSymm) {z : ℂ} (hz : z.im ≠ 0) {X : Matrix ι ι ℂ} (hX : z • X - (X * cplx H - cplx H * X) = 0) : X = 0 := by
  have hHc : (cplx H)ᴴ = cplx H := by
    ext i j
    simp only [Matrix.conjTranspose_apply, cplx, Matrix.map_apply, Complex.star_def, Complex.conj_ofReal, hH.apply]
  have h1 : trace (Xᴴ * (z • X - (X * cplx H - cplx H * X))) = 0 := by rw [hX, Matrix.mul_zero, Matrix.trace_zero]
  have h2 : z * trace (Xᴴ * X) = trace (Xᴴ * X * cplx H) - trace (Xᴴ * cplx H * X) := by
    simp only [Matrix.mul_sub, Matrix.mul_smul, Matrix.trace_sub, Matrix.trace_smul, smul_eq_mul, ← Matrix.mul_assoc] at h1
    linear_combination h1
  have real : ∀ N : Matrix ι ι ℂ, Nᴴ = N → (trace N).im = 0 := fun N hN => by
    have := Matrix.trace_conjTranspose N
    rw [hN, Complex.star_def] at this
    exact Complex.conj_eq_iff_im.mp this.symm
  have r1 : (trace (Xᴴ * X)).im = 0 := real _ (by rw [Matrix.conjTranspose_mul, Matrix.conjTranspose_conjTranspose])
  have r2 : (trace (Xᴴ * X * cplx H)).im = 0 := by
    have := Matrix.trace_conjTranspose (Xᴴ * X * cplx H)
    rw [Matrix.conjTranspose_mul, hHc, Matrix.conjTranspose_mul, Matrix.conjTranspose_conjTranspose, Matrix.trace_mul_comm, Complex.star_def] at this
    exact Complex.conj_eq_iff_im.mp this.symm
  have r3 : (trace (Xᴴ * cplx H * X)).im = 0 := real _ (by
    rw [Matrix.conjTranspose_mul, Matrix.conjTranspose_mul, hHc, Matrix.conjTranspose_conjTranspose, Matrix.mul_assoc])
  have h3 := congrArg Complex.im h2
  rw [Complex.mul_im, Complex.sub_im, r1, r2, r3, mul_zero, zero_add, sub_zero] at h3
  have h4 : trace (Xᴴ * X) = 0 := Complex.ext ((mul_eq_zero.mp h3).resolve_left hz) r1
  exact Matrix.trace_conjTranspose_mul_self_eq_zero_iff.mp h4

end
end Edpyt
