import Verif.Props.OccupationGf
import Verif.Proof.Eom
import Verif.Props.SelfEnergy
/-!
# The first moment of a thermal Green function
-/
namespace Edpyt
open Spec Matrix Filter Topology

section
variable {ι : Type} [Fintype ι] [DecidableEq ι] {H : Matrix ι ι ℝ} {κ : Type} [Fintype κ] [DecidableEq κ] {u : κ → ι → ℝ} {E : κ → ℝ}

/-- `|Im z| → ∞`. -/
def farAxis : Filter ℂ := Filter.comap (fun z : ℂ => |z.im|) atTop

theorem tendsto_inv_farAxis (p : ℂ) : Tendsto (fun z : ℂ => (z + p)⁻¹) farAxis (𝓝 0) := by
  rw [tendsto_zero_iff_norm_tendsto_zero]
  have h1 : Tendsto (fun z : ℂ => |z.im|) farAxis atTop := tendsto_comap
  have h2 : Tendsto (fun z : ℂ => |(z + p).im|) farAxis atTop := by
    refine tendsto_atTop_mono (fun z => ?_) (tendsto_atTop_add_const_right _ (-|p.im|) h1)
    rw [Complex.add_im]
    have := abs_sub_abs_le_abs_sub z.im (-p.im)
    rw [abs_neg, sub_neg_eq_add] at this
    linarith
  have h3 : Tendsto (fun z : ℂ => ‖z + p‖) farAxis atTop := tendsto_atTop_mono (fun z => Complex.abs_im_le_norm _) h2
  have h4 := h3.inv_tendsto_atTop
  refine h4.congr fun z => ?_
  rw [norm_inv]
  rfl

theorem EigBasis.commW (h : EigBasis H u E) (β : ℝ) (A B : Matrix ι ι ℝ) (x : κ × κ) :
    lehmannW β u E (A * H - H * A) B x = lehmannW β u E A B x * (E x.2 - E x.1) := by
  have e : u x.1 ⬝ᵥ ((A * H - H * A) *ᵥ u x.2) = (E x.2 - E x.1) * (u x.1 ⬝ᵥ (A *ᵥ u x.2)) := by
    rw [Matrix.sub_mulVec, dotProduct_sub, ← Matrix.mulVec_mulVec, h.eig, Matrix.mulVec_smul, dotProduct_smul, ← Matrix.mulVec_mulVec, Matrix.dotProduct_mulVec (u x.1) H,
      ← Matrix.mulVec_transpose, h.symm, h.eig, smul_dotProduct]
    simp only [smul_eq_mul]
    ring
  unfold lehmannW
  rw [e]
  ring

/-- `z² (G(z) - w / z) → m`, with `w` and `m` the averages of `{A, B}` and `{[A, H], B}`. -/
theorem EigBasis.moment (h : EigBasis H u E) (β : ℝ) (A B : Matrix ι ι ℝ) {G : ℂ → ℂ} (hG : ∀ z : ℂ, z.im ≠ 0 → IsGreen β H A B z (G z)) :
    Tendsto (fun z => z ^ 2 * (G z - Spec.thermal β H (cplx (A * B + B * A)) / z)) farAxis (𝓝 (Spec.thermal β H (cplx ((A * H - H * A) * B + B * (A * H - H * A))))) := by
  rw [h.thermal, h.thermal, ← h.weight_sum, ← h.weight_sum]
  have hne : ∀ᶠ z in farAxis, z.im ≠ 0 := by
    have : ∀ᶠ z : ℂ in farAxis, 0 < |z.im| := (tendsto_comap : Tendsto (fun z : ℂ => |z.im|) farAxis atTop).eventually_gt_atTop 0
    exact this.mono fun z hz => abs_pos.mp hz
  have e : ∀ᶠ z in farAxis, (((∑ x, lehmannW β u E (A * H - H * A) B x : ℝ) : ℂ) + ∑ x, ((lehmannW β u E A B x * (E x.2 - E x.1) ^ 2 : ℝ) : ℂ) * (z + ((-(E x.2 - E x.1) : ℝ) : ℂ))⁻¹) =
      z ^ 2 * (G z - ((∑ x, lehmannW β u E A B x : ℝ) : ℂ) / z) := by
    refine hne.mono fun z hz => ?_
    have hz0 : z ≠ 0 := fun h0 => hz (by rw [h0]; rfl)
    rw [(h.green_pairs β A B hz _).mp (hG z hz), Complex.ofReal_sum, Complex.ofReal_sum, Finset.sum_div, ← Finset.sum_add_distrib, ← Finset.sum_sub_distrib, Finset.mul_sum]
    refine Finset.sum_congr rfl fun x _ => ?_
    rw [h.commW]
    have hp : z - ((E x.2 - E x.1 : ℝ) : ℂ) ≠ 0 := fun h0 => hz (by simpa using congrArg Complex.im h0)
    have hp' : z + ((-(E x.2 - E x.1) : ℝ) : ℂ) = z - ((E x.2 - E x.1 : ℝ) : ℂ) := by push_cast; ring
    rw [hp']
    generalize ((E x.2 - E x.1 : ℝ)) = p at *
    push_cast
    field_simp
    ring
  refine Tendsto.congr' e ?_
  have : Tendsto (fun z : ℂ => ∑ x : κ × κ, ((lehmannW β u E A B x * (E x.2 - E x.1) ^ 2 : ℝ) : ℂ) * (z + ((-(E x.2 - E x.1) : ℝ) : ℂ))⁻¹) farAxis (𝓝 0) := by
    rw [← Finset.sum_const_zero (s := (Finset.univ : Finset (κ × κ))) (M := ℂ)]
    refine tendsto_finset_sum _ fun x _ => ?_
    have := (tendsto_inv_farAxis ((-(E x.2 - E x.1) : ℝ) : ℂ)).const_mul ((lehmannW β u E A B x * (E x.2 - E x.1) ^ 2 : ℝ) : ℂ)
    rw [mul_zero] at this
    exact this
  simpa using this.const_add _
end

section
variable {M : Type} [Fintype M] [LinearOrder M]

theorem ann_mul_diag (k : M) (d : Finset M → ℝ) : ann ℝ k * Matrix.diagonal d = Matrix.diagonal (fun T => d (insert k T)) * ann ℝ k := by
  ext T S
  rw [Matrix.mul_diagonal, Matrix.diagonal_mul, ann_apply, mul_comm]
  split_ifs with h1 h2
  · rw [h2, Finset.insert_erase h1]
  · rw [mul_zero, mul_zero]
  · rw [mul_zero, mul_zero]

theorem cre_mul_diag (k : M) (d : Finset M → ℝ) : cre ℝ k * Matrix.diagonal d = Matrix.diagonal (fun T => d (T.erase k)) * cre ℝ k := by
  ext T S
  rw [Matrix.mul_diagonal, Matrix.diagonal_mul, cre_apply, mul_comm]
  by_cases h1 : k ∈ S
  · simp [h1]
  · rw [if_pos h1]
    split_ifs with h2
    · rw [h2, Finset.erase_insert h1]
    · rw [mul_zero, mul_zero]

/-- The double commutator of a diagonal operator: its change when the mode is filled. -/
theorem diag_moment (k : M) (d : Finset M → ℝ) :
    (ann ℝ k * Matrix.diagonal d - Matrix.diagonal d * ann ℝ k) * cre ℝ k + cre ℝ k * (ann ℝ k * Matrix.diagonal d - Matrix.diagonal d * ann ℝ k) =
      Matrix.diagonal fun S => d (insert k S) - d (S.erase k) := by
  have e : ann ℝ k * Matrix.diagonal d - Matrix.diagonal d * ann ℝ k = Matrix.diagonal (fun T => d (insert k T) - d T) * ann ℝ k := by
    rw [ann_mul_diag, ← Matrix.sub_mul, Matrix.diagonal_sub]
  have h1 : ann ℝ k * cre ℝ k = 1 - num ℝ k := by
    have := ann_cre_anticomm (R := ℝ) k k
    rw [if_pos rfl] at this
    rw [← this]; unfold num; abel
  have h2 : cre ℝ k * ann ℝ k = num ℝ k := rfl
  rw [e, ← Matrix.mul_assoc, cre_mul_diag, Matrix.mul_assoc, h1, Matrix.mul_assoc, h2, num_diagonal, ← Matrix.diagonal_one, Matrix.diagonal_sub, Matrix.diagonal_mul_diagonal,
    Matrix.diagonal_mul_diagonal, Matrix.diagonal_add]
  congr 1
  funext S
  by_cases h : k ∈ S
  · simp [h, Finset.insert_erase]
  · simp [h]
end

section
variable {n : ℕ}

theorem mem_insert_orb {s s' : Bool} {i j : Fin n} {S : Finset (Fin (n + n))} : (orb s' j ∈ insert (orb s i) S) ↔ (s' = s ∧ j = i) ∨ orb s' j ∈ S := by
  rw [Finset.mem_insert, orb_inj]

theorem mem_erase_orb {s s' : Bool} {i j : Fin n} {S : Finset (Fin (n + n))} : (orb s' j ∈ S.erase (orb s i)) ↔ ¬(s' = s ∧ j = i) ∧ orb s' j ∈ S := by
  rw [Finset.mem_erase, Ne, orb_inj]

theorem onsiteVal_jump (hf : Bool) (V : Fin n → Fin n → ℝ) (s : Bool) (i : Fin n) (S : Finset (Fin (n + n))) :
    onsiteVal hf V (insert (orb s i) S) - onsiteVal hf V (S.erase (orb s i)) = V i i * ((if orb (!s) i ∈ S then 1 else 0) - if hf then 1 / 2 else 0) := by
  unfold onsiteVal
  rw [← Finset.sum_sub_distrib, Finset.sum_eq_single i]
  · simp only [mem_insert_orb, mem_erase_orb]
    cases s <;> cases hf <;> simp <;> ring
  · intro j _ hj
    simp only [mem_insert_orb, mem_erase_orb]
    simp [hj]
  · simp

/-- The number of electrons on a site. -/
def siteN (S : Finset (Fin (n + n))) (i : Fin n) : ℝ := (if orb false i ∈ S then 1 else 0) + if orb true i ∈ S then 1 else 0

theorem siteN_jump (s : Bool) (i j : Fin n) (S : Finset (Fin (n + n))) : siteN (insert (orb s i) S) j = siteN (S.erase (orb s i)) j + if j = i then 1 else 0 := by
  unfold siteN
  simp only [mem_insert_orb, mem_erase_orb]
  by_cases h : j = i
  · cases s <;> simp [h] <;> ring
  · simp [h]

theorem siteN_erase_ne (s : Bool) {i j : Fin n} (h : j ≠ i) (S : Finset (Fin (n + n))) : siteN (S.erase (orb s i)) j = siteN S j := by
  unfold siteN
  simp only [mem_erase_orb]
  simp [h]

theorem interVal_jump (z : Fin n → ℝ) (V : Fin n → Fin n → ℝ) (s : Bool) (i : Fin n) (S : Finset (Fin (n + n))) :
    interVal z V (insert (orb s i) S) - interVal z V (S.erase (orb s i)) = ∑ j, if i ≠ j then 1 / 2 * (V i j + V j i) * (siteN S j - z j) else 0 := by
  have e : ∀ S : Finset (Fin (n + n)), interVal z V S = 1 / 2 * ∑ k, ∑ l, (if k ≠ l then V k l else 0) * ((siteN S k - z k) * (siteN S l - z l)) := fun S => rfl
  rw [e, e, ← mul_sub, ← Finset.sum_sub_distrib]
  simp only [← Finset.sum_sub_distrib, siteN_jump]
  generalize hN : siteN (S.erase (orb s i)) = N
  have hN' : ∀ j, i ≠ j → siteN S j = N j := fun j hj => by rw [← hN, siteN_erase_ne s (Ne.symm hj)]
  have e1 : ∀ k l, (if k ≠ l then V k l else 0) * ((N k + (if k = i then 1 else 0) - z k) * (N l + (if l = i then 1 else 0) - z l)) - (if k ≠ l then V k l else 0) * ((N k - z k) * (N l - z l)) =
      (if k = i then (if i ≠ l then V i l * (N l - z l) else 0) else 0) + if l = i then (if i ≠ k then V k i * (N k - z k) else 0) else 0 := fun k l => by
    by_cases h1 : k = i
    · by_cases h2 : l = i
      · simp [h1, h2]
      · subst h1
        simp [h2, Ne.symm h2]
        ring
    · by_cases h2 : l = i
      · subst h2
        simp [h1, Ne.symm h1]
        ring
      · simp [h1, h2]
  simp only [e1, Finset.sum_add_distrib, Finset.sum_ite_eq', Finset.mem_univ, if_true]
  rw [Finset.sum_comm]
  simp only [Finset.sum_ite_eq', Finset.mem_univ, if_true]
  rw [← Finset.sum_add_distrib, Finset.mul_sum]
  refine Finset.sum_congr rfl fun j _ => ?_
  split_ifs with h
  · rw [hN' j h]; ring
  · simp

/-- `{[c_k, K], c†_k}` of a one-body operator. -/
theorem kinetic_moment (t : Bool → Fin n → Fin n → ℝ) (s : Bool) (i : Fin n) :
    (ann ℝ (orb s i) * kinetic t - kinetic t * ann ℝ (orb s i)) * cre ℝ (orb s i) + cre ℝ (orb s i) * (ann ℝ (orb s i) * kinetic t - kinetic t * ann ℝ (orb s i)) =
      Matrix.diagonal fun _ => t s i i := by
  rw [ann_comm_kinetic, Matrix.sum_mul, Matrix.mul_sum, ← Finset.sum_add_distrib, Finset.sum_eq_single i]
  · rw [Matrix.smul_mul, Matrix.mul_smul, ← smul_add, ann_cre_anticomm, if_pos rfl, Matrix.smul_one_eq_diagonal]
  · intro j _ hj
    rw [Matrix.smul_mul, Matrix.mul_smul, ← smul_add, ann_cre_anticomm, if_neg (fun h => hj (orb_inj.mp h).2), smul_zero]
  · simp
end

end Edpyt
