import Verif.Proof.Causal
import Verif.Proof.Levels
import Verif.Spec.Poles
import Verif.Props.SelfCausal
/-!
# The matrix of Green functions as one set of poles with amplitudes
-/
namespace Edpyt
open Spec Matrix

/-- A matrix of Green functions has one set of poles, and its residues are products of amplitudes, one amplitude per site. -/
theorem green_dilation {ι κ' n : Type} [Fintype ι] [DecidableEq ι] [Nonempty ι] [Fintype κ'] [DecidableEq κ'] [Fintype n] [DecidableEq n] {H : Matrix ι ι ℝ} {u : κ' → ι → ℝ} {E : κ' → ℝ}
    (h : EigBasis H u E) (β : ℝ) {c : n → Matrix ι ι ℝ} (hc : ∀ i j, c i * (c j)ᵀ + (c j)ᵀ * c i = if i = j then 1 else 0) :
    ∃ A : κ' × κ' → n → ℝ, (∀ x i, A x i ≠ 0 → u x.1 ⬝ᵥ (c i *ᵥ u x.2) ≠ 0) ∧ (∀ i j, ∑ x, A x i * A x j = if i = j then 1 else 0) ∧
      ∀ z : ℂ, z.im ≠ 0 → ∀ i j g, IsGreen β H (c i) (c j)ᵀ z g → g = ∑ x : κ' × κ', ((A x i * A x j : ℝ) : ℂ) / (z - ((E x.2 - E x.1 : ℝ) : ℂ)) := by
  have hZ : 0 < ∑ a, Real.exp (-β * E a) := by
    have : Nonempty κ' := Fintype.card_pos_iff.mp (h.card ▸ Fintype.card_pos)
    exact Finset.sum_pos (fun _ _ => Real.exp_pos _) Finset.univ_nonempty
  let A : κ' × κ' → n → ℝ := fun x i => Real.sqrt ((Real.exp (-β * E x.1) + Real.exp (-β * E x.2)) / ∑ a, Real.exp (-β * E a)) * (u x.1 ⬝ᵥ (c i *ᵥ u x.2))
  have hAA : ∀ x i j, A x i * A x j = lehmannW β u E (c i) (c j)ᵀ x := fun x i j => by
    have e : u x.2 ⬝ᵥ ((c j)ᵀ *ᵥ u x.1) = u x.1 ⬝ᵥ (c j *ᵥ u x.2) := by
      rw [Matrix.mulVec_transpose, dotProduct_comm, ← Matrix.dotProduct_mulVec]
    simp only [A]
    rw [mul_mul_mul_comm, Real.mul_self_sqrt (by positivity)]
    unfold lehmannW
    rw [e]
    ring
  refine ⟨A, fun x i hx h0 => hx ?_, fun i j => ?_, fun z hz i j g hG => ?_⟩
  · simp only [A, h0, mul_zero]
  · simp only [hAA]
    rw [h.weight_sum, hc]
    by_cases hij : i = j
    · rw [if_pos hij, if_pos hij]
      simp only [Matrix.one_mulVec]
      rw [Finset.sum_congr rfl fun b _ => show Real.exp (-β * E b) * (u b ⬝ᵥ u b) = Real.exp (-β * E b) by rw [h.orth, if_pos rfl, mul_one], div_self hZ.ne']
    · rw [if_neg hij, if_neg hij]
      simp
  · rw [(h.green_pairs β _ _ hz _).mp hG]
    simp only [hAA]

section
variable {κ n : Type} [Fintype κ] [Fintype n] [DecidableEq n] {A : κ → n → ℝ} {ω : κ → ℝ} {z : ℂ} {G : Matrix n n ℂ}

/-- The quadratic form of such a matrix. -/
theorem dilation_form (hG : ∀ i j, G i j = ∑ x, ((A x i * A x j : ℝ) : ℂ) / (z - (ω x : ℂ))) (u : n → ℂ) :
    star u ⬝ᵥ (G *ᵥ u) = ∑ x, ((Complex.normSq (∑ j, (A x j : ℂ) * u j) : ℝ) : ℂ) / (z - (ω x : ℂ)) := by
  let a : κ → ℂ := fun x => ∑ j, (A x j : ℂ) * u j
  have e : ∀ i, (G *ᵥ u) i = ∑ x, (A x i : ℂ) * (a x / (z - (ω x : ℂ))) := fun i => by
    simp only [Matrix.mulVec, dotProduct, hG, Finset.sum_mul, a, Finset.mul_sum, Finset.sum_div]
    rw [Finset.sum_comm]
    refine Finset.sum_congr rfl fun x _ => Finset.sum_congr rfl fun j _ => ?_
    push_cast
    ring
  have e' : ∀ x, ((Complex.normSq (a x) : ℝ) : ℂ) = (∑ i, star (u i) * (A x i : ℂ)) * a x := fun x => by
    rw [← Complex.mul_conj, mul_comm]
    congr 1
    simp only [a, map_sum, map_mul, Complex.conj_ofReal, Complex.star_def]
    exact Finset.sum_congr rfl fun j _ => mul_comm _ _
  change _ = ∑ x, ((Complex.normSq (a x) : ℝ) : ℂ) / (z - (ω x : ℂ))
  simp only [dotProduct, e, Pi.star_apply, Finset.mul_sum, e', Finset.sum_mul, Finset.sum_div]
  rw [Finset.sum_comm]
  exact Finset.sum_congr rfl fun x _ => Finset.sum_congr rfl fun j _ => by ring

/-- The amplitudes of a vector have the norm of the vector. -/
theorem dilation_norm (hA : ∀ i j, ∑ x, A x i * A x j = if i = j then 1 else 0) (u : n → ℂ) : ∑ x, Complex.normSq (∑ j, (A x j : ℂ) * u j) = ∑ i, Complex.normSq (u i) := by
  have h : ((∑ x, Complex.normSq (∑ j, (A x j : ℂ) * u j) : ℝ) : ℂ) = ((∑ i, Complex.normSq (u i) : ℝ) : ℂ) := by
    push_cast
    simp only [← Complex.mul_conj, map_sum, map_mul, Complex.conj_ofReal, Finset.sum_mul, Finset.mul_sum]
    rw [Finset.sum_comm]
    refine Finset.sum_congr rfl fun i _ => ?_
    rw [Finset.sum_comm]
    have : ∀ j, ∑ x, (A x j : ℂ) * u j * ((A x i : ℂ) * (starRingEnd ℂ) (u i)) = u j * (starRingEnd ℂ) (u i) * ((if j = i then 1 else 0 : ℝ) : ℂ) := fun j => by
      rw [← hA j i, Complex.ofReal_sum, Finset.mul_sum]
      refine Finset.sum_congr rfl fun x _ => ?_
      push_cast; ring
    rw [Finset.sum_congr rfl fun j _ => this j, Finset.sum_eq_single i (fun j _ hj => by rw [if_neg hj]; simp) (fun h => absurd (Finset.mem_univ i) h)]
    simp
  exact_mod_cast h

theorem dilation_im (hz : z.im ≠ 0) (hG : ∀ i j, G i j = ∑ x, ((A x i * A x j : ℝ) : ℂ) / (z - (ω x : ℂ))) (u : n → ℂ) :
    (star u ⬝ᵥ (G *ᵥ u)).im = -z.im * ∑ x, Complex.normSq (∑ j, (A x j : ℂ) * u j) / Complex.normSq (z - (ω x : ℂ)) := by
  rw [dilation_form hG, Complex.im_sum, Finset.mul_sum]
  refine Finset.sum_congr rfl fun x _ => ?_
  rw [Complex.div_im]
  simp
  ring

theorem dilation_neg (hA : ∀ i j, ∑ x, A x i * A x j = if i = j then 1 else 0) (hz : 0 < z.im) (hG : ∀ i j, G i j = ∑ x, ((A x i * A x j : ℝ) : ℂ) / (z - (ω x : ℂ))) {u : n → ℂ}
    (hu : u ≠ 0) : (star u ⬝ᵥ (G *ᵥ u)).im < 0 := by
  have hpos : ∀ x, 0 < Complex.normSq (z - (ω x : ℂ)) := fun x => Complex.normSq_pos.mpr fun h0 => by
    have := congrArg Complex.im h0
    simp at this
    exact hz.ne' this
  rw [dilation_im hz.ne' hG]
  have hs : 0 < ∑ x, Complex.normSq (∑ j, (A x j : ℂ) * u j) := by
    rw [dilation_norm hA]
    obtain ⟨i, hi⟩ : ∃ i, u i ≠ 0 := by
      by_contra hcon
      push Not at hcon
      exact hu (funext hcon)
    exact Finset.sum_pos' (fun _ _ => Complex.normSq_nonneg _) ⟨i, Finset.mem_univ _, Complex.normSq_pos.mpr hi⟩
  obtain ⟨x, -, hx⟩ := Finset.exists_lt_of_sum_lt (f := fun _ : κ => (0 : ℝ)) (by simpa using hs)
  have : 0 < ∑ x, Complex.normSq (∑ j, (A x j : ℂ) * u j) / Complex.normSq (z - (ω x : ℂ)) :=
    Finset.sum_pos' (fun y _ => div_nonneg (Complex.normSq_nonneg _) (hpos y).le) ⟨x, Finset.mem_univ _, div_pos hx (hpos x)⟩
  nlinarith

theorem dilation_bound (hA : ∀ i j, ∑ x, A x i * A x j = if i = j then 1 else 0) (hz : z.im ≠ 0) (hG : ∀ i j, G i j = ∑ x, ((A x i * A x j : ℝ) : ℂ) / (z - (ω x : ℂ))) (u v : n → ℂ) :
    ‖star u ⬝ᵥ (G *ᵥ v)‖ ^ 2 ≤ (∑ i, Complex.normSq (u i)) * (∑ i, Complex.normSq (v i)) / z.im ^ 2 := by
  have hd : ∀ x, |z.im| ≤ ‖z - (ω x : ℂ)‖ := fun x => by
    have := Complex.abs_im_le_norm (z - (ω x : ℂ))
    simpa using this
  have hz0 : 0 < |z.im| := abs_pos.mpr hz
  let a : κ → ℂ := fun x => ∑ j, (A x j : ℂ) * u j
  let b : κ → ℂ := fun x => ∑ j, (A x j : ℂ) * v j
  have e : star u ⬝ᵥ (G *ᵥ v) = ∑ x, star (a x) * b x / (z - (ω x : ℂ)) := by
    simp only [dotProduct, Matrix.mulVec, hG, Pi.star_apply, a, b, star_sum, star_mul', Finset.sum_mul, Finset.mul_sum, Finset.sum_div, Complex.star_def, Complex.conj_ofReal]
    rw [Finset.sum_congr rfl fun i _ => Finset.sum_comm, Finset.sum_comm]
    refine Finset.sum_congr rfl fun x _ => ?_
    refine Finset.sum_comm.trans (Finset.sum_congr rfl fun i _ => Finset.sum_congr rfl fun j _ => ?_)
    push_cast
    ring
  have h1 : ‖star u ⬝ᵥ (G *ᵥ v)‖ ≤ (∑ x, ‖a x‖ * ‖b x‖) / |z.im| := by
    rw [e, Finset.sum_div]
    refine (norm_sum_le _ _).trans (Finset.sum_le_sum fun x _ => ?_)
    rw [norm_div, norm_mul, norm_star]
    exact div_le_div_of_nonneg_left (by positivity) hz0 (hd x)
  have h2 : (∑ x, ‖a x‖ * ‖b x‖) ^ 2 ≤ (∑ x, ‖a x‖ ^ 2) * ∑ x, ‖b x‖ ^ 2 := Finset.sum_mul_sq_le_sq_mul_sq _ _ _
  have h3 : ∑ x, ‖a x‖ ^ 2 = ∑ i, Complex.normSq (u i) := by
    rw [← dilation_norm hA u]
    exact Finset.sum_congr rfl fun x _ => (Complex.normSq_eq_norm_sq _).symm
  have h4 : ∑ x, ‖b x‖ ^ 2 = ∑ i, Complex.normSq (v i) := by
    rw [← dilation_norm hA v]
    exact Finset.sum_congr rfl fun x _ => (Complex.normSq_eq_norm_sq _).symm
  rw [h3, h4] at h2
  have h5 : ‖star u ⬝ᵥ (G *ᵥ v)‖ ^ 2 ≤ ((∑ x, ‖a x‖ * ‖b x‖) / |z.im|) ^ 2 := pow_le_pow_left₀ (norm_nonneg _) h1 2
  rw [div_pow, sq_abs] at h5
  exact h5.trans (div_le_div_of_nonneg_right h2 (sq_nonneg _))

end

/-- The energies of a solved dictionary at which an amplitude of `c_i` is not zero are addition energies. -/
theorem EigenEspace.addEnergy {n : ℕ} {es : Espace (ℕ × ℕ)} {H : Matrix (Finset (Fin (n + n))) (Finset (Fin (n + n))) ℝ} (h : EigenEspace n H es) (s : Bool) (i : Fin n) {x y : EigIdx n}
    (hne : esKet n es x ⬝ᵥ (ann ℝ (orb s i) *ᵥ esKet n es y) ≠ 0) : AddEnergy es s (esVal n es y - esVal n es x) := by
  obtain ⟨up, dw, hm, -, hok, -, -, hlen⟩ := h.toCompleteEspace.at (u := x.1.1) (d := x.1.2) (by have := x.1.1.2; omega) (by have := x.1.2.2; omega)
  obtain ⟨up', dw', hm', -, hok', -, -, hlen'⟩ := h.toCompleteEspace.at (u := y.1.1) (d := y.1.2) (by have := y.1.1.2; omega) (by have := y.1.2.2; omega)
  have hq : ((x.1.1 : ℕ) : ℤ) = (y.1.1 : ℕ) + (if false = s then -1 else 0) ∧ ((x.1.2 : ℕ) : ℤ) = (y.1.2 : ℕ) + (if true = s then -1 else 0) := by
    by_contra hcon
    refine hne ?_
    unfold esKet
    rw [hok.ket_eq, hok'.ket_eq]
    exact (grade_ann s i).elem_zero hok'.hup hok'.hdw hok.hup hok.hdw _ _ hcon
  refine ⟨_, hm, _, hm', ?_, esVal n es x, ?_, esVal n es y, ?_, rfl⟩
  · cases s
    · simp only [if_true, reduceCtorEq, if_false] at hq ⊢
      exact Prod.ext (by simp; omega) (by simp; omega)
    · simp only [if_true, reduceCtorEq, if_false] at hq ⊢
      exact Prod.ext (by simp; omega) (by simp; omega)
  · have := x.2.2
    unfold esVal
    rw [List.getElem?_eq_getElem (by rw [hlen]; exact this), Option.getD_some]
    exact List.getElem_mem _
  · have := y.2.2
    unfold esVal
    rw [List.getElem?_eq_getElem (by rw [hlen']; exact this), Option.getD_some]
    exact List.getElem_mem _

end Edpyt
