import Verif.Proof.Causal
import Verif.Props.SelfEnergy
/-!
# C132: self-energies are causal
-/
namespace Edpyt
open Spec Matrix

variable {junk : ℕ} {es : Espace (ℕ × ℕ)} {egs beta : ℝ}

theorem star_dot_smul_im {n : ℕ} (z : ℂ) (v : Fin n → ℂ) : (star v ⬝ᵥ ((z • (1 : Matrix (Fin n) (Fin n) ℂ)) *ᵥ v)).im = z.im * (star v ⬝ᵥ v).re := by
  have h0 : (star v ⬝ᵥ v).im = 0 := by
    simp only [dotProduct, Pi.star_apply, Complex.im_sum]
    refine Finset.sum_eq_zero fun i _ => ?_
    rw [Complex.star_def, mul_comm, Complex.mul_conj, Complex.ofReal_im]
  rw [Matrix.smul_mulVec, Matrix.one_mulVec, dotProduct_smul, smul_eq_mul, Complex.mul_im, h0]
  ring

theorem star_dot_real_im {n : ℕ} {h : Matrix (Fin n) (Fin n) ℝ} (hs : h.IsSymm) (v : Fin n → ℂ) : (star v ⬝ᵥ ((h.map Complex.ofReal) *ᵥ v)).im = 0 := by
  have : star (star v ⬝ᵥ ((h.map Complex.ofReal) *ᵥ v)) = star v ⬝ᵥ ((h.map Complex.ofReal) *ᵥ v) := by
    simp only [dotProduct, Matrix.mulVec, star_sum, Pi.star_apply, Finset.mul_sum, star_mul', star_star]
    rw [Finset.sum_comm]
    refine Finset.sum_congr rfl fun i _ => Finset.sum_congr rfl fun j _ => ?_
    simp only [Matrix.map_apply, Complex.star_def, Complex.conj_ofReal, hs.apply i j]
    ring
  exact Complex.conj_eq_iff_im.mp this

theorem anti_orb {n : ℕ} (s : Bool) (i j : Fin n) : ann ℝ (orb s i) * (ann ℝ (orb s j))ᵀ + (ann ℝ (orb s j))ᵀ * ann ℝ (orb s i) = if i = j then 1 else 0 := by
  have := ann_cre_anticomm (R := ℝ) (orb s i) (orb s j)
  rw [show cre ℝ (orb s j) = (ann ℝ (orb s j))ᵀ from rfl] at this
  rw [this]
  by_cases hij : i = j
  · rw [if_pos hij, if_pos (by rw [hij])]
  · rw [if_neg hij, if_neg (fun h => hij (orb_inj.mp h).2)]

/-- **C132** The matrix of Green functions that `build_gf2_exact` returns for the complete espace is invertible above the real axis, and the self-energy matrix `z - h - G⁻¹` there has
no positive imaginary part, whatever the interaction: `Im ⟨v, Σ v⟩ ≤ 0` for every vector `v`, hence on the diagonal. -/
theorem C132_matrix {a : HamArgs} (ha : a.Valid) (hes : EigenEspace a.n a.ham es) (s : Bool) :
    ∃ G, buildGf2Exact junk a.n es beta egs s = .ok G ∧ ∀ e eta : ℝ, 0 < eta →
      IsUnit (Matrix.of fun i j : Fin a.n => (G i j).call e eta) ∧
      (∀ v, (star v ⬝ᵥ (selfEnergyMatrix (a.oneBody s) (e + Complex.I * eta) (Matrix.of fun i j : Fin a.n => (G i j).call e eta) *ᵥ v)).im ≤ 0) ∧
      ∀ i, (selfEnergyMatrix (a.oneBody s) (e + Complex.I * eta) (Matrix.of fun i j : Fin a.n => (G i j).call e eta) i i).im ≤ 0 := by
  obtain ⟨G, h1, h2⟩ := C93_gf2_exact (junk := junk) (beta := beta) (egs := egs) ha.le hes s
  refine ⟨G, h1, fun e eta he => ?_⟩
  have hz : 0 < ((e : ℂ) + Complex.I * (eta : ℂ)).im := by simpa using he
  obtain ⟨hu, hc⟩ := green_causal hes.basis beta (c := fun i : Fin a.n => ann ℝ (orb s i)) (anti_orb s) hz (G := Matrix.of fun i j : Fin a.n => (G i j).call e eta) (fun i j => (h2 i j e eta he.ne' _).mpr rfl)
  have key : ∀ v, (star v ⬝ᵥ (selfEnergyMatrix (a.oneBody s) (e + Complex.I * eta) (Matrix.of fun i j : Fin a.n => (G i j).call e eta) *ᵥ v)).im ≤ 0 := fun v => by
    have h3 := hc _ (Matrix.nonsing_inv_mul _ ((Matrix.isUnit_iff_isUnit_det _).mp hu)) v
    unfold selfEnergyMatrix
    rw [Matrix.sub_mulVec, Matrix.sub_mulVec, dotProduct_sub, dotProduct_sub, Complex.sub_im, Complex.sub_im, star_dot_smul_im, star_dot_real_im (a.oneBody_symm ha s)]
    linarith
  refine ⟨hu, key, fun i => ?_⟩
  have := key (Pi.single i 1)
  rwa [Matrix.mulVec_single_one, ← Pi.single_star, star_one, single_one_dotProduct, Matrix.col_apply] at this

/-- The self-energy of a local Dyson equation is causal if its Green function is one. -/
theorem local_causal {n : ℕ} {h : Matrix (Fin n) (Fin n) ℝ} (hs : h.IsSymm) {i0 : Fin n} {z σ : ℂ} {G : Matrix (Fin n) (Fin n) ℂ} (hd : LocalDyson h i0 z σ G)
    (hc : ∀ M, M * G = 1 → ∀ v : Fin n → ℂ, z.im * (star v ⬝ᵥ v).re ≤ (star v ⬝ᵥ (M *ᵥ v)).im) : σ.im ≤ 0 := by
  have := hc _ hd (Pi.single i0 1)
  rw [Matrix.sub_mulVec, Matrix.sub_mulVec, dotProduct_sub, dotProduct_sub, Complex.sub_im, Complex.sub_im, star_dot_smul_im, star_dot_real_im hs, Matrix.mulVec_single_one, ← Pi.single_star, star_one,
    single_one_dotProduct, single_one_dotProduct, Matrix.col_apply, Matrix.single_apply_same] at this
  linarith

variable (nb : ℕ) (ek0 vk0 : ℕ → ℝ) (hist : List ImpOp) (ek vk : ℕ → ℝ) (mus : List ℝ)

/-- **C132** (partial) The self-energy of `Gfimp` from the exact Green function has an imaginary part of at most `nb * 1e-14 / Im z` above the real axis. -/
theorem C132_impurity_partial (hn : 1 ≤ nb) (hn' : nb ≤ 31) (U : ℝ) (sp : Bool) {z : ℂ} (hz : 0 < z.im) {gf : ℂ → ℂ}
    (hg : IsGreen (ι := Finset (Fin (nb + 1 + (nb + 1)))) beta ((impAfter nb ek0 vk0 hist ek vk mus).args (nb + 1) U).ham (ann ℝ (orb sp (0 : Fin (nb + 1)))) (cre ℝ (orb sp (0 : Fin (nb + 1)))) z (gf z)) :
    ((impAfter nb ek0 vk0 hist ek vk mus).sigma (nb + 1) gf z).im ≤ nb * (1 / 10 ^ 14) / z.im ∧
    ((∀ k < nb, vk k = 0 ∨ 1 / 10 ^ 7 < |vk k|) → ((impAfter nb ek0 vk0 hist ek vk mus).sigma (nb + 1) gf z).im ≤ 0) := by
  have ha := impAfter_valid nb ek0 vk0 hist ek vk mus hn hn' U
  obtain ⟨es, hes⟩ := eigenEspace_exists ha
  obtain ⟨G, -, h2⟩ := C93_gf2_exact (junk := 0) (beta := beta) (egs := 0) ha.le hes sp
  have ez : z = (z.re : ℂ) + Complex.I * (z.im : ℂ) := by rw [mul_comm]; exact (Complex.re_add_im z).symm
  have hG : ∀ i j : Fin (nb + 1), IsGreen (ι := Finset (Fin (nb + 1 + (nb + 1)))) beta ((impAfter nb ek0 vk0 hist ek vk mus).args (nb + 1) U).ham (ann ℝ (orb sp i)) (cre ℝ (orb sp j)) z
      ((Matrix.of fun i j : Fin (nb + 1) => (G i j).call z.re z.im) i j) := by
    intro i j
    have := (h2 i j z.re z.im hz.ne' _).mpr rfl
    rw [← ez] at this
    exact this
  have h0 : gf z = (Matrix.of fun i j : Fin (nb + 1) => (G i j).call z.re z.im) 0 0 := by
    have := (h2 (0 : Fin (nb + 1)) (0 : Fin (nb + 1)) z.re z.im hz.ne' (gf z)).mp
    rw [← ez] at this
    exact this hg
  have hd := C107_impurity_cut nb ek0 vk0 hist ek vk mus hn hn' U sp hz.ne' hG h0
  obtain ⟨-, hc⟩ := green_causal hes.basis beta (c := fun i : Fin (nb + 1) => ann ℝ (orb sp i)) (anti_orb sp) hz hG
  have h3 := local_causal (siam_symm _ _ _) hd hc
  rw [Complex.add_im] at h3
  refine ⟨?_, fun hv => ?_⟩
  · have h4 : -(nb * (1 / 10 ^ 14) / z.im) ≤ (hybridisation (fun k : Fin nb => ek k) (fun k : Fin nb => droppedCouplings vk k) z).im := by
      unfold hybridisation
      rw [Complex.im_sum]
      have : ∀ k : Fin nb, -((1 / 10 ^ 14) / z.im) ≤ (((droppedCouplings vk k : ℂ)) ^ 2 / (z - (ek k : ℂ))).im := fun k => by
        have hd2 : (droppedCouplings vk k) ^ 2 ≤ 1 / 10 ^ 14 := by
          unfold droppedCouplings
          split_ifs with h
          · norm_num
          · rw [← sq_abs]
            calc |vk k| ^ 2 ≤ (1 / 10 ^ 7) ^ 2 := pow_le_pow_left₀ (abs_nonneg _) (not_lt.mp h) 2
              _ = _ := by norm_num
        have hq : z.im ^ 2 ≤ Complex.normSq (z - (ek k : ℂ)) := by
          rw [Complex.normSq_apply]
          simp only [Complex.sub_im, Complex.ofReal_im, sub_zero]
          nlinarith [mul_self_nonneg (z - (ek k : ℂ)).re]
        have hq0 : 0 < Complex.normSq (z - (ek k : ℂ)) := lt_of_lt_of_le (by positivity) hq
        have e : (((droppedCouplings vk k : ℂ)) ^ 2 / (z - (ek k : ℂ))).im = -((droppedCouplings vk k) ^ 2 * z.im / Complex.normSq (z - (ek k : ℂ))) := by
          rw [← Complex.ofReal_pow, Complex.div_im]
          simp only [Complex.ofReal_re, Complex.ofReal_im, Complex.sub_im, Complex.sub_re]
          ring
        rw [e, neg_le_neg_iff, div_le_div_iff₀ hq0 hz]
        calc (droppedCouplings vk k) ^ 2 * z.im * z.im = (droppedCouplings vk k) ^ 2 * z.im ^ 2 := by ring
          _ ≤ _ := mul_le_mul hd2 hq (by positivity) (by norm_num)
      refine le_trans (le_of_eq ?_) (Finset.sum_le_sum fun k _ => this k)
      rw [Finset.sum_const, Finset.card_univ, Fintype.card_fin, nsmul_eq_mul]
      ring
    linarith
  · rw [(kept_of_large nb hv).2, hybridisation_zero, Complex.zero_im] at h3
    linarith

/-- **C132** (refuted) With a bath level at zero, the coupling `1e-8` and `U = 0` the self-energy at `z = i` has the imaginary part `1e-16`. -/
theorem C132_refuted (β : ℝ) : ∃ gf : ℂ → ℂ,
    (∀ z : ℂ, z.im ≠ 0 → IsGreen (ι := Finset (Fin (1 + 1 + (1 + 1)))) β ((impAfter 1 (fun _ => 0) (fun _ => 0) [] (fun _ => 0) (fun _ => 1 / 10 ^ 8) [0]).args 2 0).ham
      (ann ℝ (orb false (0 : Fin (1 + 1)))) (cre ℝ (orb false (0 : Fin (1 + 1)))) z (gf z)) ∧
    0 < ((impAfter 1 (fun _ => 0) (fun _ => 0) [] (fun _ => 0) (fun _ => 1 / 10 ^ 8) [0]).sigma 2 gf Complex.I).im := by
  have ha := impAfter_valid 1 (fun _ => 0) (fun _ => 0) [] (fun _ => 0) (fun _ => 1 / 10 ^ 8) [0] le_rfl (by norm_num) 0
  obtain ⟨es, hes⟩ := eigenEspace_exists ha
  obtain ⟨g, -, h⟩ := C92_gf_exact (junk := 0) (beta := β) (egs := 0) ha.le hes (pos := 0) (by exact Nat.succ_pos 1)
  have hG : ∀ z : ℂ, z.im ≠ 0 → IsGreen (ι := Finset (Fin (1 + 1 + (1 + 1)))) β ((impAfter 1 (fun _ => 0) (fun _ => 0) [] (fun _ => 0) (fun _ => 1 / 10 ^ 8) [0]).args 2 0).ham
      (ann ℝ (orb false (0 : Fin (1 + 1)))) (cre ℝ (orb false (0 : Fin (1 + 1)))) z (g.call z.re z.im) := by
    intro z hz
    have ez : z = (z.re : ℂ) + Complex.I * (z.im : ℂ) := by rw [mul_comm]; exact (Complex.re_add_im z).symm
    have := (h z.re z.im hz _).mpr rfl
    rw [← ez] at this
    exact this
  refine ⟨fun z => g.call z.re z.im, hG, ?_⟩
  rw [C108_dropped 1 (fun _ => 0) (fun _ => 0) [] (fun _ => 0) (fun _ => 1 / 10 ^ 8) [0] le_rfl (by norm_num) false (gf := fun z => g.call z.re z.im) (by simp) (hG Complex.I (by simp))]
  unfold hybridisation
  have : droppedCouplings (fun _ => 1 / 10 ^ 8) 0 = 1 / 10 ^ 8 := by
    unfold droppedCouplings
    rw [if_neg]
    rw [abs_of_pos (by norm_num)]; norm_num
  simp only [Fin.sum_univ_one, Fin.val_zero, this]
  rw [Complex.ofReal_zero, sub_zero, Complex.div_I, Complex.neg_im, ← Complex.ofReal_pow, Complex.neg_im, Complex.im_ofReal_mul, Complex.I_im]
  norm_num

/-! ### Non-vacuity: the impurity with one bath level of `SelfEnergy`, `U = 4`, and the two-site Hubbard model. -/

example : ∃ gf : ℂ → ℂ, ((impAfter 1 (fun _ => 0) (fun _ => 0) [.update 7] (fun _ => 0) (fun _ => 1) [1, 2]).sigma 2 gf Complex.I).im ≤ 0 ∧
    IsGreen (ι := Finset (Fin (1 + 1 + (1 + 1)))) 1 ((impAfter 1 (fun _ => 0) (fun _ => 0) [.update 7] (fun _ => 0) (fun _ => 1) [1, 2]).args 2 4).ham
      (ann ℝ (orb false (0 : Fin (1 + 1)))) (cre ℝ (orb false (0 : Fin (1 + 1)))) Complex.I (gf Complex.I) := by
  have ha := impAfter_valid 1 (fun _ => 0) (fun _ => 0) [.update 7] (fun _ => 0) (fun _ => 1) [1, 2] le_rfl (by norm_num) 4
  obtain ⟨es, hes⟩ := eigenEspace_exists ha
  obtain ⟨g, -, h⟩ := C92_gf_exact (junk := 0) (beta := 1) (egs := 0) ha.le hes (pos := 0) (by exact Nat.succ_pos 1)
  have hg := (h 0 1 one_ne_zero _).mpr rfl
  rw [show ((0 : ℝ) : ℂ) + Complex.I * ((1 : ℝ) : ℂ) = Complex.I by simp] at hg
  refine ⟨fun _ => g.call 0 1, ?_, hg⟩
  exact (C132_impurity_partial 1 _ _ [.update 7] (fun _ => 0) (fun _ => 1) [1, 2] le_rfl (by norm_num) 4 false (z := Complex.I) (by simp) (gf := fun _ => g.call 0 1) hg).2 fun _ _ => by norm_num

example : ∃ es G, buildGf2Exact 0 2 es 1 0 false = .ok G ∧
    ∀ i, (selfEnergyMatrix (exampleArgs.oneBody false) (((0 : ℝ) : ℂ) + Complex.I * ((1 : ℝ) : ℂ)) (Matrix.of fun i j : Fin 2 => (G i j).call 0 1) i i).im ≤ 0 := by
  obtain ⟨es, hes⟩ := eigenEspace_exists exampleArgs_valid
  obtain ⟨G, h1, h2⟩ := C132_matrix (junk := 0) (beta := 1) (egs := 0) exampleArgs_valid hes false
  exact ⟨es, G, h1, fun i => (h2 0 1 one_pos).2.2 i⟩

end Edpyt
