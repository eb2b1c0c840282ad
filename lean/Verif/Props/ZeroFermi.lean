import Verif.Proof.ZeroFermi
import Verif.Proof.TanhFrac
import Verif.Proof.Eigen
import Verif.Spec.Entropy

/-!
# C100: the occupation that `integrate_gf` computes

`edpyt/integrate_gf.py`.
-/

namespace Edpyt
open Edpyt.Spec
open Matrix

noncomputable section

/-! ### A solution of `(b + i x a) u = e₀` -/

/-- Component `k` of the solution. -/
def ozU (y : ℝ) (M : ℕ) : ℕ → ℂ
  | 0 => (tanhFrac y M 0 : ℂ)
  | k + 1 => Complex.I * y * ozU y M k * (tanhFrac y (M - (k + 1)) (k + 1) : ℂ)

theorem ozU_end (y : ℝ) {M : ℕ} (hM : 0 < M) : ozU y M M = 0 := by
  cases M with
  | zero => omega
  | succ m => simp [ozU, tanhFrac]

theorem tanhFrac_step (y : ℝ) {M k : ℕ} (hk : k < M) :
    ((2 * (k : ℝ) + 1) + y ^ 2 * tanhFrac y (M - (k + 1)) (k + 1)) * tanhFrac y (M - k) k = 1 := by
  rw [show M - k = (M - (k + 1)) + 1 by omega, tanhFrac]
  have := tanhFrac_nonneg y (M - (k + 1)) (k + 1)
  have : 0 < (2 * (k : ℝ) + 1) + y ^ 2 * tanhFrac y (M - (k + 1)) (k + 1) := by positivity
  field_simp

theorem ozU_row (y : ℝ) {M k : ℕ} (hk : k < M) :
    (2 * (k : ℂ) + 1) * ozU y M k - Complex.I * y * ((if 0 < k then ozU y M (k - 1) else 0) + ozU y M (k + 1)) = if k = 0 then 1 else 0 := by
  have h : ((2 * (k : ℂ) + 1) + (y : ℂ) ^ 2 * (tanhFrac y (M - (k + 1)) (k + 1) : ℂ)) * (tanhFrac y (M - k) k : ℂ) = 1 := by
    have := tanhFrac_step y hk
    exact_mod_cast congrArg (fun r : ℝ => (r : ℂ)) this
  have hI : Complex.I * Complex.I = -1 := Complex.I_mul_I
  have e1 : (2 * (k : ℂ) + 1) * ozU y M k - Complex.I * y * ozU y M (k + 1) = ((2 * (k : ℂ) + 1) + (y : ℂ) ^ 2 * (tanhFrac y (M - (k + 1)) (k + 1) : ℂ)) * ozU y M k := by
    rw [ozU]; linear_combination (-(y : ℂ) ^ 2 * ozU y M k * (tanhFrac y (M - (k + 1)) (k + 1) : ℂ)) * hI
  rw [mul_add, ← sub_sub, sub_right_comm, e1]
  cases k with
  | zero =>
    simp only [lt_irrefl, if_false, if_true, mul_zero, sub_zero]
    rw [ozU]; exact h
  | succ k =>
    simp only [Nat.succ_pos, if_true, Nat.add_sub_cancel]
    rw [if_neg (by omega)]
    conv_lhs => enter [1, 2]; rw [ozU]
    linear_combination (Complex.I * y * ozU y M k) * h

theorem sum_tri {M : ℕ} (u : ℕ → ℂ) (hu : u M = 0) {k : ℕ} (hk : k < M) :
    ∑ c : Fin M, (((if (c : ℕ) = k + 1 ∨ k = c + 1 then -(1 / 2) else 0 : ℝ)) : ℂ) * u c = -(1 / 2) * ((if 0 < k then u (k - 1) else 0) + u (k + 1)) := by
  have h1 : ∀ c : Fin M, (((if (c : ℕ) = k + 1 ∨ k = c + 1 then -(1 / 2) else 0 : ℝ)) : ℂ) * u c =
      -(1 / 2) * ((if (c : ℕ) = k + 1 then u c else 0) + (if k = (c : ℕ) + 1 then u c else 0)) := by
    intro c
    by_cases a1 : (c : ℕ) = k + 1
    · rw [if_pos (.inl a1), if_pos a1, if_neg (by omega)]; push_cast; ring
    · by_cases a2 : k = (c : ℕ) + 1
      · rw [if_pos (.inr a2), if_neg a1, if_pos a2]; push_cast; ring
      · rw [if_neg (by tauto), if_neg a1, if_neg a2]; push_cast; ring
  rw [Finset.sum_congr rfl fun c _ => h1 c, ← Finset.mul_sum, Finset.sum_add_distrib]
  have s1 : ∑ c : Fin M, (if (c : ℕ) = k + 1 then u c else 0) = u (k + 1) := by
    by_cases hk1 : k + 1 < M
    · rw [Finset.sum_eq_single (⟨k + 1, hk1⟩ : Fin M) (fun b _ hb => if_neg fun e => hb (Fin.ext e)) (fun hh => absurd (Finset.mem_univ _) hh)]
      simp
    · rw [Finset.sum_eq_zero fun c _ => if_neg (by omega), show k + 1 = M by omega, hu]
  have s2 : ∑ c : Fin M, (if k = (c : ℕ) + 1 then u c else 0) = if 0 < k then u (k - 1) else 0 := by
    by_cases hk0 : 0 < k
    · rw [Finset.sum_eq_single (⟨k - 1, by omega⟩ : Fin M) (fun b _ hb => if_neg fun e => hb (Fin.ext (by simp only; omega))) (fun hh => absurd (Finset.mem_univ _) hh)]
      rw [if_pos hk0, if_pos (by simp only; omega)]
    · rw [Finset.sum_eq_zero fun c _ => if_neg (by omega), if_neg hk0]
  rw [s1, s2, add_comm]

theorem ozU_solves (x : ℝ) {M : ℕ} (hM : 0 < M) :
    ((ozB M).map ((↑) : ℝ → ℂ) + (Complex.I * x) • (ozA M).map ((↑) : ℝ → ℂ)) *ᵥ (fun c : Fin M => ozU (x / 2) M c) = Pi.single ⟨0, hM⟩ 1 := by
  funext r
  rw [Matrix.add_mulVec, Matrix.smul_mulVec, Pi.add_apply, Pi.smul_apply, smul_eq_mul]
  have e1 : ((ozB M).map ((↑) : ℝ → ℂ) *ᵥ (fun c : Fin M => ozU (x / 2) M c)) r = (2 * ((r : ℕ) : ℂ) + 1) * ozU (x / 2) M r := by
    have : (ozB M).map ((↑) : ℝ → ℂ) = Matrix.diagonal fun r : Fin M => (2 * ((r : ℕ) : ℂ) + 1) := by
      unfold ozB
      rw [Matrix.diagonal_map (by simp)]
      congr 1; funext r; simp
    rw [this, Matrix.mulVec_diagonal]
  have e2 : ((ozA M).map ((↑) : ℝ → ℂ) *ᵥ (fun c : Fin M => ozU (x / 2) M c)) r =
      -(1 / 2) * ((if 0 < (r : ℕ) then ozU (x / 2) M (r - 1) else 0) + ozU (x / 2) M (r + 1)) :=
    sum_tri _ (ozU_end _ hM) r.2
  rw [e1, e2]
  have := ozU_row (x / 2) r.2
  rw [Pi.single_apply]
  simp only [Fin.ext_iff]
  rw [← this]
  push_cast
  ring

/-- The weights of the poles, summed with a Lorentzian, are the truncated continued fraction. -/
theorem GenEigh.lorentz {M : ℕ} (hM : 0 < M) {w : Fin M → ℝ} {V : Matrix (Fin M) (Fin M) ℝ} (h : GenEigh (ozA M) (ozB M) w V) (x : ℝ) :
    ∑ i, 1 / (1 + x ^ 2 * w i ^ 2) * V ⟨0, hM⟩ i ^ 2 = tanhFrac (x / 2) M 0 := by
  set u : Fin M → ℂ := fun c => ozU (x / 2) M c with hu
  set Ac := (ozA M).map ((↑) : ℝ → ℂ)
  set Bc := (ozB M).map ((↑) : ℝ → ℂ)
  set Vc := V.map ((↑) : ℝ → ℂ)
  have hmul : ∀ P Q : Matrix (Fin M) (Fin M) ℝ, (P * Q).map ((↑) : ℝ → ℂ) = P.map ((↑) : ℝ → ℂ) * Q.map ((↑) : ℝ → ℂ) := fun P Q => by
    ext i j; simp [Matrix.mul_apply]
  have hA : Ac * Vc = Bc * Vc * Matrix.diagonal (fun i => (w i : ℂ)) := by
    have := congrArg (fun P => P.map ((↑) : ℝ → ℂ)) h.eig
    simp only [hmul] at this
    rw [this, Matrix.diagonal_map (by simp)]
  have hR : Vc * (Vcᵀ * Bc) = 1 := by
    have := congrArg (fun P => P.map ((↑) : ℝ → ℂ)) h.right
    simp only [hmul] at this
    rw [← Matrix.mul_assoc]
    refine Eq.trans ?_ (this.trans ?_)
    · rfl
    · ext i j; simp [Matrix.one_apply]; split <;> simp
  have hsA : Acᵀ = Ac := by rw [← Matrix.transpose_map, (ozA_symm M).eq]
  have hsB : Bcᵀ = Bc := by rw [← Matrix.transpose_map, (ozB_symm M).eq]
  have hA' : Vcᵀ * Ac = Matrix.diagonal (fun i => (w i : ℂ)) * (Vcᵀ * Bc) := by
    have := congrArg Matrix.transpose hA
    rwa [Matrix.transpose_mul, Matrix.transpose_mul, Matrix.transpose_mul, hsA, hsB, Matrix.diagonal_transpose] at this
  have hT : Vcᵀ * (Bc + (Complex.I * x) • Ac) = Matrix.diagonal (fun i => 1 + Complex.I * x * (w i : ℂ)) * (Vcᵀ * Bc) := by
    rw [Matrix.mul_add, Matrix.mul_smul, hA']
    ext i j
    simp only [Matrix.add_apply, Matrix.smul_apply, Matrix.diagonal_mul, smul_eq_mul]
    ring
  have h1 : ∀ i, (1 + Complex.I * x * (w i : ℂ)) * ((Vcᵀ * Bc) *ᵥ u) i = (V ⟨0, hM⟩ i : ℂ) := by
    intro i
    have e := congrArg (fun v => Vcᵀ *ᵥ v) (ozU_solves x hM)
    simp only [Matrix.mulVec_mulVec] at e
    rw [hT] at e
    have := congrFun e i
    rw [← Matrix.mulVec_mulVec, Matrix.mulVec_diagonal] at this
    rw [this, Matrix.mulVec_single]
    simp [Vc]
  have h2 : u ⟨0, hM⟩ = ∑ i, (V ⟨0, hM⟩ i : ℂ) * ((Vcᵀ * Bc) *ᵥ u) i := by
    have : u = Vc *ᵥ ((Vcᵀ * Bc) *ᵥ u) := by rw [Matrix.mulVec_mulVec, hR, Matrix.one_mulVec]
    conv_lhs => rw [this]
    rfl
  have hne : ∀ i, (1 + Complex.I * x * (w i : ℂ)) ≠ 0 := by
    intro i h0
    have := congrArg Complex.re h0
    simp at this
  have h3 : ∀ i, (V ⟨0, hM⟩ i : ℂ) * ((Vcᵀ * Bc) *ᵥ u) i = (V ⟨0, hM⟩ i : ℂ) ^ 2 / (1 + Complex.I * x * (w i : ℂ)) := by
    intro i
    rw [eq_div_iff (hne i), ← h1 i]; ring
  rw [Finset.sum_congr rfl fun i _ => h3 i] at h2
  have h4 := congrArg Complex.re h2
  rw [Complex.re_sum] at h4
  have h5 : (u ⟨0, hM⟩).re = tanhFrac (x / 2) M 0 := by simp [hu, ozU]
  rw [← h5, h4]
  refine Finset.sum_congr rfl fun i _ => ?_
  have e3 : (V ⟨0, hM⟩ i : ℂ) ^ 2 / (1 + Complex.I * x * (w i : ℂ)) = ((V ⟨0, hM⟩ i ^ 2 / (1 + x ^ 2 * w i ^ 2) : ℝ) : ℂ) * (1 - Complex.I * x * (w i : ℂ)) := by
    rw [div_eq_iff (hne i)]
    have hd : (1 + (x : ℂ) ^ 2 * (w i : ℂ) ^ 2) ≠ 0 := by
      have : (0 : ℝ) < 1 + x ^ 2 * w i ^ 2 := by positivity
      exact_mod_cast this.ne'
    push_cast
    field_simp
    linear_combination ((V ⟨0, hM⟩ i : ℂ) ^ 2 * (x : ℂ) ^ 2 * (w i : ℂ) ^ 2) * Complex.I_sq
  rw [e3, Complex.re_ofReal_mul]
  simp
  ring

/-- Half of the sum comes from the negative eigenvalues, that is from the first half of the list. -/
theorem GenEigh.half {N : ℕ} (hN : 0 < N) {w : Fin (2 * N) → ℝ} {V : Matrix (Fin (2 * N)) (Fin (2 * N)) ℝ} (h : GenEigh (ozA (2 * N)) (ozB (2 * N)) w V) (x : ℝ) :
    ∑ i ∈ Finset.univ.filter (fun i : Fin (2 * N) => (i : ℕ) < N), 1 / (1 + x ^ 2 * w i ^ 2) * V ⟨0, by omega⟩ i ^ 2 = tanhFrac (x / 2) (2 * N) 0 / 2 := by
  rw [← h.lorentz (by omega) x]
  have h1 := h.sum_flip (fun l => if l < 0 then 1 / (1 + x ^ 2 * l ^ 2) else 0) ⟨0, by omega⟩
  have h2 : ∀ i, (if w i < 0 then 1 / (1 + x ^ 2 * w i ^ 2) else 0) * V ⟨0, by omega⟩ i ^ 2 + (if -w i < 0 then 1 / (1 + x ^ 2 * (-w i) ^ 2) else 0) * V ⟨0, by omega⟩ i ^ 2 =
      1 / (1 + x ^ 2 * w i ^ 2) * V ⟨0, by omega⟩ i ^ 2 := by
    intro i
    rcases lt_or_gt_of_ne (h.ne_zero i) with hh | hh
    · rw [if_pos hh, if_neg (by linarith)]; ring
    · rw [if_neg (by linarith), if_pos (by linarith)]; ring_nf
  rw [← Finset.sum_congr (s₁ := Finset.univ) rfl fun i _ => h2 i, Finset.sum_add_distrib, ← h1, Finset.sum_filter]
  rw [← two_mul, mul_div_cancel_left₀ _ (two_ne_zero)]
  refine Finset.sum_congr rfl fun i _ => ?_
  by_cases hi : w i < 0
  · rw [if_pos ((h.neg_iff i).mp hi), if_pos hi]
  · rw [if_neg (fun hh => hi ((h.neg_iff i).mpr hh)), if_neg hi, zero_mul]

/-! ### Existence of the decomposition -/

theorem genEigh_exists (M : ℕ) : ∃ w V, GenEigh (ozA M) (ozB M) w V := by
  set s : ℕ → ℝ := fun r => (Real.sqrt (2 * (r : ℝ) + 1))⁻¹ with hs
  have hs2 : ∀ r : ℕ, s r * s r * (2 * (r : ℝ) + 1) = 1 := by
    intro r
    have h0 : (0 : ℝ) ≤ 2 * (r : ℝ) + 1 := by positivity
    have h1 : Real.sqrt (2 * (r : ℝ) + 1) * Real.sqrt (2 * (r : ℝ) + 1) = 2 * (r : ℝ) + 1 := Real.mul_self_sqrt h0
    have h2 : Real.sqrt (2 * (r : ℝ) + 1) ≠ 0 := by positivity
    simp only [hs]
    field_simp
    rw [sq, h1]
  set S : Matrix (Fin M) (Fin M) ℝ := Matrix.diagonal fun r => s r with hS
  set D : Dense ℝ := ⟨M, fun i j => s i * (if j = i + 1 ∨ i = j + 1 then -(1 / 2) else 0) * s j⟩ with hD
  obtain ⟨w, v, hE⟩ := eigh_exists D (fun i j _ _ => by simp only [hD, or_comm]; ring)
  have hmat : D.mat = S * ozA M * S := by
    ext i j
    rw [hS, Matrix.mul_diagonal, Matrix.diagonal_mul]
    rfl
  have hSB : S * ozB M * S = 1 := by
    rw [hS]
    unfold ozB
    rw [Matrix.diagonal_mul_diagonal, Matrix.diagonal_mul_diagonal, ← Matrix.diagonal_one]
    congr 1; funext r
    linear_combination hs2 r
  have hBSS : ozB M * S * S = 1 := by
    rw [hS]
    unfold ozB
    rw [Matrix.diagonal_mul_diagonal, Matrix.diagonal_mul_diagonal, ← Matrix.diagonal_one]
    congr 1; funext r
    linear_combination hs2 r
  have hm := hE.mat_mul
  have ho := hE.vmat_orth
  refine ⟨Eigh.wfun M w, S * Eigh.vmat M v, ?_, ?_, ?_⟩
  · intro i j hij
    have h1 := Eigh.wfun_apply hE i
    have h2 := Eigh.wfun_apply hE j
    have h3 : Eigh.wfun M w i = w[(i : ℕ)]'(by rw [hE.wlen]; exact i.2) := h1
    have h4 : Eigh.wfun M w j = w[(j : ℕ)]'(by rw [hE.wlen]; exact j.2) := h2
    rw [h3, h4]
    rcases eq_or_lt_of_le hij with rfl | hlt
    · exact le_rfl
    · exact List.pairwise_iff_getElem.mp hE.sorted i j _ _ hlt
  · calc ozA M * (S * Eigh.vmat M v) = (ozB M * S * S) * (ozA M * (S * Eigh.vmat M v)) := by rw [hBSS, Matrix.one_mul]
      _ = ozB M * S * ((S * ozA M * S) * Eigh.vmat M v) := by simp only [Matrix.mul_assoc]
      _ = ozB M * S * (Eigh.vmat M v * Matrix.diagonal (Eigh.wfun M w)) := by rw [← hmat]; exact congrArg _ hm
      _ = _ := by simp only [Matrix.mul_assoc]
  · calc (S * Eigh.vmat M v)ᵀ * ozB M * (S * Eigh.vmat M v) = (Eigh.vmat M v)ᵀ * (S * ozB M * S) * Eigh.vmat M v := by
          rw [Matrix.transpose_mul, hS, Matrix.diagonal_transpose]; simp only [Matrix.mul_assoc]
      _ = 1 := by rw [hSB, Matrix.mul_one]; exact ho

/-! ### The sums of `integrate_gf` -/

/-- One pole of the Green function and one pole of the Fermi function. -/
theorem pole_term {β μ e R z w V : ℝ} (hβ : 0 < β) (hw : w < 0) (hz : z = -(1 / w)) (hR : R = -(V ^ 2 * (1 / w) ^ 2 / 4)) :
    ((1 / (((μ : ℂ) + Complex.I * (z : ℂ) / (β : ℂ)) - (e : ℂ))) * (R : ℂ) * (-Complex.I * 4 / (β : ℂ))).im =
      -(β * (e - μ)) * (1 / (1 + (β * (e - μ)) ^ 2 * w ^ 2) * V ^ 2) := by
  have hw0 : w ≠ 0 := hw.ne
  have hd : (1 + (β * (e - μ)) ^ 2 * w ^ 2) ≠ 0 := by positivity
  have hdc : (1 + ((β : ℂ) * ((e : ℂ) - (μ : ℂ))) ^ 2 * (w : ℂ) ^ 2) ≠ 0 := by exact_mod_cast congrArg (fun r : ℝ => (r : ℂ)) rfl ▸ (Complex.ofReal_ne_zero.mpr hd)
  have hwc : (w : ℂ) ≠ 0 := by exact_mod_cast hw0
  have hbc : (β : ℂ) ≠ 0 := by exact_mod_cast hβ.ne'
  have hden : ((μ : ℂ) + Complex.I * (z : ℂ) / (β : ℂ)) - (e : ℂ) ≠ 0 := by
    intro h0
    have := congrArg Complex.im h0
    simp [Complex.div_ofReal_im] at this
    rcases this with h | h
    · rw [hz] at h
      have : (0 : ℝ) < -(1 / w) := by rw [neg_pos]; exact one_div_neg.mpr hw
      linarith
    · exact hβ.ne' h
  have key : (1 / (((μ : ℂ) + Complex.I * (z : ℂ) / (β : ℂ)) - (e : ℂ))) * (R : ℂ) * (-Complex.I * 4 / (β : ℂ)) =
      ((V ^ 2 / (1 + (β * (e - μ)) ^ 2 * w ^ 2) : ℝ) : ℂ) * (((-(1 / w) : ℝ) : ℂ) - Complex.I * ((β * (e - μ) : ℝ) : ℂ)) := by
    rw [mul_assoc, one_div, inv_mul_eq_iff_eq_mul₀ hden]
    subst hz hR
    have hK : ((V ^ 2 / (1 + (β * (e - μ)) ^ 2 * w ^ 2) : ℝ) : ℂ) * (1 + ((β : ℂ) * ((e : ℂ) - (μ : ℂ))) ^ 2 * (w : ℂ) ^ 2) = (V : ℂ) ^ 2 := by
      push_cast
      exact div_mul_cancel₀ _ hdc
    generalize ((V ^ 2 / (1 + (β * (e - μ)) ^ 2 * w ^ 2) : ℝ) : ℂ) = K at hK ⊢
    push_cast
    field_simp
    linear_combination (-Complex.I) * hK - K * ((e : ℂ) - μ) * w * β * Complex.I_sq
  rw [key, Complex.im_ofReal_mul]
  simp
  ring

theorem first_moment {R : ℝ} (hR : R ≠ 0) (a e : ℝ) : (Complex.I * (R : ℂ) * ((a : ℂ) / (Complex.I * (R : ℂ) - (e : ℂ)))).re = a * (R ^ 2 / (R ^ 2 + e ^ 2)) := by
  have hne : Complex.I * (R : ℂ) - (e : ℂ) ≠ 0 := by
    intro h0
    have := congrArg Complex.im h0
    simp at this
    exact hR this
  have hd : ((R : ℂ) ^ 2 + (e : ℂ) ^ 2) ≠ 0 := by
    have : (0 : ℝ) < R ^ 2 + e ^ 2 := by positivity
    exact_mod_cast this.ne'
  have : Complex.I * (R : ℂ) * ((a : ℂ) / (Complex.I * (R : ℂ) - (e : ℂ))) = ((a / (R ^ 2 + e ^ 2) : ℝ) : ℂ) * ((R ^ 2 : ℝ) - Complex.I * ((R * e : ℝ) : ℂ)) := by
    rw [← mul_div_assoc, div_eq_iff hne]
    push_cast
    field_simp
    linear_combination ((R : ℂ) ^ 2 * a * e) * Complex.I_sq
  rw [this, Complex.re_ofReal_mul]
  simp [← Complex.ofReal_pow]
  ring

/-- What `integrate_gf` returns for a sum of poles, in closed form. -/
theorem integrateGf_eq {ι : Type} [Fintype ι] {kB T : ℝ} (hk : 0 < kB) (hT : 0 < T) (mu : ℝ) (a e : ι → ℝ) {nzp : ℕ} (hn : 0 < nzp) {rho : ℝ}
    (h : IntegrateGf kB (fun z => ∑ j, (a j : ℂ) / (z - (e j : ℂ))) mu T nzp rho) :
    rho = ∑ j, a j * (1 / 2 * (10 ^ 20 / (10 ^ 20 + e j ^ 2)) - 1 / 2 * ((e j - mu) / (2 * (kB * T)) * tanhFrac ((e j - mu) / (2 * (kB * T))) (2 * nzp) 0)) := by
  obtain ⟨zp, Rp, ⟨w, V, hE, rfl, rfl⟩, h⟩ := h
  rw [reshape_A, reshape_B] at hE
  simp only at h
  set β := 1 / (kB * T) with hβd
  have hβ : 0 < β := by positivity
  -- the first moment
  have h0 : (Complex.I * ((10 ^ 10 : ℝ) : ℂ) * ∑ j, (a j : ℂ) / (Complex.I * ((10 ^ 10 : ℝ) : ℂ) - (e j : ℂ))).re = ∑ j, a j * (10 ^ 20 / (10 ^ 20 + e j ^ 2)) := by
    rw [Finset.mul_sum, Complex.re_sum]
    refine Finset.sum_congr rfl fun j _ => ?_
    rw [first_moment (by norm_num)]
    norm_num
  -- the second
  have hfold : ∀ (f : ℕ → ℂ) (m : ℕ), (List.range m).foldl (fun (s : ℂ) i => s + f i) 0 = ∑ i ∈ Finset.range m, f i := by
    intro f m
    induction m with
    | zero => rfl
    | succ m ih => rw [List.range_succ, List.foldl_append, List.foldl_cons, List.foldl_nil, ih, Finset.sum_range_succ]
  have h1 : (((List.range nzp).foldl (fun (s : ℂ) i => s + (∑ j, (a j : ℂ) /
      (((((List.range nzp).map fun i => -(zfPoles w V).1 (i + 1)).map fun z : ℝ => (mu : ℂ) + Complex.I * (z : ℂ) / (β : ℂ))[i]?.getD 0) - (e j : ℂ))) *
      ((((List.range nzp).map fun i => (zfPoles w V).2 (i + 1))[i]?.getD 0 : ℝ) : ℂ)) 0) * (-Complex.I * 4 / (β : ℂ))).im =
      ∑ j, a j * -((e j - mu) / (2 * (kB * T)) * tanhFrac ((e j - mu) / (2 * (kB * T))) (2 * nzp) 0) := by
    rw [hfold, Finset.sum_mul, Complex.im_sum]
    have hterm : ∀ i ∈ Finset.range nzp, (((∑ j, (a j : ℂ) /
        (((((List.range nzp).map fun i => -(zfPoles w V).1 (i + 1)).map fun z : ℝ => (mu : ℂ) + Complex.I * (z : ℂ) / (β : ℂ))[i]?.getD 0) - (e j : ℂ))) *
        ((((List.range nzp).map fun i => (zfPoles w V).2 (i + 1))[i]?.getD 0 : ℝ) : ℂ)) * (-Complex.I * 4 / (β : ℂ))).im =
        ∑ j, a j * (-(β * (e j - mu)) * (if hi : i < 2 * nzp then 1 / (1 + (β * (e j - mu)) ^ 2 * w ⟨i, hi⟩ ^ 2) * V ⟨0, by omega⟩ ⟨i, hi⟩ ^ 2 else 0)) := by
      intro i hi
      rw [Finset.mem_range] at hi
      have hi2 : i < 2 * nzp := by omega
      obtain ⟨p1, p2⟩ := zfPoles_eq w V hi2
      have hw : w ⟨i, hi2⟩ < 0 := (hE.neg_iff ⟨i, hi2⟩).mpr hi
      simp only [List.map_map, List.getElem?_map, List.getElem?_range hi, Option.map_some, Option.getD_some, Function.comp, dif_pos hi2]
      rw [Finset.sum_mul, Finset.sum_mul, Complex.im_sum]
      refine Finset.sum_congr rfl fun j _ => ?_
      rw [← pole_term (μ := mu) (e := e j) (z := -(zfPoles w V).1 (i + 1)) (R := (zfPoles w V).2 (i + 1)) (V := V ⟨0, by omega⟩ ⟨i, hi2⟩) hβ hw (by rw [p1]) p2, ← Complex.im_ofReal_mul]
      congr 1
      ring
    rw [Finset.sum_congr rfl hterm, Finset.sum_comm]
    refine Finset.sum_congr rfl fun j _ => ?_
    rw [← Finset.mul_sum, ← Finset.mul_sum]
    congr 1
    have hsum : ∑ i ∈ Finset.range nzp, (if hi : i < 2 * nzp then 1 / (1 + (β * (e j - mu)) ^ 2 * w ⟨i, hi⟩ ^ 2) * V ⟨0, by omega⟩ ⟨i, hi⟩ ^ 2 else 0) =
        tanhFrac (β * (e j - mu) / 2) (2 * nzp) 0 / 2 := by
      rw [← hE.half hn (β * (e j - mu)), Finset.sum_filter]
      have e1 := Finset.sum_range (n := 2 * nzp) (fun i => if i < nzp then (if hi : i < 2 * nzp then 1 / (1 + (β * (e j - mu)) ^ 2 * w ⟨i, hi⟩ ^ 2) * V ⟨0, by omega⟩ ⟨i, hi⟩ ^ 2 else 0) else 0)
      simp only [Fin.is_lt, dite_true, Fin.eta] at e1
      rw [← e1, ← Finset.sum_filter]
      congr 1
      ext i
      simp only [Finset.mem_filter, Finset.mem_range]
      omega
    rw [hsum]
    have e2 : β * (e j - mu) / 2 = (e j - mu) / (2 * (kB * T)) := by rw [hβd]; field_simp
    have e3 : β * (e j - mu) = 2 * ((e j - mu) / (2 * (kB * T))) := by rw [← e2]; ring
    rw [e2, e3]; ring
  rw [h, h0, h1, ← Finset.sum_add_distrib, Finset.sum_div]
  refine Finset.sum_congr rfl fun j _ => ?_
  ring

theorem fermiOcc_tanh (β ε : ℝ) : fermiOcc β ε = 1 / 2 - 1 / 2 * Real.tanh (β * ε / 2) := by
  unfold fermiOcc
  rw [Real.tanh_eq_sinh_div_cosh, Real.sinh_eq, Real.cosh_eq]
  have h1 : Real.exp (β * ε) = Real.exp (β * ε / 2) ^ 2 := by rw [← Real.exp_nat_mul]; congr 1; push_cast; ring
  have h2 : Real.exp (-(β * ε / 2)) = (Real.exp (β * ε / 2))⁻¹ := Real.exp_neg _
  rw [h1, h2]
  have := Real.exp_pos (β * ε / 2)
  field_simp
  ring

/-- **C100** `integrate_gf` of a Green function with poles `e j` and weights `a j` returns for every temperature, chemical potential and number of
points, and differs from the occupation `Σ a j f(e j - mu)` by at most the error of the `2 nzp`-th convergent of the continued fraction of `tanh`
and of replacing infinity by `1e10`. -/
theorem C100_integrate_gf {ι : Type} [Fintype ι] {kB T : ℝ} (hk : 0 < kB) (hT : 0 < T) (mu : ℝ) (a e : ι → ℝ) {nzp : ℕ} (hn : 0 < nzp) :
    (∃ rho, IntegrateGf kB (fun z => ∑ j, (a j : ℂ) / (z - (e j : ℂ))) mu T nzp rho) ∧
    ∀ rho, IntegrateGf kB (fun z => ∑ j, (a j : ℂ) / (z - (e j : ℂ))) mu T nzp rho →
      |rho - ∑ j, a j * fermiOcc (1 / (kB * T)) (e j - mu)| ≤
        ∑ j, |a j| * (1 / 2 * (e j ^ 2 / (10 ^ 20 + e j ^ 2)) + 1 / 2 * (|(e j - mu) / (2 * (kB * T))| *
          ((∏ k ∈ Finset.range (2 * nzp), ((e j - mu) / (2 * (kB * T))) ^ 2 / (2 * (k : ℝ) + 1) ^ 2) * (1 / (2 * ((2 * nzp : ℕ) : ℝ) + 1))))) := by
  constructor
  · obtain ⟨w, V, h⟩ := genEigh_exists (2 * nzp)
    exact ⟨_, _, _, ⟨w, V, by rw [reshape_A, reshape_B]; exact h, rfl, rfl⟩, rfl⟩
  · intro rho h
    rw [integrateGf_eq hk hT mu a e hn h, ← Finset.sum_sub_distrib]
    refine (Finset.abs_sum_le_sum_abs _ _).trans (Finset.sum_le_sum fun j _ => ?_)
    rw [fermiOcc_tanh, show 1 / (kB * T) * (e j - mu) / 2 = (e j - mu) / (2 * (kB * T)) by field_simp, ← mul_sub, abs_mul]
    refine mul_le_mul_of_nonneg_left ?_ (abs_nonneg _)
    set y := (e j - mu) / (2 * (kB * T))
    have h1 := tanhFrac_tanh y (2 * nzp)
    have hd : (0 : ℝ) < 10 ^ 20 + e j ^ 2 := by positivity
    have e1 : (10 : ℝ) ^ 20 / (10 ^ 20 + e j ^ 2) = 1 - e j ^ 2 / (10 ^ 20 + e j ^ 2) := by field_simp; ring
    have h2 : 0 ≤ e j ^ 2 / (10 ^ 20 + e j ^ 2) := by positivity
    rw [e1]
    rw [abs_le] at h1 ⊢
    constructor <;> linarith [h1.1, h1.2]

/-- As the number of points grows the result converges to the occupation, up to the error of replacing infinity by `1e10`. -/
theorem C100_limit {ι : Type} [Fintype ι] {kB T : ℝ} (hk : 0 < kB) (hT : 0 < T) (mu : ℝ) (a e : ι → ℝ) (rho : ℕ → ℝ)
    (h : ∀ n, 0 < n → IntegrateGf kB (fun z => ∑ j, (a j : ℂ) / (z - (e j : ℂ))) mu T n (rho n)) :
    Filter.Tendsto rho Filter.atTop (nhds (∑ j, a j * (fermiOcc (1 / (kB * T)) (e j - mu) - 1 / 2 * (e j ^ 2 / (10 ^ 20 + e j ^ 2))))) := by
  have h1 : Filter.Tendsto (fun n : ℕ => ∑ j, a j * (1 / 2 * (10 ^ 20 / (10 ^ 20 + e j ^ 2)) -
      1 / 2 * ((e j - mu) / (2 * (kB * T)) * tanhFrac ((e j - mu) / (2 * (kB * T))) (2 * n) 0))) Filter.atTop
      (nhds (∑ j, a j * (1 / 2 * (10 ^ 20 / (10 ^ 20 + e j ^ 2)) - 1 / 2 * Real.tanh ((e j - mu) / (2 * (kB * T)))))) := by
    refine tendsto_finset_sum _ fun j _ => ?_
    refine Filter.Tendsto.const_mul _ (Filter.Tendsto.const_sub _ (Filter.Tendsto.const_mul _ ?_))
    set y := (e j - mu) / (2 * (kB * T))
    rw [tendsto_iff_norm_sub_tendsto_zero]
    refine squeeze_zero (fun n => norm_nonneg _) (fun n => ?_) (g := fun n : ℕ => |y| * ((∏ k ∈ Finset.range (2 * n), y ^ 2 / (2 * (k : ℝ) + 1) ^ 2) * (1 / (2 * ((2 * n : ℕ) : ℝ) + 1)))) ?_
    · exact tanhFrac_tanh y (2 * n)
    · have h2 : Filter.Tendsto (fun n : ℕ => 2 * n) Filter.atTop Filter.atTop := Filter.tendsto_id.const_mul_atTop' (by norm_num)
      have := ((tanhBound_tendsto y).comp h2).const_mul |y|
      rw [mul_zero] at this
      exact this
  have h2 : (∑ j, a j * (1 / 2 * (10 ^ 20 / (10 ^ 20 + e j ^ 2)) - 1 / 2 * Real.tanh ((e j - mu) / (2 * (kB * T))))) =
      ∑ j, a j * (fermiOcc (1 / (kB * T)) (e j - mu) - 1 / 2 * (e j ^ 2 / (10 ^ 20 + e j ^ 2))) := by
    refine Finset.sum_congr rfl fun j _ => ?_
    rw [fermiOcc_tanh, show 1 / (kB * T) * (e j - mu) / 2 = (e j - mu) / (2 * (kB * T)) by field_simp]
    have hd : (0 : ℝ) < 10 ^ 20 + e j ^ 2 := by positivity
    have e1 : (10 : ℝ) ^ 20 / (10 ^ 20 + e j ^ 2) = 1 - e j ^ 2 / (10 ^ 20 + e j ^ 2) := by field_simp; ring
    rw [e1]; ring
  rw [← h2]
  refine h1.congr' ?_
  filter_upwards [Filter.eventually_gt_atTop 0] with n hn
  exact (integrateGf_eq hk hT mu a e hn (h n hn)).symm

/-- For a normalised Green function with non-negative weights the result stays between 0 and 1, up to the error of replacing infinity by `1e10`. -/
theorem C100_bounds {ι : Type} [Fintype ι] {kB T : ℝ} (hk : 0 < kB) (hT : 0 < T) (mu : ℝ) (a e : ι → ℝ) (ha : ∀ j, 0 ≤ a j) (h1 : ∑ j, a j = 1) {nzp : ℕ} (hn : 0 < nzp) {rho : ℝ}
    (h : IntegrateGf kB (fun z => ∑ j, (a j : ℂ) / (z - (e j : ℂ))) mu T nzp rho) :
    -(∑ j, a j * (1 / 2 * (e j ^ 2 / (10 ^ 20 + e j ^ 2)))) ≤ rho ∧ rho ≤ 1 := by
  have key : ∀ y : ℝ, |y * tanhFrac y (2 * nzp) 0| ≤ 1 := by
    intro y
    rw [abs_mul, abs_of_nonneg (tanhFrac_nonneg _ _ _)]
    have h2 := mul_le_mul_of_nonneg_left (tanhFrac_even_le y nzp 0) (abs_nonneg y)
    have h3 : |y| * (Qf (0 + 1) y / Qf 0 y) = |Real.tanh y| := by
      rw [← tanh_eq, abs_mul, abs_of_nonneg (div_pos (Qf_pos _ _) (Qf_pos _ _)).le]
    rw [h3] at h2
    exact h2.trans (Real.abs_tanh_lt_one y).le
  rw [integrateGf_eq hk hT mu a e hn h]
  constructor
  · rw [← Finset.sum_neg_distrib]
    refine Finset.sum_le_sum fun j _ => ?_
    rw [← mul_neg]
    refine mul_le_mul_of_nonneg_left ?_ (ha j)
    have hd : (0 : ℝ) < 10 ^ 20 + e j ^ 2 := by positivity
    have e1 : (10 : ℝ) ^ 20 / (10 ^ 20 + e j ^ 2) = 1 - e j ^ 2 / (10 ^ 20 + e j ^ 2) := by field_simp; ring
    have := (abs_le.mp (key ((e j - mu) / (2 * (kB * T))))).2
    rw [e1]; linarith
  · refine le_trans (Finset.sum_le_sum fun j _ => ?_) h1.le
    conv_rhs => rw [← mul_one (a j)]
    refine mul_le_mul_of_nonneg_left ?_ (ha j)
    have hd : (0 : ℝ) < 10 ^ 20 + e j ^ 2 := by positivity
    have e1 : (10 : ℝ) ^ 20 / (10 ^ 20 + e j ^ 2) ≤ 1 := by rw [div_le_one hd]; nlinarith [sq_nonneg (e j)]
    have := (abs_le.mp (key ((e j - mu) / (2 * (kB * T))))).1
    linarith

/-- Non-vacuity: one level at 1 eV, room temperature, the default 100 points; a result exists and lies below 1. -/
example : ∃ rho, IntegrateGf (8617 / 10 ^ 8) (fun z => ∑ _j : Fin 1, ((1 : ℝ) : ℂ) / (z - ((1 : ℝ) : ℂ))) 0 300 100 rho ∧ rho ≤ 1 := by
  obtain ⟨⟨rho, h⟩, -⟩ := C100_integrate_gf (kB := 8617 / 10 ^ 8) (T := 300) (by norm_num) (by norm_num) 0 (fun _ : Fin 1 => 1) (fun _ => 1) (nzp := 100) (by norm_num)
  exact ⟨rho, h, (C100_bounds (by norm_num) (by norm_num) 0 (fun _ : Fin 1 => 1) (fun _ => 1) (by simp) (by simp) (by norm_num) h).2⟩

end
end Edpyt
