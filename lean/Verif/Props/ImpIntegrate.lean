import Verif.Model.ImpIntegrate
import Verif.Props.OccupationGf
/-!
Property C123: the occupation that an impurity object reports.
-/
namespace Edpyt
open Spec Matrix

theorem imp_call_gf (n : ℕ) (s : Imp) (gf : ℂ → ℂ) : s.call n gf = gf := by
  funext z
  unfold Imp.call Imp.sigma Imp.freeInv
  rw [show ∀ a b : ℂ, a - (a - b) = b from fun a b => by ring, inv_inv]

/-- **C123** (any Green function) Whatever the impurity and its temperature, `integrate(mu)` is twice the occupation of the levels of its Green function at 300 K and the chemical
potential `mu`, up to the error of 100 points. -/
theorem C123_integrate_partial {ι : Type} [Fintype ι] {kB : ℝ} (hk : 0 < kB) (n : ℕ) (s : Imp) {gf : ℂ → ℂ} (a e : ι → ℝ) (hgf : ∀ z : ℂ, z.im ≠ 0 → gf z = ∑ j, (a j : ℂ) / (z - (e j : ℂ))) (mu : ℝ) :
    (∃ rho, ImpIntegrate kB n s gf mu rho) ∧ ∀ rho, ImpIntegrate kB n s gf mu rho →
      |rho - 2 * ∑ j, a j * fermiOcc (1 / (kB * 300)) (e j - mu)| ≤
        2 * ∑ j, |a j| * (1 / 2 * (e j ^ 2 / (10 ^ 20 + e j ^ 2)) + 1 / 2 * (|(e j - mu) / (2 * (kB * 300))| *
          ((∏ k ∈ Finset.range (2 * 100), ((e j - mu) / (2 * (kB * 300))) ^ 2 / (2 * (k : ℝ) + 1) ^ 2) * (1 / (2 * ((2 * 100 : ℕ) : ℝ) + 1))))) := by
  obtain ⟨⟨r, hr⟩, h⟩ := C100_integrate_gf hk (by norm_num : (0 : ℝ) < 300) mu a e (by norm_num : 0 < 100)
  have hc : ∀ r, IntegrateGf kB (s.call n gf) mu 300 100 r ↔ IntegrateGf kB (fun z => ∑ j, (a j : ℂ) / (z - (e j : ℂ))) mu 300 100 r := fun r => by
    rw [imp_call_gf]
    exact integrateGf_congr hk (by norm_num) mu hgf
  refine ⟨⟨2 * r, r, (hc r).mpr hr, rfl⟩, ?_⟩
  rintro rho ⟨r, hr, rfl⟩
  rw [← mul_sub, abs_mul, abs_of_pos (by norm_num : (0 : ℝ) < 2)]
  exact mul_le_mul_of_nonneg_left (h r ((hc r).mp hr)) (by norm_num)

/-- **C123** (partial: 300 K) If the Green function of the object is the thermal one at 300 K, `integrate()` is the number of electrons of both spins on the impurity. -/
theorem C123_room_partial {n : ℕ} {es : Espace (ℕ × ℕ)} {H : Matrix (Finset (Fin (n + n))) (Finset (Fin (n + n))) ℝ} (hes : EigenEspace n H es) (spin : Bool) (k : Fin n) {kB : ℝ} (hk : 0 < kB)
    {W : ℝ} (hW : SpreadLe es W) (m : ℕ) (s : Imp) {gf : ℂ → ℂ} (hg : ∀ z : ℂ, z.im ≠ 0 → IsGreen (1 / (kB * 300)) H (ann ℝ (orb spin k)) (cre ℝ (orb spin k)) z (gf z)) :
    (∃ rho, ImpIntegrate kB m s gf 0 rho) ∧ ∀ rho, ImpIntegrate kB m s gf 0 rho → ‖(rho : ℂ) - 2 * thermalOcc (1 / (kB * 300)) H spin k‖ ≤ 2 * integrateErr kB 300 W 100 := by
  obtain ⟨⟨r, hr⟩, h⟩ := integrateGf_thermal hes spin k hk (by norm_num : (0 : ℝ) < 300) hW hg (by norm_num : 0 < 100)
  unfold ImpIntegrate
  rw [imp_call_gf]
  refine ⟨⟨_, r, hr, rfl⟩, ?_⟩
  rintro rho ⟨r, hr, rfl⟩
  have := h r hr
  push_cast
  rw [← mul_sub, norm_mul, Complex.norm_ofNat]
  linarith

/-- **C123** is false at other temperatures: an impurity with one level at `-0.01` eV is doubly occupied at `beta = 1e6`, but `integrate()` reports less than 1.5 electrons. -/
theorem C123_refuted {kB : ℝ} (h1 : 86 / 10 ^ 6 ≤ kB) (h2 : kB ≤ 87 / 10 ^ 6) (n : ℕ) (s : Imp) {gf : ℂ → ℂ} (hgf : ∀ z, gf z = 1 / (z + 1 / 100)) :
    (∃ rho, ImpIntegrate kB n s gf 0 rho) ∧ ∀ rho, ImpIntegrate kB n s gf 0 rho → rho ≤ 3 / 2 ∧ 19 / 10 ≤ 2 * fermiOcc (10 ^ 6) (-1 / 100) := by
  have hk : 0 < kB := lt_of_lt_of_le (by norm_num) h1
  obtain ⟨hex, h⟩ := C123_integrate_partial (ι := Fin 1) hk n s (gf := gf) (fun _ => 1) (fun _ => -1 / 100) (fun z _ => by rw [hgf]; simp; ring) 0
  refine ⟨hex, fun rho hr => ⟨?_, ?_⟩⟩
  · have h3 := (abs_le.mp (h rho hr)).2
    simp only [Finset.univ_unique, Finset.sum_singleton, one_mul, abs_one, sub_zero] at h3
    set y := (-1 / 100 : ℝ) / (2 * (kB * 300)) with hy
    have hy1 : |y| ≤ 1 / 5 := by
      rw [hy, abs_div, abs_of_pos (by positivity : 0 < 2 * (kB * 300)), div_le_iff₀ (by positivity)]
      norm_num
      linarith
    have hy2 : y ^ 2 ≤ 1 := by
      rw [← sq_abs]
      nlinarith [abs_nonneg y]
    have hp : ∏ k ∈ Finset.range (2 * 100), y ^ 2 / (2 * (k : ℝ) + 1) ^ 2 ≤ 1 := Finset.prod_le_one (fun k _ => by positivity) fun k _ => by
      rw [div_le_one (by positivity)]
      have : (0 : ℝ) ≤ k := Nat.cast_nonneg k
      nlinarith
    have hp0 : 0 ≤ ∏ k ∈ Finset.range (2 * 100), y ^ 2 / (2 * (k : ℝ) + 1) ^ 2 := Finset.prod_nonneg fun k _ => by positivity
    have h4 : |y| * ((∏ k ∈ Finset.range (2 * 100), y ^ 2 / (2 * (k : ℝ) + 1) ^ 2) * (1 / (2 * ((2 * 100 : ℕ) : ℝ) + 1))) ≤ 1 / 5 * (1 * (1 / 401)) := by
      have : (1 : ℝ) / (2 * ((2 * 100 : ℕ) : ℝ) + 1) = 1 / 401 := by norm_num
      rw [this]
      gcongr
    have h5 : fermiOcc (1 / (kB * 300)) (-1 / 100) ≤ 63 / 100 := by
      unfold fermiOcc
      have h6 := Real.add_one_le_exp (1 / (kB * 300) * (-1 / 100))
      have h7 : 1 / (kB * 300) ≤ 39 := by
        rw [div_le_iff₀ (by positivity)]
        linarith
      rw [div_le_div_iff₀ (by positivity) (by norm_num)]
      linarith
    have h8 : (1 : ℝ) / 2 * ((-1 / 100) ^ 2 / (10 ^ 20 + (-1 / 100) ^ 2)) ≤ 1 / 100 := by norm_num
    generalize |y| * ((∏ k ∈ Finset.range (2 * 100), y ^ 2 / (2 * (k : ℝ) + 1) ^ 2) * (1 / (2 * ((2 * 100 : ℕ) : ℝ) + 1))) = X at h3 h4
    generalize (1 : ℝ) / 2 * ((-1 / 100) ^ 2 / (10 ^ 20 + (-1 / 100) ^ 2)) = Y at h3 h8
    linarith
  · unfold fermiOcc
    have : Real.exp (10 ^ 6 * (-1 / 100)) ≤ 1 / 100 := by
      rw [show (10 : ℝ) ^ 6 * (-1 / 100) = -10000 by norm_num, Real.exp_neg, ← one_div]
      refine div_le_div_of_nonneg_left (by norm_num) (by norm_num) ?_
      linarith [Real.add_one_le_exp (10000 : ℝ)]
    rw [← mul_div_assoc, mul_one, div_le_div_iff₀ (by norm_num) (by positivity)]
    linarith

theorem spinIntegrate_some {kB : ℝ} {n : ℕ} {s : Bool → Imp} {gf : Bool → ℂ → ℂ} {mu : ℝ} {r : Except PyErr ℝ} : SpinImpIntegrate kB n s gf (some mu) r ↔
    ∃ a b, IntegrateGf kB ((s false).call n (gf false)) mu 300 100 a ∧ IntegrateGf kB ((s true).call n (gf true)) mu 300 100 b ∧ r = .ok (0 + a + b) := by
  unfold SpinImpIntegrate IntegrateGfAny
  simp only [reduceCtorEq, and_false, exists_false, false_and, false_or, Except.ok.injEq, List.cons.injEq, and_true]
  constructor
  · rintro ⟨a, ⟨_, h1, rfl⟩, b, ⟨_, h2, rfl⟩, rfl⟩
    exact ⟨_, _, h1, h2, rfl⟩
  · rintro ⟨a, b, h1, h2, rfl⟩
    exact ⟨a, ⟨a, h1, rfl⟩, b, ⟨b, h2, rfl⟩, rfl⟩

/-- **C123** is false of the spin-dependent object with its default argument: `SpinGfimp.integrate()` always raises. -/
theorem C123_refuted_spin_default (kB : ℝ) (n : ℕ) (s : Bool → Imp) (gf : Bool → ℂ → ℂ) : (∃ r, SpinImpIntegrate kB n s gf none r) ∧
    ∀ r, SpinImpIntegrate kB n s gf none r → r = .error .attributeError := by
  unfold SpinImpIntegrate IntegrateGfAny
  simp

/-- **C123** for the spin-dependent object: with an explicit `mu` the two occupations are added. -/
theorem C123_spin_partial {ι : Type} [Fintype ι] {kB : ℝ} (hk : 0 < kB) (n : ℕ) (s : Bool → Imp) {gf : Bool → ℂ → ℂ} (a e : Bool → ι → ℝ)
    (hgf : ∀ b, ∀ z : ℂ, z.im ≠ 0 → gf b z = ∑ j, (a b j : ℂ) / (z - (e b j : ℂ))) (mu : ℝ) :
    (∃ r, SpinImpIntegrate kB n s gf (some mu) r) ∧ ∀ r, SpinImpIntegrate kB n s gf (some mu) r → ∃ rho, r = .ok rho ∧
      |rho - ∑ b, ∑ j, a b j * fermiOcc (1 / (kB * 300)) (e b j - mu)| ≤
        ∑ b, ∑ j, |a b j| * (1 / 2 * (e b j ^ 2 / (10 ^ 20 + e b j ^ 2)) + 1 / 2 * (|(e b j - mu) / (2 * (kB * 300))| *
          ((∏ k ∈ Finset.range (2 * 100), ((e b j - mu) / (2 * (kB * 300))) ^ 2 / (2 * (k : ℝ) + 1) ^ 2) * (1 / (2 * ((2 * 100 : ℕ) : ℝ) + 1))))) := by
  have h := fun b => C100_integrate_gf hk (by norm_num : (0 : ℝ) < 300) mu (a b) (e b) (by norm_num : 0 < 100)
  have hc : ∀ b r, IntegrateGf kB ((s b).call n (gf b)) mu 300 100 r ↔ IntegrateGf kB (fun z => ∑ j, (a b j : ℂ) / (z - (e b j : ℂ))) mu 300 100 r := fun b r => by
    rw [imp_call_gf]
    exact integrateGf_congr hk (by norm_num) mu (hgf b)
  obtain ⟨x, hx⟩ := (h false).1
  obtain ⟨y, hy⟩ := (h true).1
  refine ⟨⟨_, spinIntegrate_some.mpr ⟨x, y, (hc _ _).mpr hx, (hc _ _).mpr hy, rfl⟩⟩, ?_⟩
  intro r hr
  obtain ⟨x, y, hx, hy, rfl⟩ := spinIntegrate_some.mp hr
  refine ⟨_, rfl, ?_⟩
  have h1 := (h false).2 x ((hc _ _).mp hx)
  have h2 := (h true).2 y ((hc _ _).mp hy)
  rw [Fintype.sum_bool, Fintype.sum_bool]
  refine le_trans ?_ (add_le_add h2 h1)
  refine le_trans (le_of_eq ?_) (abs_add_le _ _)
  congr 1
  ring

/-! ### Several chemical potentials at once -/

/-- **C124** (partial: one chemical potential) An array with one element gives the same as the number. -/
theorem C124_single_partial (kB : ℝ) (gf : ℂ → ℂ) (mu T : ℝ) {nzp : ℕ} (hn : 0 < nzp) (r : Except PyErr (List ℝ)) :
    IntegrateGfAny kB gf (.array [mu]) T nzp r ↔ IntegrateGfAny kB gf (.scalar mu) T nzp r := by
  have hfold : ∀ (L : List ℕ) (s : ℂ) (F G : ℕ → ℂ), (∀ i ∈ L, F i = G i) → L.foldl (fun s i => s + F i) s = L.foldl (fun s i => s + G i) s := by
    intro L
    induction L with
    | nil => intros; rfl
    | cons i L ih =>
      intro s F G h
      rw [List.foldl_cons, List.foldl_cons, h i (by simp)]
      exact ih _ _ _ fun j hj => h j (by simp [hj])
  have key : ∀ zp Rp, ZeroFermi nzp zp Rp → ∀ i ∈ List.range nzp,
      gf (((([mu] : List ℝ)[0]?.getD 0 : ℝ) : ℂ) + Complex.I * ((zp[(i * 1 + 0) % nzp]?.getD 0 : ℝ) : ℂ) / ((1 / (kB * T) : ℝ) : ℂ)) * ((Rp[i]?.getD 0 : ℝ) : ℂ) =
      gf ((zp.map fun z : ℝ => (mu : ℂ) + Complex.I * (z : ℂ) / ((1 / (kB * T) : ℝ) : ℂ))[i]?.getD 0) * ((Rp[i]?.getD 0 : ℝ) : ℂ) := by
    intro zp Rp hz i hi
    have hi' := List.mem_range.mp hi
    have hl : i < zp.length := by
      obtain ⟨w, V, -, rfl, -⟩ := hz
      simpa using hi'
    simp [Nat.mod_eq_of_lt hi', List.getElem?_eq_getElem hl]
  constructor
  · rintro ⟨zp, Rp, hz, rfl⟩
    refine ⟨_, ⟨zp, Rp, hz, rfl⟩, ?_⟩
    simp only [List.length_singleton, List.range_one, List.map_cons, List.map_nil]
    rw [hfold _ 0 _ _ (key zp Rp hz)]
  · rintro ⟨rho, ⟨zp, Rp, hz, rfl⟩, rfl⟩
    refine ⟨zp, Rp, hz, ?_⟩
    simp only [List.length_singleton, List.range_one, List.map_cons, List.map_nil]
    rw [hfold _ 0 _ _ (key zp Rp hz)]

theorem oz_zero {M : ℕ} {w : ℝ} {u : Fin M → ℝ} (h : ozA M *ᵥ u = w • (ozB M *ᵥ u)) (h0 : ∀ hM : 0 < M, u ⟨0, hM⟩ = 0) : u = 0 := by
  have key : ∀ r, (hr : r < M) → u ⟨r, hr⟩ = 0 := by
    intro r
    induction r using Nat.strong_induction_on with
    | _ r ih =>
      intro hr
      rcases r with _ | r
      · exact h0 hr
      · have h1 := congrFun h ⟨r, by omega⟩
        have hB : (w • (ozB M *ᵥ u)) ⟨r, by omega⟩ = 0 := by
          rw [Pi.smul_apply, ozB, Matrix.mulVec_diagonal, ih r (by omega) (by omega), mul_zero, smul_zero]
        rw [hB] at h1
        simp only [Matrix.mulVec, dotProduct] at h1
        rw [Finset.sum_eq_single ⟨r + 1, hr⟩] at h1
        · simp [ozA] at h1
          exact h1
        · intro c _ hc
          by_cases hlt : (c : ℕ) < r + 1
          · rw [show u c = 0 from ih c hlt c.2, mul_zero]
          · have : ¬ ((c : ℕ) = r + 1 ∨ r = (c : ℕ) + 1) := by
              have : (c : ℕ) ≠ r + 1 := fun h => hc (Fin.ext h)
              omega
            simp only [ozA, Matrix.of_apply]
            rw [if_neg this, zero_mul]
        · exact fun h => absurd (Finset.mem_univ _) h
  exact funext fun i => key i i.2

theorem GenEigh.col {M : ℕ} {w : Fin M → ℝ} {V : Matrix (Fin M) (Fin M) ℝ} (h : GenEigh (ozA M) (ozB M) w V) (i : Fin M) :
    ozA M *ᵥ (fun r => V r i) = w i • (ozB M *ᵥ fun r => V r i) := by
  funext r
  have := congrFun (congrFun h.eig r) i
  rw [Matrix.mul_diagonal] at this
  rw [Pi.smul_apply, smul_eq_mul, mul_comm]
  exact this

theorem GenEigh.first {M : ℕ} {w : Fin M → ℝ} {V : Matrix (Fin M) (Fin M) ℝ} (h : GenEigh (ozA M) (ozB M) w V) (hM : 0 < M) (i : Fin M) : V ⟨0, hM⟩ i ≠ 0 := by
  intro h0
  have hz := oz_zero (h.col i) fun _ => h0
  have h1 := congrFun (congrFun h.orth i) i
  rw [Matrix.one_apply_eq, Matrix.mul_assoc, Matrix.mul_apply] at h1
  have : ∀ r, V r i = 0 := fun r => congrFun hz r
  simp [this] at h1

theorem GenEigh.simple {M : ℕ} {w : Fin M → ℝ} {V : Matrix (Fin M) (Fin M) ℝ} (h : GenEigh (ozA M) (ozB M) w V) {i j : Fin M} (hij : i ≠ j) : w i ≠ w j := by
  intro hw
  have hM : 0 < M := lt_of_le_of_lt (Nat.zero_le _) i.2
  have hz := oz_zero (u := V ⟨0, hM⟩ j • (fun r => V r i) - V ⟨0, hM⟩ i • (fun r => V r j)) (w := w i) (by
    rw [Matrix.mulVec_sub, Matrix.mulVec_sub, Matrix.mulVec_smul, Matrix.mulVec_smul, Matrix.mulVec_smul, Matrix.mulVec_smul, h.col i, h.col j, ← hw, smul_sub, smul_comm (w i), smul_comm (w i)])
    fun _ => by simp only [Pi.sub_apply, Pi.smul_apply, smul_eq_mul]; ring
  have hVT : ∀ a b, ∑ r, V r a * (ozB M *ᵥ fun r => V r b) r = if a = b then 1 else 0 := fun a b => by
    have := congrFun (congrFun h.orth a) b
    rw [Matrix.one_apply, Matrix.mul_assoc, Matrix.mul_apply] at this
    exact this
  have hpt : ∀ r, V ⟨0, hM⟩ j * V r i = V ⟨0, hM⟩ i * V r j := fun r => by
    have := congrFun hz r
    simp only [Pi.sub_apply, Pi.smul_apply, smul_eq_mul, Pi.zero_apply] at this
    linarith
  have h1 : V ⟨0, hM⟩ j * ∑ r, V r i * (ozB M *ᵥ fun r => V r i) r = V ⟨0, hM⟩ i * ∑ r, V r j * (ozB M *ᵥ fun r => V r i) r := by
    rw [Finset.mul_sum, Finset.mul_sum]
    exact Finset.sum_congr rfl fun r _ => by rw [← mul_assoc, hpt, mul_assoc]
  rw [hVT, hVT, if_pos rfl, if_neg (Ne.symm hij), mul_one, mul_zero] at h1
  exact h.first hM j h1

theorem pole_im {β d z : ℝ} (R : ℝ) (hβ : 0 < β) (hd : d ≠ 0) : ((1 / ((d : ℂ) + Complex.I * (z : ℂ) / (β : ℂ))) * (R : ℂ) * (-Complex.I * 4 / (β : ℂ))).im = -(4 * R / β) * (d / (d ^ 2 + (z / β) ^ 2)) := by
  have hs : 0 < d ^ 2 + (z / β) ^ 2 := by positivity
  have hsc : ((d : ℂ) ^ 2 + ((z : ℂ) / (β : ℂ)) ^ 2) ≠ 0 := by
    have := hs.ne'
    exact_mod_cast this
  have hden : (d : ℂ) + Complex.I * (z : ℂ) / (β : ℂ) ≠ 0 := by
    intro h0
    have := congrArg Complex.re h0
    simp [Complex.div_ofReal_re] at this
    exact hd this
  have key : (1 / ((d : ℂ) + Complex.I * (z : ℂ) / (β : ℂ))) * (R : ℂ) * (-Complex.I * 4 / (β : ℂ)) =
      ((4 * R / β / (d ^ 2 + (z / β) ^ 2) : ℝ) : ℂ) * (((-(z / β) : ℝ) : ℂ) - Complex.I * ((d : ℝ) : ℂ)) := by
    rw [mul_assoc, one_div, inv_mul_eq_iff_eq_mul₀ hden]
    push_cast
    have hbc : (β : ℂ) ≠ 0 := by exact_mod_cast hβ.ne'
    rw [div_mul_eq_mul_div (4 * (R : ℂ) / β), mul_div_assoc' ((d : ℂ) + _), eq_div_iff hsc]
    linear_combination (4 * (R : ℂ) / β * (z / β) * d) * Complex.I_sq
  rw [key, Complex.im_ofReal_mul]
  simp
  ring

/-- **C124** is false of the code for more than one chemical potential: with two points (`nzp=2`), two chemical potentials and one level that is not at the first of them, the first number of the
result is never the one obtained for that chemical potential alone. -/
theorem C124_refuted {kB T : ℝ} (hk : 0 < kB) (hT : 0 < T) {mu e : ℝ} (hne : mu ≠ e) (mu' : ℝ) {L : List ℝ} {rho : ℝ}
    (hL : IntegrateGfAny kB (fun z => 1 / (z - (e : ℂ))) (.array [mu, mu']) T 2 (.ok L)) (hrho : IntegrateGfAny kB (fun z => 1 / (z - (e : ℂ))) (.scalar mu) T 2 (.ok [rho])) :
    L[0]? ≠ some rho := by
  obtain ⟨zp, Rp, ⟨w, V, hE, rfl, rfl⟩, hL⟩ := hL
  have hrho : IntegrateGf kB (fun z => 1 / (z - (e : ℂ))) mu T 2 rho := by
    obtain ⟨r, h, h'⟩ := hrho
    simp only [Except.ok.injEq, List.cons.injEq, and_true] at h'
    exact h' ▸ h
  rw [reshape_A, reshape_B] at hE
  -- the scalar result does not depend on the choice of the eigenvectors
  have huniq : ∀ r, IntegrateGf kB (fun z => 1 / (z - (e : ℂ))) mu T 2 r → rho = r := by
    have hg : (fun z : ℂ => 1 / (z - (e : ℂ))) = fun z => ∑ j : Fin 1, (((fun _ => 1 : Fin 1 → ℝ) j : ℝ) : ℂ) / (z - (((fun _ => e : Fin 1 → ℝ) j : ℝ) : ℂ)) := by
      funext z
      simp
    intro r hr
    rw [hg] at hrho hr
    rw [integrateGf_eq hk hT mu _ _ (by norm_num) hrho, integrateGf_eq hk hT mu _ _ (by norm_num) hr]
  have hself' := huniq _ ⟨_, _, ⟨w, V, by rw [reshape_A, reshape_B]; exact hE, rfl, rfl⟩, rfl⟩
  have hβ : 0 < 1 / (kB * T) := by positivity
  set β := 1 / (kB * T) with hβd
  obtain ⟨p1, p2⟩ := zfPoles_eq w V (i := 0) (by norm_num)
  obtain ⟨q1, q2⟩ := zfPoles_eq w V (i := 1) (by norm_num)
  have hw0 : w ⟨0, by norm_num⟩ < 0 := (hE.neg_iff _).mpr (by norm_num)
  have hw1 : w ⟨1, by norm_num⟩ < 0 := (hE.neg_iff _).mpr (by norm_num)
  have hw01 : w ⟨0, by norm_num⟩ ≠ w ⟨1, by norm_num⟩ := hE.simple (by simp)
  have hV := hE.first (by norm_num) ⟨1, by norm_num⟩
  rw [Except.ok.injEq] at hL
  subst hL
  intro hcon
  have h1 : (List.range ([mu, mu'] : List ℝ).length) = [0, 1] := rfl
  rw [h1, List.map_cons, List.getElem?_cons_zero, Option.some.injEq, hself'] at hcon
  have h2 : List.range 2 = [0, 1] := rfl
  simp only [h2, List.map_cons, List.map_nil, List.foldl_cons, List.foldl_nil, List.length_cons, List.length_nil, List.getElem?_cons_zero, List.getElem?_cons_succ, Option.getD_some,
    Nat.reduceAdd, Nat.reduceMul, Nat.reduceMod, Nat.add_zero, zero_add, Nat.zero_mul] at hcon
  have hd : mu - e ≠ 0 := sub_ne_zero.mpr hne
  have hsh : ∀ z : ℝ, (mu : ℂ) + Complex.I * (z : ℂ) / (β : ℂ) - (e : ℂ) = ((mu - e : ℝ) : ℂ) + Complex.I * (z : ℂ) / (β : ℂ) := fun z => by push_cast; ring
  simp only [hsh, add_mul, Complex.add_im, pole_im _ hβ hd] at hcon
  simp only [zero_add, Nat.reduceAdd] at p1 q1 q2
  rw [q2, p1, q1] at hcon
  have hR : 4 * -(V ⟨0, by norm_num⟩ ⟨1, by norm_num⟩ ^ 2 * (1 / w ⟨1, by norm_num⟩) ^ 2 / 4) / β ≠ 0 := by
    have := hw1.ne
    have := hβ.ne'
    have hne : V ⟨0, by norm_num⟩ ⟨1, by norm_num⟩ ^ 2 * (1 / w ⟨1, by norm_num⟩) ^ 2 ≠ 0 := by positivity
    refine div_ne_zero ?_ hβ.ne'
    intro h0
    exact hne (by linarith)
  have hdd : (mu - e) / ((mu - e) ^ 2 + (-(1 / w ⟨0, by norm_num⟩) / β) ^ 2) = (mu - e) / ((mu - e) ^ 2 + (-(1 / w ⟨1, by norm_num⟩) / β) ^ 2) := by
    refine mul_left_cancel₀ (neg_ne_zero.mpr hR) ?_
    linarith
  have hs : ∀ z : ℝ, 0 < (mu - e) ^ 2 + z ^ 2 := fun z => by positivity
  rw [div_eq_div_iff (hs _).ne' (hs _).ne'] at hdd
  have hsq := mul_left_cancel₀ hd hdd
  have hpos : ∀ x : ℝ, x < 0 → 0 ≤ -(1 / x) / β := fun x hx => div_nonneg (neg_nonneg.mpr (one_div_nonpos.mpr hx.le)) hβ.le
  have hz := (pow_left_inj₀ (hpos _ hw1) (hpos _ hw0) two_ne_zero).mp (by linarith)
  rw [div_left_inj' hβ.ne', neg_inj, one_div, one_div] at hz
  exact hw01 (inv_injective hz.symm)

/-- Both calls of `C124_refuted` return. -/
example (kB T mu mu' e : ℝ) : (∃ L, IntegrateGfAny kB (fun z => 1 / (z - (e : ℂ))) (.array [mu, mu']) T 2 (.ok L)) ∧
    ∃ rho, IntegrateGfAny kB (fun z => 1 / (z - (e : ℂ))) (.scalar mu) T 2 (.ok [rho]) := by
  obtain ⟨w, V, hE⟩ := genEigh_exists (2 * 2)
  exact ⟨⟨_, _, _, ⟨w, V, by rw [reshape_A, reshape_B]; exact hE, rfl, rfl⟩, rfl⟩, ⟨_, _, ⟨_, _, ⟨w, V, by rw [reshape_A, reshape_B]; exact hE, rfl, rfl⟩, rfl⟩, rfl⟩⟩

end Edpyt
