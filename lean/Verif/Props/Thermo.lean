import Verif.Props.FreeSpectrum
import Mathlib.Analysis.SpecialFunctions.Log.Deriv
import Mathlib.Analysis.SpecialFunctions.ExpDeriv
import Mathlib.Analysis.SpecialFunctions.Exp
/-!
C159: the entropy from `get_entropy` as a function of the temperature.
-/
namespace Edpyt
open Spec Filter Topology

/-! ## Sums over a list of energies -/

theorem list_gibbs (l : List ℝ) (β₁ β₂ m : ℝ) :
    Real.exp ((β₂ - β₁) * m) * ((l.map fun e => Real.exp (-(β₂ * e))).sum + (β₂ - β₁) * ((l.map fun e => e * Real.exp (-(β₂ * e))).sum - m * (l.map fun e => Real.exp (-(β₂ * e))).sum)) ≤
      (l.map fun e => Real.exp (-(β₁ * e))).sum := by
  induction l with
  | nil => simp
  | cons e l ih =>
    simp only [List.map_cons, List.sum_cons]
    have h1 : Real.exp ((β₂ - β₁) * m) * Real.exp (-(β₂ * e)) * (1 + (β₂ - β₁) * (e - m)) ≤ Real.exp (-(β₁ * e)) := by
      have h2 := Real.add_one_le_exp ((β₂ - β₁) * (e - m))
      have h3 : Real.exp (-(β₁ * e)) = Real.exp ((β₂ - β₁) * m) * Real.exp (-(β₂ * e)) * Real.exp ((β₂ - β₁) * (e - m)) := by
        rw [← Real.exp_add, ← Real.exp_add]; congr 1; ring
      rw [h3]
      exact mul_le_mul_of_nonneg_left (by linarith) (by positivity)
    linarith

/-- The mean energy. -/
noncomputable def meanE (β : ℝ) (l : List ℝ) : ℝ := (l.map fun e => e * Real.exp (-(β * e))).sum / (l.map fun e => Real.exp (-(β * e))).sum

theorem log_gibbs {l : List ℝ} (hl : l ≠ []) (β₁ β₂ : ℝ) :
    Real.log (l.map fun e => Real.exp (-(β₂ * e))).sum + (β₂ - β₁) * meanE β₂ l ≤ Real.log (l.map fun e => Real.exp (-(β₁ * e))).sum := by
  have hZ := sum_map_pos hl (fun e => Real.exp (-(β₂ * e))) (fun _ => Real.exp_pos _)
  have h := list_gibbs l β₁ β₂ (meanE β₂ l)
  have e : (l.map fun e => e * Real.exp (-(β₂ * e))).sum - meanE β₂ l * (l.map fun e => Real.exp (-(β₂ * e))).sum = 0 := by
    unfold meanE; rw [div_mul_cancel₀ _ hZ.ne', sub_self]
  rw [e, mul_zero, add_zero] at h
  have := Real.log_le_log (by positivity) h
  rw [Real.log_mul (Real.exp_pos _).ne' hZ.ne', Real.log_exp] at this
  linarith

/-- Energy and entropy fall with the temperature. -/
theorem cooling {l : List ℝ} (hl : l ≠ []) {β₁ β₂ : ℝ} (h0 : 0 ≤ β₁) (h12 : β₁ ≤ β₂) : meanE β₂ l ≤ meanE β₁ l ∧ shannon (boltzmann β₂ l) ≤ shannon (boltzmann β₁ l) := by
  have h1 := log_gibbs hl β₁ β₂
  have h2 := log_gibbs hl β₂ β₁
  rw [shannon_boltzmann β₁ hl, shannon_boltzmann β₂ hl]
  have hE : meanE β₂ l ≤ meanE β₁ l := by
    rcases eq_or_lt_of_le h12 with rfl | hlt
    · exact le_rfl
    · have : (β₂ - β₁) * (meanE β₂ l - meanE β₁ l) ≤ 0 := by linarith
      by_contra hcon
      have : 0 < (β₂ - β₁) * (meanE β₂ l - meanE β₁ l) := mul_pos (by linarith) (by linarith)
      linarith
  refine ⟨hE, ?_⟩
  change Real.log _ + β₂ * meanE β₂ l ≤ Real.log _ + β₁ * meanE β₁ l
  nlinarith [mul_nonneg h0 (sub_nonneg.mpr hE)]

theorem boltzmann_shift (β c : ℝ) (l : List ℝ) : boltzmann β (l.map (· - c)) = boltzmann β l := by
  unfold boltzmann
  rw [List.map_map, List.map_map]
  have h : ∀ e, Real.exp (-(β * (e - c))) = Real.exp (β * c) * Real.exp (-(β * e)) := fun e => by rw [← Real.exp_add]; congr 1; ring
  have hs : (l.map ((fun e => Real.exp (-(β * e))) ∘ fun e => e - c)).sum = Real.exp (β * c) * (l.map fun e => Real.exp (-(β * e))).sum := by
    rw [← List.sum_map_mul_left]
    congr 1
    exact List.map_congr_left fun e _ => h e
  rw [hs]
  refine List.map_congr_left fun e _ => ?_
  simp only [Function.comp, h]
  rw [mul_div_mul_left _ _ (Real.exp_pos _).ne']

theorem tendsto_list_sum {f : Filter ℝ} {F : ℝ → ℝ → ℝ} {L : ℝ → ℝ} : ∀ {l : List ℝ}, (∀ e ∈ l, Tendsto (fun β => F β e) f (𝓝 (L e))) → Tendsto (fun β => (l.map (F β)).sum) f (𝓝 (l.map L).sum)
  | [], _ => by simpa using tendsto_const_nhds
  | e :: l, h => by
    simp only [List.map_cons, List.sum_cons]
    exact (h e (by simp)).add (tendsto_list_sum fun e he => h e (by simp [he]))

theorem sum_count (l : List ℝ) (x : ℝ) : (l.map fun e => if e = x then (1 : ℝ) else 0).sum = l.count x := by
  have := sum_indicator (l : Multiset ℝ) x
  simpa using this

/-- Zero temperature: the logarithm of the degeneracy of the ground state. -/
theorem entropy_cold {l : List ℝ} {c : ℝ} (hc : c ∈ l) (hmin : ∀ e ∈ l, c ≤ e) : Tendsto (fun β => shannon (boltzmann β l)) atTop (𝓝 (Real.log (l.count c))) := by
  have hl : l.map (· - c) ≠ [] := by
    intro h
    rw [List.map_eq_nil_iff] at h
    simp [h] at hc
  have e : ∀ β, shannon (boltzmann β l) = Real.log (l.map fun e => Real.exp (-(β * (e - c)))).sum +
      (l.map fun e => β * ((e - c) * Real.exp (-(β * (e - c))))).sum / (l.map fun e => Real.exp (-(β * (e - c)))).sum := by
    intro β
    rw [← boltzmann_shift β c, shannon_boltzmann β hl, List.map_map, List.map_map, ← mul_div_assoc, ← List.sum_map_mul_left]
    rfl
  have hZ : Tendsto (fun β => (l.map fun e => Real.exp (-(β * (e - c)))).sum) atTop (𝓝 (l.count c)) := by
    rw [← sum_count]
    refine tendsto_list_sum (F := fun β e => Real.exp (-(β * (e - c)))) fun e he => ?_
    split
    · rename_i h; simp [h, tendsto_const_nhds]
    · rename_i h
      have hpos : 0 < e - c := sub_pos.mpr (lt_of_le_of_ne (hmin e he) (Ne.symm h))
      exact Real.tendsto_exp_neg_atTop_nhds_zero.comp (tendsto_id.atTop_mul_const hpos)
  have hE : Tendsto (fun β => (l.map fun e => β * ((e - c) * Real.exp (-(β * (e - c))))).sum) atTop (𝓝 0) := by
    have h0 : (l.map fun _ => (0 : ℝ)).sum = 0 := by simp
    rw [← h0]
    refine tendsto_list_sum (F := fun β e => β * ((e - c) * Real.exp (-(β * (e - c))))) fun e he => ?_
    rcases eq_or_lt_of_le (hmin e he) with h | h
    · simp [h]
    · have hpos : 0 < e - c := sub_pos.mpr h
      have h1 := (Real.tendsto_pow_mul_exp_neg_atTop_nhds_zero 1).comp (tendsto_id.atTop_mul_const hpos)
      refine h1.congr fun β => ?_
      simp only [Function.comp, id, pow_one]
      ring
  have hcount : (0 : ℝ) < l.count c := by exact_mod_cast List.count_pos_iff.mpr hc
  have := (hZ.log hcount.ne').add (hE.div hZ hcount.ne')
  rw [zero_div, add_zero] at this
  exact this.congr fun β => (e β).symm

/-- Infinite temperature: the logarithm of the number of states. -/
theorem entropy_hot {l : List ℝ} (hl : l ≠ []) : Tendsto (fun β => shannon (boltzmann β l)) (𝓝 0) (𝓝 (Real.log l.length)) := by
  have hlen : (0 : ℝ) < l.length := by exact_mod_cast List.length_pos_iff.mpr hl
  have hZ : Tendsto (fun β => (l.map fun e => Real.exp (-(β * e))).sum) (𝓝 0) (𝓝 l.length) := by
    have h0 : (l.map fun _ => (1 : ℝ)).sum = l.length := by simp
    rw [← h0]
    refine tendsto_list_sum (F := fun β e => Real.exp (-(β * e))) fun e _ => ?_
    have : Continuous fun β : ℝ => Real.exp (-(β * e)) := by fun_prop
    simpa using this.tendsto 0
  have hE : Tendsto (fun β => (l.map fun e => e * Real.exp (-(β * e))).sum) (𝓝 0) (𝓝 (l.map fun e => e).sum) := by
    refine tendsto_list_sum (F := fun β e => e * Real.exp (-(β * e))) fun e _ => ?_
    have : Continuous fun β : ℝ => e * Real.exp (-(β * e)) := by fun_prop
    simpa using this.tendsto 0
  have := (hZ.log hlen.ne').add (tendsto_id.mul (hE.div hZ hlen.ne'))
  rw [zero_mul, add_zero] at this
  exact this.congr fun β => (shannon_boltzmann β hl).symm

theorem levelEntropy_pair (β e : ℝ) : levelEntropy (fermiOcc β e) = shannon (boltzmann β [0, e]) := by
  rw [shannon_boltzmann β (by simp), levelEntropy_eq]
  simp

theorem level_cold (e : ℝ) : Tendsto (fun β => levelEntropy (fermiOcc β e)) atTop (𝓝 (if e = 0 then Real.log 2 else 0)) := by
  simp only [levelEntropy_pair]
  by_cases h : e = 0
  · have := entropy_cold (l := [0, e]) (c := 0) (by simp) (by simp [h])
    subst h
    simpa using this
  · rw [if_neg h]
    rcases lt_or_gt_of_ne h with h' | h'
    · have := entropy_cold (l := [0, e]) (c := e) (by simp) (by simp [h'.le])
      simpa [List.count_cons, Ne.symm h] using this
    · have := entropy_cold (l := [0, e]) (c := 0) (by simp) (by simp [h'.le])
      simpa [List.count_cons, h] using this

theorem level_hot (e : ℝ) : Tendsto (fun β => levelEntropy (fermiOcc β e)) (𝓝 0) (𝓝 (Real.log 2)) := by
  simp only [levelEntropy_pair]
  simpa using entropy_hot (l := [0, e]) (by simp)

/-! ## C159 -/

/-- **C159** `_get_entropy_params` and `_calc_entropy`, for any list of energies: with falling temperature neither the mean energy nor the entropy rises. -/
theorem C159_cooling {α : Type} (es : Espace α) (hl : (es.flatMap fun p => p.2.eigvals) ≠ []) {kB β₁ β₂ : ℝ} (egs : ℝ) (hk : 0 < kB) (h0 : 0 < β₁) (h12 : β₁ ≤ β₂) :
    ∃ E₁ Z₁ E₂ Z₂, entropyParams es egs β₁ = .ok (E₁, Z₁) ∧ entropyParams es egs β₂ = .ok (E₂, Z₂) ∧ E₂ ≤ E₁ ∧
      calcEntropy kB Z₂ E₂ (1 / (kB * β₂)) ≤ calcEntropy kB Z₁ E₁ (1 / (kB * β₁)) := by
  obtain ⟨p₁, h1, h2⟩ := C64_entropy kB β₁ egs (mul_pos hk h0).ne' es hl
  obtain ⟨p₂, h3, h4⟩ := C64_entropy kB β₂ egs (mul_pos hk (lt_of_lt_of_le h0 h12)).ne' es hl
  refine ⟨p₁.1, p₁.2, p₂.1, p₂.2, h1, h3, ?_, ?_⟩
  · have hes : es ≠ [] := by rintro rfl; exact hl rfl
    have hl' : (es.flatMap fun p => p.2.eigvals).map (· - egs) ≠ [] := by rwa [Ne, List.map_eq_nil_iff]
    have key : ∀ β p, entropyParams es egs β = .ok p → p.1 = meanE β ((es.flatMap fun p => p.2.eigvals).map (· - egs)) := by
      intro β p hp
      rw [entropyParams, if_neg hes, entropy_loop] at hp
      rw [← Except.ok.inj hp]
      simp [meanE, List.map_map, Function.comp_def]
    rw [key _ _ h1, key _ _ h3]
    exact (cooling hl' h0.le h12).1
  · rw [h2, h4]
    exact mul_le_mul_of_nonneg_left (cooling hl h0.le h12).2 hk.le

/-- **C159** The entropy is minus the derivative of the free energy `egs - kB T ln Z` with respect to the temperature. -/
theorem C159_free_energy {α : Type} (es : Espace α) (hl : (es.flatMap fun p => p.2.eigvals) ≠ []) {kB egs : ℝ} (hk : 0 < kB) {E Z : ℝ → ℝ}
    (h : ∀ T, 0 < T → entropyParams es egs (1 / (kB * T)) = .ok (E T, Z T)) {T : ℝ} (hT : 0 < T) :
    HasDerivAt (fun T => egs - kB * T * Real.log (Z T)) (-calcEntropy kB (Z T) (E T) T) T := by
  have hes : es ≠ [] := by rintro rfl; exact hl rfl
  obtain ⟨l, hld⟩ : ∃ l, l = (es.flatMap fun p => p.2.eigvals) := ⟨_, rfl⟩
  have hval : ∀ T, 0 < T → Z T = (l.map fun e => Real.exp (-(1 / (kB * T) * (e - egs)))).sum ∧
      E T = (l.map fun e => (e - egs) * Real.exp (-(1 / (kB * T) * (e - egs)))).sum / (l.map fun e => Real.exp (-(1 / (kB * T) * (e - egs)))).sum := by
    intro T hT
    have := h T hT
    rw [entropyParams, if_neg hes, entropy_loop, ← hld] at this
    have := Prod.mk.inj (Except.ok.inj this)
    simp only [zero_add] at this
    exact ⟨this.2.symm, this.1.symm⟩
  obtain ⟨hZT, hET⟩ := hval T hT
  have hpos : 0 < Z T := by rw [hZT]; exact sum_map_pos (hld ▸ hl) _ fun _ => Real.exp_pos _
  have hder : ∀ l : List ℝ, HasDerivAt (fun T => (l.map fun e => Real.exp (-(1 / (kB * T) * (e - egs)))).sum)
      (1 / (kB * T ^ 2) * (l.map fun e => (e - egs) * Real.exp (-(1 / (kB * T) * (e - egs)))).sum) T := by
    intro l
    induction l with
    | nil => simpa using hasDerivAt_const T (0 : ℝ)
    | cons e l ih =>
      simp only [List.map_cons, List.sum_cons]
      have h1 : HasDerivAt (fun T : ℝ => 1 / (kB * T)) (-(kB * 1) / (kB * T) ^ 2) T := by
        have := ((hasDerivAt_id T).const_mul kB).inv (mul_pos hk hT).ne'
        refine (this.congr_of_eventuallyEq (Filter.Eventually.of_forall fun x => ?_)).congr_deriv rfl
        exact one_div _
      have h2 : HasDerivAt (fun T : ℝ => Real.exp (-(1 / (kB * T) * (e - egs)))) (Real.exp (-(1 / (kB * T) * (e - egs))) * -(-(kB * 1) / (kB * T) ^ 2 * (e - egs))) T :=
        ((h1.mul_const (e - egs)).neg).exp
      refine (h2.add ih).congr_deriv ?_
      rw [mul_add]
      congr 1
      generalize Real.exp (-(1 / (kB * T) * (e - egs))) = x
      field_simp
  have hZ : HasDerivAt Z (1 / (kB * T ^ 2) * (l.map fun e => (e - egs) * Real.exp (-(1 / (kB * T) * (e - egs)))).sum) T := by
    refine (hder l).congr_of_eventuallyEq ?_
    filter_upwards [lt_mem_nhds hT] with x hx
    exact (hval x hx).1
  have h3 := ((hasDerivAt_id T).const_mul kB).mul (hZ.log hpos.ne')
  refine (h3.const_sub egs).congr_deriv ?_
  have hET' : (l.map fun e => (e - egs) * Real.exp (-(1 / (kB * T) * (e - egs)))).sum = E T * Z T := by
    rw [hET, ← hZT]; field_simp
  rw [hET']
  unfold calcEntropy
  simp only [id]
  field_simp

variable {es : Espace (ℕ × ℕ)} {a : HamArgs} {w : ℕ} {e0 : WithTop ℝ}

theorem flat_ne (ha : a.Valid) (hw : a.n ≤ w) (h : BuildEspace w a none (.ok (es, e0))) : (es.flatMap fun p => p.2.eigvals) ≠ [] ∧ (es.flatMap fun p => p.2.eigvals).length = 4 ^ a.n := by
  have he := buildEspace_eigen ha hw h
  have := flat_sum he.toCompleteEspace fun _ => 1
  rw [List.map_const', List.sum_replicate, Finset.sum_const, Finset.card_univ, he.basis.card, Fintype.card_finset, Fintype.card_fin, ← two_mul, pow_mul] at this
  have hlen : (es.flatMap fun p => p.2.eigvals).length = 4 ^ a.n := by
    rw [nsmul_one, nsmul_one, show (2 : ℕ) ^ 2 = 4 from rfl] at this
    exact_mod_cast this
  refine ⟨fun h0 => ?_, hlen⟩
  rw [h0, List.length_nil] at hlen
  exact absurd hlen.symm (pow_ne_zero _ (by norm_num))

/-- **C159** High temperature, on the full spectrum from `build_espace`: the entropy from `get_entropy` tends to `kB` times the logarithm of 4 for each site that is not in the
bath; with one impurity site `kB ln 4`. -/
theorem C159_hot (ha : a.Valid) (hw : a.n ≤ w) (h : BuildEspace w a none (.ok (es, e0))) {kB : ℝ} (hk : 0 < kB) (egs : ℝ) {w' : ℕ} (junk : ℕ → ℕ → ℕ) (fresh : ℕ → ℝ) (ek : List ℝ)
    (h64 : ek.length * ek.length ≤ 64) (hw' : ek.length ≤ w') {S : ℝ → ℝ} (hS : ∀ β, 0 < β → getEntropy kB w' junk fresh ek es egs β = .ok (S β)) :
    Tendsto S (𝓝[>] 0) (𝓝 (kB * ((a.n - ek.length : ℝ) * Real.log 4))) := by
  obtain ⟨hl, hlen⟩ := flat_ne ha hw h
  have h1 := entropy_hot hl
  have h2 : Tendsto (fun β => (ek.map fun e => levelEntropy (fermiOcc β e)).sum) (𝓝 0) (𝓝 (ek.map fun _ => Real.log 2).sum) :=
    tendsto_list_sum (F := fun β e => levelEntropy (fermiOcc β e)) fun e _ => level_hot e
  have h3 := ((h1.const_mul kB).sub ((h2.const_mul 2).const_mul kB)).mono_left (nhdsWithin_le_nhds (s := Set.Ioi 0))
  have hlog : Real.log 4 = 2 * Real.log 2 := by rw [show (4 : ℝ) = 2 ^ 2 by norm_num, Real.log_pow]; norm_num
  have e : kB * Real.log ((es.flatMap fun p => p.2.eigvals).length : ℕ) - kB * (2 * (ek.map fun _ => Real.log 2).sum) = kB * ((a.n - ek.length : ℝ) * Real.log 4) := by
    rw [hlen, List.map_const', List.sum_replicate, nsmul_eq_mul, Nat.cast_pow, Real.log_pow]
    push_cast
    rw [hlog]
    ring
  rw [e] at h3
  refine h3.congr' ?_
  filter_upwards [self_mem_nhdsWithin] with β hβ
  have := hS β hβ
  rw [C64_impurity_entropy kB β egs (mul_pos hk hβ).ne' w' junk fresh ek h64 hw' es hl] at this
  exact Except.ok.inj this

/-- **C159** Low temperature: the entropy tends to `kB` times the logarithm of the degeneracy of the ground state, less `kB ln 4` for each bath level at zero energy. -/
theorem C159_cold (ha : a.Valid) (hw : a.n ≤ w) {E0 : ℝ} (h : BuildEspace w a none (.ok (es, (E0 : WithTop ℝ)))) {kB : ℝ} (hk : 0 < kB) (egs : ℝ) {w' : ℕ} (junk : ℕ → ℕ → ℕ) (fresh : ℕ → ℝ)
    (ek : List ℝ) (h64 : ek.length * ek.length ≤ 64) (hw' : ek.length ≤ w') {S : ℝ → ℝ} (hS : ∀ β, 0 < β → getEntropy kB w' junk fresh ek es egs β = .ok (S β)) :
    0 < (es.flatMap fun p => p.2.eigvals).count E0 ∧
    Tendsto S atTop (𝓝 (kB * (Real.log ((es.flatMap fun p => p.2.eigvals).count E0) - ek.count 0 * Real.log 4))) := by
  obtain ⟨hl, -⟩ := flat_ne ha hw h
  obtain ⟨l, hl0⟩ := buildEspace_none_some h
  have hleast : IsLeast {x | ∃ p ∈ es, x ∈ p.2.eigvals} E0 := by
    obtain ⟨-, -, ⟨-, he⟩ | ⟨E, he, hE⟩⟩ := C28_build_espace ha hw l es _ hl0
    · exact absurd he (WithTop.coe_ne_top)
    · rw [WithTop.coe_inj] at he
      exact he ▸ hE
  have hmem : E0 ∈ es.flatMap fun p => p.2.eigvals := List.mem_flatMap.mpr hleast.1
  have h1 := entropy_cold hmem fun e he => hleast.2 (List.mem_flatMap.mp he)
  have h2 : Tendsto (fun β => (ek.map fun e => levelEntropy (fermiOcc β e)).sum) atTop (𝓝 (ek.map fun e => if e = 0 then Real.log 2 else 0).sum) :=
    tendsto_list_sum (F := fun β e => levelEntropy (fermiOcc β e)) fun e _ => level_cold e
  have h3 := (h1.const_mul kB).sub ((h2.const_mul 2).const_mul kB)
  have hlog : Real.log 4 = 2 * Real.log 2 := by rw [show (4 : ℝ) = 2 ^ 2 by norm_num, Real.log_pow]; norm_num
  have hc : (ek.map fun e => if e = 0 then Real.log 2 else 0).sum = ek.count 0 * Real.log 2 := by
    rw [← sum_count, ← List.sum_map_mul_right]
    congr 1
    refine List.map_congr_left fun e _ => ?_
    split <;> simp
  rw [hc] at h3
  refine ⟨List.count_pos_iff.mpr hmem, ?_⟩
  have e : kB * Real.log ((es.flatMap fun p => p.2.eigvals).count E0) - kB * (2 * (ek.count 0 * Real.log 2)) =
      kB * (Real.log ((es.flatMap fun p => p.2.eigvals).count E0) - ek.count 0 * Real.log 4) := by rw [hlog]; ring
  rw [e] at h3
  refine h3.congr' ?_
  filter_upwards [eventually_gt_atTop 0] with β hβ
  have := hS β hβ
  rw [C64_impurity_entropy kB β egs (mul_pos hk hβ).ne' w' junk fresh ek h64 hw' es hl] at this
  exact Except.ok.inj this

/-- **C159** (part of "the impurity entropy is not negative") With no bath level at zero energy the entropy tends to a value that is not negative as the temperature falls,
and with one impurity site it tends to `kB ln 4` as the temperature rises. The full statement, at every temperature and for every bath, is false: `C159_refuted`. -/
theorem C159_limits_partial (ha : a.Valid) (hw : a.n ≤ w) {E0 : ℝ} (h : BuildEspace w a none (.ok (es, (E0 : WithTop ℝ)))) {kB : ℝ} (hk : 0 < kB) (egs : ℝ) {w' : ℕ} (junk : ℕ → ℕ → ℕ)
    (fresh : ℕ → ℝ) (ek : List ℝ) (hn : a.n = ek.length + 1) (hz : (0 : ℝ) ∉ ek) (h64 : ek.length * ek.length ≤ 64) (hw' : ek.length ≤ w') {S : ℝ → ℝ}
    (hS : ∀ β, 0 < β → getEntropy kB w' junk fresh ek es egs β = .ok (S β)) :
    Tendsto S (𝓝[>] 0) (𝓝 (kB * Real.log 4)) ∧ ∃ L, 0 ≤ L ∧ Tendsto S atTop (𝓝 L) := by
  constructor
  · have := C159_hot ha hw h hk egs junk fresh ek h64 hw' hS
    rw [hn] at this
    convert this using 3
    push_cast
    ring
  · obtain ⟨h1, h2⟩ := C159_cold ha hw h hk egs junk fresh ek h64 hw' hS
    rw [List.count_eq_zero.mpr hz, Nat.cast_zero, zero_mul, sub_zero] at h2
    exact ⟨_, mul_nonneg hk.le (Real.log_natCast_nonneg _), h2⟩

theorem freeArgs_entropy (hE : BuildEspace 64 freeArgs none (.ok (es, e0))) {kB β : ℝ} (egs : ℝ) (hk : kB * β ≠ 0) (w' : ℕ) (hw' : 1 ≤ w') (junk : ℕ → ℕ → ℕ) (fresh : ℕ → ℝ) (x : ℝ) :
    getEntropy kB w' junk fresh [x] es egs β = .ok (kB * (2 * (levelEntropy (fermiOcc β 1) + levelEntropy (fermiOcc β (-1)))) - kB * (2 * levelEntropy (fermiOcc β x))) := by
  rw [C158_entropy freeArgs_valid (by simp [freeArgs]) freeArgs_free hE (freeArgs_basis false) (freeArgs_basis true) kB β egs hk junk fresh [x] (by simp) (by simpa using hw')]
  rw [Fin.sum_univ_two]
  simp [two_mul]

/-- **C159** The impurity entropy can be negative: without interaction, impurity and bath level both at zero energy and hopping 1, the entropy tends to `-kB ln 4` as the temperature
falls. -/
theorem C159_refuted {kB : ℝ} (hk : 0 < kB) (egs : ℝ) (junk : ℕ → ℕ → ℕ) (fresh : ℕ → ℝ) : ∃ es e0 S, BuildEspace 64 freeArgs none (.ok (es, e0)) ∧
    (∀ β, 0 < β → getEntropy kB 64 junk fresh [0] es egs β = .ok (S β)) ∧ Tendsto S atTop (𝓝 (-(kB * Real.log 4))) ∧ ∃ β, 0 < β ∧ S β < 0 := by
  obtain ⟨es, e0, h⟩ := freeArgs_run
  refine ⟨es, e0, _, h, fun β hβ => freeArgs_entropy h egs (mul_pos hk hβ).ne' 64 (by norm_num) junk fresh 0, ?_⟩
  have h1 := ((((level_cold 1).add (level_cold (-1))).const_mul 2).const_mul kB).sub (((level_cold 0).const_mul 2).const_mul kB)
  have hlog : Real.log 4 = 2 * Real.log 2 := by rw [show (4 : ℝ) = 2 ^ 2 by norm_num, Real.log_pow]; norm_num
  have e : kB * (2 * ((if (1 : ℝ) = 0 then Real.log 2 else 0) + if (-1 : ℝ) = 0 then Real.log 2 else 0)) - kB * (2 * if (0 : ℝ) = 0 then Real.log 2 else 0) = -(kB * Real.log 4) := by
    rw [if_neg (by norm_num), if_neg (by norm_num), if_pos rfl, hlog]; ring
  rw [e] at h1
  refine ⟨h1, ?_⟩
  have hneg : -(kB * Real.log 4) < 0 := by
    have : 0 < Real.log 4 := Real.log_pos (by norm_num)
    linarith [mul_pos hk this]
  obtain ⟨β, hβ, hb⟩ := ((eventually_gt_atTop 0).and (h1.eventually_lt_const hneg)).exists
  exact ⟨β, hβ, hb⟩

/-- The hypotheses of the limits are met: the same system with the bath level taken at 1, where the ground state is not degenerate and the entropy vanishes with the temperature. -/
example (egs : ℝ) (junk : ℕ → ℕ → ℕ) (fresh : ℕ → ℝ) : ∃ es S, BuildEspace 64 freeArgs none (.ok (es, ((-2 : ℝ) : WithTop ℝ))) ∧
    (∀ β, 0 < β → getEntropy 1 64 junk fresh [1] es egs β = .ok (S β)) ∧ Tendsto S (𝓝[>] 0) (𝓝 (1 * Real.log 4)) ∧ ∃ L, 0 ≤ L ∧ Tendsto S atTop (𝓝 L) := by
  obtain ⟨es, e0, h⟩ := freeArgs_run
  have he := C158_ground freeArgs_valid (by simp [freeArgs]) freeArgs_free h (freeArgs_basis false) (freeArgs_basis true)
  have he' : e0 = ((-2 : ℝ) : WithTop ℝ) := by
    rw [he]; norm_num [Fin.sum_univ_two]
  subst he'
  have hS : ∀ β, 0 < β → getEntropy 1 64 junk fresh [1] es egs β = .ok _ := fun β hβ => freeArgs_entropy h egs (mul_pos one_pos hβ).ne' 64 (by norm_num) junk fresh 1
  exact ⟨es, _, h, hS, C159_limits_partial freeArgs_valid (by simp [freeArgs]) h one_pos egs junk fresh [1] (by simp [freeArgs]) (by simp) (by simp) (by simp) hS⟩

/-- The energies of a run are not an empty list, so the hypotheses of `C159_cooling` and `C159_free_energy` are met. -/
example : ∃ es : Espace (ℕ × ℕ), (es.flatMap fun p => p.2.eigvals) ≠ [] ∧ (∃ E Z : ℝ → ℝ, ∀ T, 0 < T → entropyParams es 0 (1 / (1 * T)) = .ok (E T, Z T)) := by
  obtain ⟨es, e0, h⟩ := freeArgs_run
  have hl := (flat_ne freeArgs_valid (by simp [freeArgs]) h).1
  refine ⟨es, hl, ?_⟩
  have : ∀ T : ℝ, ∃ p, 0 < T → entropyParams es 0 (1 / (1 * T)) = .ok p := by
    intro T
    by_cases hT : 0 < T
    · obtain ⟨p, hp, -⟩ := C64_entropy 1 (1 / (1 * T)) 0 (by positivity) es hl
      exact ⟨p, fun _ => hp⟩
    · exact ⟨0, fun h => absurd h hT⟩
  choose p hp using this
  exact ⟨fun T => (p T).1, fun T => (p T).2, hp⟩

end Edpyt
