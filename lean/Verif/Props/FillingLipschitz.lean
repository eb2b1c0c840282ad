import Verif.Props.Fluctuation
import Verif.Props.HeatCapacity
import Mathlib.Analysis.Calculus.MeanValue
/-!
C212: how far the number of electrons, the magnetisation and the mean energy can move when the chemical potential, the field or the temperature is changed.
-/
namespace Edpyt
open Spec

variable {a : HamArgs} {w : ℕ} {beta : ℝ}

/-! ## Helpers -/

theorem variance_algebra {S0 S1 S2 m M : ℝ} (h0 : 0 < S0) (h : 0 ≤ (M + m) * S1 - S2 - M * m * S0) : S2 / S0 - (S1 / S0) ^ 2 ≤ ((M - m) / 2) ^ 2 := by
  have h1 : S2 / S0 ≤ (M + m) * (S1 / S0) - M * m := by
    rw [div_le_iff₀ h0, sub_mul, mul_assoc, div_mul_cancel₀ _ h0.ne']
    linarith
  nlinarith [sq_nonneg (S1 / S0 - (M + m) / 2)]

theorem sectorVar_le {n : ℕ} {es : Espace (ℕ × ℕ)} (h : CompleteEspace n es) (beta : ℝ) {f : ℕ → ℕ → ℝ} {m M : ℝ} (hf : ∀ u d, u ≤ n → d ≤ n → m ≤ f u d ∧ f u d ≤ M) :
    0 ≤ sectorVar beta es f ∧ sectorVar beta es f ≤ ((M - m) / 2) ^ 2 := by
  have hne : Nonempty (EigIdx n) := ⟨⟨(0, 0), ⟨0, by simp⟩⟩⟩
  have hZ : 0 < ∑ x : EigIdx n, Real.exp (-beta * esVal n es x) := Finset.sum_pos (fun _ _ => Real.exp_pos _) Finset.univ_nonempty
  rw [sectorVar, sectorAvg_eq h, sectorAvg_eq h]
  constructor
  · have hcs := Finset.sum_mul_sq_le_sq_mul_sq (Finset.univ : Finset (EigIdx n)) (fun x => Real.sqrt (Real.exp (-beta * esVal n es x)))
      (fun x => Real.sqrt (Real.exp (-beta * esVal n es x)) * f x.1.1 x.1.2)
    have e1 : ∀ x : EigIdx n, Real.sqrt (Real.exp (-beta * esVal n es x)) * (Real.sqrt (Real.exp (-beta * esVal n es x)) * f x.1.1 x.1.2) = Real.exp (-beta * esVal n es x) * f x.1.1 x.1.2 := fun x => by
      rw [← mul_assoc, Real.mul_self_sqrt (Real.exp_pos _).le]
    have e2 : ∀ x : EigIdx n, (Real.sqrt (Real.exp (-beta * esVal n es x)) * f x.1.1 x.1.2) ^ 2 = Real.exp (-beta * esVal n es x) * f x.1.1 x.1.2 ^ 2 := fun x => by
      rw [mul_pow, Real.sq_sqrt (Real.exp_pos _).le]
    simp only [e1, e2, Real.sq_sqrt (Real.exp_pos _).le] at hcs
    rw [sub_nonneg, div_pow, div_le_div_iff₀ (pow_pos hZ 2) hZ]
    nlinarith
  · refine variance_algebra hZ ?_
    rw [Finset.mul_sum, Finset.mul_sum, ← Finset.sum_sub_distrib, ← Finset.sum_sub_distrib]
    refine Finset.sum_nonneg fun x _ => ?_
    obtain ⟨h1, h2⟩ := hf x.1.1 x.1.2 (by omega) (by omega)
    have := mul_nonneg (Real.exp_pos (-beta * esVal n es x)).le (mul_nonneg (sub_nonneg.mpr h2) (sub_nonneg.mpr h1))
    nlinarith

theorem energyVar_le (β : ℝ) {l : List ℝ} (hl : l ≠ []) {m M : ℝ} (h : ∀ e ∈ l, m ≤ e ∧ e ≤ M) : energyVar β l ≤ ((M - m) / 2) ^ 2 := by
  have hZ : 0 < (l.map fun e => Real.exp (-β * e)).sum := sum_map_pos hl _ fun _ => Real.exp_pos _
  have h1 : 0 ≤ (M + m) * (l.map fun e => e * Real.exp (-β * e)).sum - (l.map fun e => e * e * Real.exp (-β * e)).sum - M * m * (l.map fun e => Real.exp (-β * e)).sum := by
    clear hl hZ
    induction l with
    | nil => simp
    | cons e l ih =>
      have h2 := ih fun x hx => h x (List.mem_cons_of_mem _ hx)
      obtain ⟨h3, h4⟩ := h e List.mem_cons_self
      simp only [List.map_cons, List.sum_cons]
      have h5 := mul_nonneg (Real.exp_pos (-β * e)).le (mul_nonneg (sub_nonneg.mpr h4) (sub_nonneg.mpr h3))
      generalize (l.map fun e => e * Real.exp (-β * e)).sum = G at *
      generalize (l.map fun e => e * e * Real.exp (-β * e)).sum = W at *
      generalize (l.map fun e => Real.exp (-β * e)).sum = Z at *
      nlinarith
  have h2 := variance_algebra hZ h1
  refine le_trans (le_of_eq ?_) h2
  rw [energyVar, energyAvg, list_sum_combine, energyAvg]
  simp only [id] at *
  generalize (l.map fun e => Real.exp (-β * e)).sum = Z at *
  generalize (l.map fun e => e * Real.exp (-β * e)).sum = G
  generalize (l.map fun e => e * e * Real.exp (-β * e)).sum = W
  have := hZ.ne'
  field_simp
  ring

theorem energyVar_nonneg (β : ℝ) {l : List ℝ} (hl : l ≠ []) : 0 ≤ energyVar β l := by
  unfold energyVar
  rw [energyAvg]
  refine div_nonneg (List.sum_nonneg ?_) (sum_map_pos hl _ fun _ => Real.exp_pos _).le
  intro x hx
  obtain ⟨e, -, rfl⟩ := List.mem_map.mp hx
  positivity

theorem abs_sub_le_slope {f f' : ℝ → ℝ} {C : ℝ} (hf : ∀ x, HasDerivAt f (f' x) x) (hC : ∀ x, |f' x| ≤ C) (x y : ℝ) : |f x - f y| ≤ C * |x - y| := by
  have := Convex.norm_image_sub_le_of_norm_hasDerivWithin_le (f := f) (f' := f') (s := Set.univ) (x := y) (y := x) (C := C) (fun z _ => (hf z).hasDerivWithinAt)
    (fun z _ => hC z) convex_univ trivial trivial
  simpa [Real.norm_eq_abs] using this

/-- The occupations do not depend on the run. -/
theorem occRun_same (ha : a.Valid) (hw : a.n ≤ w) {es es' : Espace (ℕ × ℕ)} {U D U' D' : ℕ → ℝ} (h : OccRun w a beta es U D) (h' : OccRun w a beta es' U' D') (f : ℝ → ℝ → ℝ) :
    ∑ i ∈ Finset.range a.n, f (U i) (D i) = ∑ i ∈ Finset.range a.n, f (U' i) (D' i) := by
  refine Finset.sum_congr rfl fun i hi => ?_
  have h1 := (OccRun.eigen ha hw h).2 ⟨i, Finset.mem_range.mp hi⟩
  have h2 := (OccRun.eigen ha hw h').2 ⟨i, Finset.mem_range.mp hi⟩
  have e1 : U i = U' i := Complex.ofReal_injective (h1.1.trans h2.1.symm)
  have e2 : D i = D' i := Complex.ofReal_injective (h1.2.trans h2.2.symm)
  rw [e1, e2]

/-! ## C212 -/

/-- **C212** (chemical potential) The number of electrons falls with `mu`, by at most `beta n²` per unit of `mu`, whatever the levels, the hopping and the interaction. -/
theorem C212_filling (ha : a.Valid) (hw : a.n ≤ w) (hb : 0 < beta) {mu mu' : ℝ} {es es' : Espace (ℕ × ℕ)} {U D U' D' : ℕ → ℝ} (h : OccRun w { a with mu := mu } beta es U D)
    (h' : OccRun w { a with mu := mu' } beta es' U' D') :
    |∑ i ∈ Finset.range a.n, (U i + D i) - ∑ i ∈ Finset.range a.n, (U' i + D' i)| ≤ beta * a.n ^ 2 * |mu - mu'| := by
  choose eg Ug Dg hg using fun mu => OccRun.exists (a := { a with mu := mu }) (w := w) (withMu_valid ha mu) hw beta
  have e1 := occRun_same (a := { a with mu := mu }) (withMu_valid ha mu) hw h (hg mu) fun x y => x + y
  have e2 := occRun_same (a := { a with mu := mu' }) (withMu_valid ha mu') hw h' (hg mu') fun x y => x + y
  simp only at e1 e2
  rw [e1, e2]
  refine abs_sub_le_slope (fun x => (C210_mu ha hw hb hg x).2) (fun x => ?_) mu mu'
  have hv := sectorVar_le (OccRun.eigen (a := { a with mu := x }) (withMu_valid ha x) hw (hg x)).1.toCompleteEspace beta (f := fun u d => (u : ℝ) + d) (m := 0) (M := 2 * a.n)
    fun u d hu hd => ⟨by positivity, by
      have h1 : (u : ℝ) ≤ a.n := by exact_mod_cast hu
      have h2 : (d : ℝ) ≤ a.n := by exact_mod_cast hd
      linarith⟩
  rw [abs_neg, abs_of_nonneg (mul_nonneg hb.le hv.1)]
  refine mul_le_mul_of_nonneg_left (hv.2.trans (le_of_eq ?_)) hb.le
  ring

/-- **C212** (fields) Shift the levels of spin up by `t * c 0` and those of spin down by `t * c 1`: the occupations summed with these weights move by at most
`beta ((|c 0| + |c 1|) n / 2)²` per unit of `t`. With `c = (1, -1)` this is the magnetisation in a uniform field, bounded by `beta n²`. -/
theorem C212_fields (ha : a.Valid) (hw : a.n ≤ w) (hb : 0 < beta) (c : ℕ → ℝ) {t t' : ℝ} {es es' : Espace (ℕ × ℕ)} {U D U' D' : ℕ → ℝ}
    (h : OccRun w (shiftLevels a (fun s _ => c s) t) beta es U D) (h' : OccRun w (shiftLevels a (fun s _ => c s) t') beta es' U' D') :
    |∑ i ∈ Finset.range a.n, (c 0 * U i + c 1 * D i) - ∑ i ∈ Finset.range a.n, (c 0 * U' i + c 1 * D' i)| ≤ beta * ((|c 0| + |c 1|) * a.n / 2) ^ 2 * |t - t'| := by
  choose eg Ug Dg hg using fun t => OccRun.exists (a := shiftLevels a (fun s _ => c s) t) (w := w) (shiftLevels_valid ha _ t) hw beta
  have e1 := occRun_same (a := shiftLevels a (fun s _ => c s) t) (shiftLevels_valid ha _ t) hw h (hg t) fun x y => c 0 * x + c 1 * y
  have e2 := occRun_same (a := shiftLevels a (fun s _ => c s) t') (shiftLevels_valid ha _ t') hw h' (hg t') fun x y => c 0 * x + c 1 * y
  change ∑ i ∈ Finset.range a.n, _ = ∑ i ∈ Finset.range a.n, _ at e1 e2
  rw [e1, e2]
  refine abs_sub_le_slope (fun x => (C210_fields ha hw hb c hg x).2) (fun x => ?_) t t'
  have hbd : ∀ (r : ℝ) (k : ℕ), k ≤ a.n → min (r * a.n) 0 ≤ r * k ∧ r * k ≤ max (r * a.n) 0 := by
    intro r k hk
    have h1 : (k : ℝ) ≤ a.n := by exact_mod_cast hk
    have h0 : (0 : ℝ) ≤ k := by positivity
    rcases le_total 0 r with hr | hr
    · exact ⟨(min_le_right _ _).trans (mul_nonneg hr h0), (mul_le_mul_of_nonneg_left h1 hr).trans (le_max_left _ _)⟩
    · exact ⟨(min_le_left _ _).trans (mul_le_mul_of_nonpos_left h1 hr), (mul_nonpos_of_nonpos_of_nonneg hr h0).trans (le_max_right _ _)⟩
  have hv := sectorVar_le (OccRun.eigen (a := shiftLevels a (fun s _ => c s) x) (shiftLevels_valid ha _ x) hw (hg x)).1.toCompleteEspace beta (f := fun u d => c 0 * u + c 1 * d)
    (m := min (c 0 * a.n) 0 + min (c 1 * a.n) 0) (M := max (c 0 * a.n) 0 + max (c 1 * a.n) 0)
    fun u d hu hd => ⟨add_le_add (hbd _ _ hu).1 (hbd _ _ hd).1, add_le_add (hbd _ _ hu).2 (hbd _ _ hd).2⟩
  rw [abs_neg, abs_of_nonneg (mul_nonneg hb.le hv.1)]
  refine mul_le_mul_of_nonneg_left (hv.2.trans (le_of_eq ?_)) hb.le
  have hd : ∀ r : ℝ, max (r * a.n) 0 - min (r * a.n) 0 = |r| * a.n := fun r => by
    rw [max_sub_min_eq_abs', sub_zero, abs_mul, Nat.abs_cast]
  congr 1
  rw [add_mul, ← hd, ← hd]
  ring

/-- **C212** (temperature) If all energies lie in an interval of length `W`, the mean energy moves by at most `W²/4` per unit of the inverse temperature. -/
theorem C212_energy {α : Type} (es : Espace α) (hl : (es.flatMap fun p => p.2.eigvals) ≠ []) {egs m W β β' : ℝ} (hm : ∀ E ∈ es.flatMap fun p => p.2.eigvals, m ≤ E ∧ E ≤ m + W) :
    ∃ E Z E' Z', entropyParams es egs β = .ok (E, Z) ∧ entropyParams es egs β' = .ok (E', Z') ∧ |E - E'| ≤ W ^ 2 / 4 * |β - β'| := by
  have hes : es ≠ [] := by rintro rfl; exact hl rfl
  have hl' : (es.flatMap fun p => p.2.eigvals).map (· - egs) ≠ [] := by simpa using hl
  have hval : ∀ β, ∃ E Z, entropyParams es egs β = .ok (E, Z) ∧ E = energyAvg β ((es.flatMap fun p => p.2.eigvals).map (· - egs)) id := by
    intro β
    rw [entropyParams, if_neg hes, entropy_loop]
    refine ⟨_, _, rfl, ?_⟩
    unfold energyAvg
    rw [List.map_map, List.map_map]
    simp only [Function.comp_def, neg_mul, id, zero_add]
  obtain ⟨E, Z, h1, h2⟩ := hval β
  obtain ⟨E', Z', h1', h2'⟩ := hval β'
  refine ⟨E, Z, E', Z', h1, h1', ?_⟩
  rw [h2, h2']
  refine abs_sub_le_slope (fun x => mean_deriv hl' x) (fun x => ?_) β β'
  rw [energyVar_shift _ _ hl, abs_neg, abs_of_nonneg (energyVar_nonneg _ hl)]
  refine (energyVar_le x hl hm).trans (le_of_eq ?_)
  ring

/-- The hypotheses are met: the two sites with hopping 1, for every pair of chemical potentials and of fields, and a spectrum with two levels. -/
example (mu mu' t t' : ℝ) (c : ℕ → ℝ) : freeArgs.Valid ∧ (∃ es U D es' U' D', OccRun 64 { freeArgs with mu := mu } 2 es U D ∧ OccRun 64 { freeArgs with mu := mu' } 2 es' U' D') ∧
    ∃ es U D es' U' D', OccRun 64 (shiftLevels freeArgs (fun s _ => c s) t) 2 es U D ∧ OccRun 64 (shiftLevels freeArgs (fun s _ => c s) t') 2 es' U' D' := by
  have hm := fun mu => OccRun.exists (a := { freeArgs with mu := mu }) (w := 64) (withMu_valid freeArgs_valid mu) (by simp [freeArgs]) 2
  have ht := fun t => OccRun.exists (a := shiftLevels freeArgs (fun s _ => c s) t) (w := 64) (shiftLevels_valid freeArgs_valid _ t) (by simp [shiftLevels, freeArgs]) 2
  obtain ⟨es, U, D, h⟩ := hm mu
  obtain ⟨es', U', D', h'⟩ := hm mu'
  obtain ⟨fs, V, F, g⟩ := ht t
  obtain ⟨fs', V', F', g'⟩ := ht t'
  exact ⟨freeArgs_valid, ⟨es, U, D, es', U', D', h, h'⟩, fs, V, F, fs', V', F', g, g'⟩

example (st : SectorStates) : ∃ E Z E' Z', entropyParams [((1, 0), (⟨st, 1, [0.5], []⟩ : Sct)), ((0, 1), ⟨st, 1, [0.25], []⟩)] 0.25 1 = .ok (E, Z) ∧
    entropyParams [((1, 0), (⟨st, 1, [0.5], []⟩ : Sct)), ((0, 1), ⟨st, 1, [0.25], []⟩)] 0.25 3 = .ok (E', Z') ∧ |E - E'| ≤ (1 / 4) ^ 2 / 4 * |1 - 3| :=
  C212_energy _ (by simp) (m := 1 / 4) (by
    intro E hE
    simp only [List.flatMap_cons, List.flatMap_nil, List.append_nil, List.mem_append, List.mem_singleton] at hE
    rcases hE with rfl | rfl <;> norm_num)

end Edpyt
