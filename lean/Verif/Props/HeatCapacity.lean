import Verif.Props.Thermo
/-!
C211: the heat capacity of the spectrum is the variance of the energy.
-/
namespace Edpyt
open Spec Filter Topology

/-! ## Specification -/

/-- The Boltzmann average of a function of the energy over a list of energies. -/
noncomputable def Spec.energyAvg (β : ℝ) (l : List ℝ) (f : ℝ → ℝ) : ℝ := (l.map fun e => f e * Real.exp (-β * e)).sum / (l.map fun e => Real.exp (-β * e)).sum

/-- The variance of the energy: the average of the squared distance from the average. -/
noncomputable def Spec.energyVar (β : ℝ) (l : List ℝ) : ℝ := energyAvg β l fun e => (e - energyAvg β l id) ^ 2

/-! ## Helpers -/

theorem list_exp_deriv (l : List ℝ) (f : ℝ → ℝ) (β : ℝ) : HasDerivAt (fun β => (l.map fun e => f e * Real.exp (-β * e)).sum) (-(l.map fun e => f e * e * Real.exp (-β * e)).sum) β := by
  induction l with
  | nil => simpa using hasDerivAt_const β (0 : ℝ)
  | cons e l ih =>
    simp only [List.map_cons, List.sum_cons]
    have h1 : HasDerivAt (fun β : ℝ => f e * Real.exp (-β * e)) (f e * (Real.exp (-β * e) * (-1 * e))) β := (((hasDerivAt_neg β).mul_const e).exp).const_mul (f e)
    refine (h1.add ih).congr_deriv ?_
    ring

theorem list_sum_combine (l : List ℝ) (g : ℝ → ℝ) (m : ℝ) :
    (l.map fun e => (e - m) ^ 2 * g e).sum = (l.map fun e => e * e * g e).sum - 2 * m * (l.map fun e => e * g e).sum + m ^ 2 * (l.map g).sum := by
  induction l with
  | nil => simp
  | cons e l ih =>
    simp only [List.map_cons, List.sum_cons, ih]
    ring

theorem energyAvg_shift (β c : ℝ) (l : List ℝ) (f : ℝ → ℝ) : energyAvg β (l.map (· - c)) f = energyAvg β l fun e => f (e - c) := by
  unfold energyAvg
  rw [List.map_map, List.map_map]
  have h1 : ∀ g : ℝ → ℝ, (l.map ((fun e => g e * Real.exp (-β * e)) ∘ (· - c))).sum = Real.exp (β * c) * (l.map fun e => g (e - c) * Real.exp (-β * e)).sum := fun g => by
    rw [← List.sum_map_mul_left]
    congr 1
    refine List.map_congr_left fun e _ => ?_
    have : Real.exp (-β * (e - c)) = Real.exp (β * c) * Real.exp (-β * e) := by rw [← Real.exp_add]; congr 1; ring
    simp only [Function.comp, this]
    ring
  have h2 := h1 fun _ => 1
  simp only [one_mul] at h2
  rw [h1 f]
  have h3 : (l.map ((fun e => Real.exp (-β * e)) ∘ (· - c))).sum = Real.exp (β * c) * (l.map fun e => Real.exp (-β * e)).sum := by
    rw [← h2]
  rw [h3, mul_div_mul_left _ _ (Real.exp_pos _).ne']

theorem energyVar_shift (β c : ℝ) {l : List ℝ} (hl : l ≠ []) : energyVar β (l.map (· - c)) = energyVar β l := by
  have hZ : (l.map fun e => Real.exp (-β * e)).sum ≠ 0 := (sum_map_pos hl _ fun _ => Real.exp_pos _).ne'
  have h1 : energyAvg β (l.map (· - c)) id = energyAvg β l id - c := by
    rw [energyAvg_shift]
    unfold energyAvg
    have : (l.map fun e => id (e - c) * Real.exp (-β * e)).sum = (l.map fun e => id e * Real.exp (-β * e)).sum - c * (l.map fun e => Real.exp (-β * e)).sum := by
      clear hZ hl
      induction l with
      | nil => simp
      | cons e l ih =>
        simp only [List.map_cons, List.sum_cons]
        rw [ih]
        generalize (l.map fun e => id e * Real.exp (-β * e)).sum = A
        generalize (l.map fun e => Real.exp (-β * e)).sum = B
        simp only [id]
        ring
    rw [this, sub_div, mul_div_assoc, div_self hZ, mul_one]
  unfold energyVar
  rw [h1, energyAvg_shift]
  congr 1
  funext e
  ring

/-- Mean energy and variance as functions of `β`. -/
theorem mean_deriv {l : List ℝ} (hl : l ≠ []) (β : ℝ) : HasDerivAt (fun β => energyAvg β l id) (-energyVar β l) β := by
  have hZ : (l.map fun e => Real.exp (-β * e)).sum ≠ 0 := (sum_map_pos hl _ fun _ => Real.exp_pos _).ne'
  have h1 := list_exp_deriv l id β
  have h2 := list_exp_deriv l (fun _ => 1) β
  simp only [one_mul] at h2
  refine (h1.div h2 hZ).congr_deriv ?_
  rw [energyVar, energyAvg, list_sum_combine, energyAvg]
  simp only [id] at *
  generalize (l.map fun e => Real.exp (-β * e)).sum = Z at *
  generalize (l.map fun e => e * Real.exp (-β * e)).sum = G
  generalize (l.map fun e => e * e * Real.exp (-β * e)).sum = W
  field_simp
  ring

/-! ## C211 -/

/-- **C211** The mean energy and the entropy of a spectrum are differentiable in the temperature. The slope of the mean energy is the variance of the energy over `kB T^2`, that of the
entropy is this over `T`. The variance is not negative. -/
theorem C211_heat_capacity {α : Type} (es : Espace α) (hl : (es.flatMap fun p => p.2.eigvals) ≠ []) {kB egs : ℝ} (hk : 0 < kB) {E Z : ℝ → ℝ}
    (h : ∀ T, 0 < T → entropyParams es egs (1 / (kB * T)) = .ok (E T, Z T)) {T : ℝ} (hT : 0 < T) :
    HasDerivAt E (energyVar (1 / (kB * T)) (es.flatMap fun p => p.2.eigvals) / (kB * T ^ 2)) T ∧
    HasDerivAt (fun T => calcEntropy kB (Z T) (E T) T) (energyVar (1 / (kB * T)) (es.flatMap fun p => p.2.eigvals) / (kB * T ^ 2) / T) T ∧
    0 ≤ energyVar (1 / (kB * T)) (es.flatMap fun p => p.2.eigvals) := by
  have hes : es ≠ [] := by rintro rfl; exact hl rfl
  generalize hld : (es.flatMap fun p => p.2.eigvals) = l at hl
  have hl' : l.map (· - egs) ≠ [] := by simpa using hl
  have hval : ∀ T, 0 < T → Z T = ((l.map (· - egs)).map fun e => Real.exp (-(1 / (kB * T)) * e)).sum ∧ E T = energyAvg (1 / (kB * T)) (l.map (· - egs)) id := by
    intro T hT
    have := h T hT
    rw [entropyParams, if_neg hes, entropy_loop, hld] at this
    have := Prod.mk.inj (Except.ok.inj this)
    simp only [zero_add] at this
    unfold energyAvg
    rw [List.map_map, List.map_map]
    constructor
    · rw [← this.2]
      simp only [Function.comp_def, neg_mul]
    · rw [← this.1]
      simp only [Function.comp_def, neg_mul, id]
  have hβ : HasDerivAt (fun T : ℝ => 1 / (kB * T)) (-(1 / (kB * T ^ 2))) T := by
    have := ((hasDerivAt_id T).const_mul kB).inv (mul_pos hk hT).ne'
    refine (this.congr_of_eventuallyEq (Eventually.of_forall fun x => one_div _)).congr_deriv ?_
    simp only [id]
    field_simp
  have hE : HasDerivAt E (energyVar (1 / (kB * T)) l / (kB * T ^ 2)) T := by
    have h1 := (mean_deriv hl' (1 / (kB * T))).comp T hβ
    rw [energyVar_shift _ _ hl] at h1
    refine (h1.congr_of_eventuallyEq ?_).congr_deriv (by ring)
    filter_upwards [lt_mem_nhds hT] with x hx
    exact (hval x hx).2
  refine ⟨hE, ?_, ?_⟩
  · have hZpos : 0 < Z T := by rw [(hval T hT).1]; exact sum_map_pos hl' _ fun _ => Real.exp_pos _
    have hZ : HasDerivAt Z (E T * Z T / (kB * T ^ 2)) T := by
      have h2 := list_exp_deriv (l.map (· - egs)) (fun _ => 1) (1 / (kB * T))
      simp only [one_mul] at h2
      have h3 := h2.comp T hβ
      refine (h3.congr_of_eventuallyEq ?_).congr_deriv ?_
      · filter_upwards [lt_mem_nhds hT] with x hx
        exact (hval x hx).1
      · have e : ((l.map (· - egs)).map fun e => e * Real.exp (-(1 / (kB * T)) * e)).sum = E T * Z T := by
          rw [(hval T hT).2, energyAvg, ← (hval T hT).1, div_mul_cancel₀ _ hZpos.ne']
          rfl
        rw [e]
        ring
    have h4 := ((hZ.log hZpos.ne').const_mul kB).add (hE.div (hasDerivAt_id T) hT.ne')
    refine h4.congr_deriv ?_
    simp only [id]
    field_simp
    ring
  · unfold energyVar
    rw [energyAvg]
    refine div_nonneg (List.sum_nonneg ?_) (sum_map_pos hl _ fun _ => Real.exp_pos _).le
    intro x hx
    obtain ⟨e, -, rfl⟩ := List.mem_map.mp hx
    positivity

/-- The hypotheses are met by a spectrum with two levels. -/
example (st : SectorStates) : ∃ E Z : ℝ → ℝ, ∀ T, 0 < T → entropyParams [((1, 0), (⟨st, 1, [0.5], []⟩ : Sct)), ((0, 1), ⟨st, 1, [0.25], []⟩)] 0.25 (1 / (1 * T)) = .ok (E T, Z T) := by
  have h : ∀ T : ℝ, ∃ r : ℝ × ℝ, entropyParams [((1, 0), (⟨st, 1, [0.5], []⟩ : Sct)), ((0, 1), ⟨st, 1, [0.25], []⟩)] 0.25 (1 / (1 * T)) = .ok r := fun T =>
    ⟨_, by rw [entropyParams, if_neg (by simp)]⟩
  choose r hr using h
  exact ⟨fun T => (r T).1, fun T => (r T).2, fun T _ => hr T⟩

end Edpyt
