import Verif.Props.Filling
import Verif.Props.Stable
import Verif.Proof.HellmannFeynman
/-!
C160: the occupations are the derivatives of the free energy.
-/
namespace Edpyt
open Spec Matrix

/-! ## Specification -/

/-- The arguments with the level of site `i` and spin `s` shifted by `t * x s i`. -/
noncomputable def Spec.shiftLevels (a : HamArgs) (x : ℕ → ℕ → ℝ) (t : ℝ) : HamArgs := { a with H := fun s i j => a.H s i j + if i = j then t * x s i else 0 }

/-- The arguments with the on-site interaction of site `k` raised by `t`. -/
noncomputable def Spec.shiftU (a : HamArgs) (V : ℕ → ℕ → ℝ) (k : ℕ) (t : ℝ) : HamArgs := { a with V := { a.V with U := some fun i j => V i j + if i = k ∧ j = k then t else 0 } }

/-- `(n_up - c)(n_dw - c)` of a site, with `c = 1/2` in the half-filling mode and `c = 0` else. -/
noncomputable def Spec.doubleOcc (hf : Bool) {n : ℕ} (k : Fin n) : Matrix (Finset (Fin (n + n))) (Finset (Fin (n + n))) ℝ :=
  (num ℝ (orb false k) - (if hf then 1 / 2 else 0 : ℝ) • 1) * (num ℝ (orb true k) - (if hf then 1 / 2 else 0 : ℝ) • 1)

variable {a : HamArgs} {w : ℕ} {beta : ℝ}

theorem shiftLevels_valid (ha : a.Valid) (x : ℕ → ℕ → ℝ) (t : ℝ) : (shiftLevels a x t).Valid where
  two_le := ha.two_le
  le := ha.le
  hU := ha.hU
  symmH := fun s i j hi hj => by
    change a.H s i j + _ = a.H s j i + _
    rw [ha.symmH s i j hi hj]
    by_cases h : i = j
    · subst h; rfl
    · rw [if_neg h, if_neg (Ne.symm h)]
  symmX := ha.symmX
  symmP := ha.symmP
  hJ := ha.hJ

/-- The operator of a set of level shifts. -/
noncomputable def shiftOp {n : ℕ} (x : ℕ → ℕ → ℝ) : Matrix (Finset (Fin (n + n))) (Finset (Fin (n + n))) ℝ :=
  Matrix.diagonal fun S => ∑ i : Fin n, (x 0 i * (if orb false i ∈ S then 1 else 0) + x 1 i * (if orb true i ∈ S then 1 else 0))

theorem shiftLevels_ham (a : HamArgs) (x : ℕ → ℕ → ℝ) (t : ℝ) : ((shiftLevels a x t).ham : Matrix (Finset (Fin (a.n + a.n))) (Finset (Fin (a.n + a.n))) ℝ) = a.ham + t • shiftOp (n := a.n) x := by
  have h := hamH_levels (a := a) (H := (shiftLevels a x t).H) fun s _ i _ j _ hij => by simp [shiftLevels, hij]
  refine h.trans ?_
  congr 1
  rw [shiftOp, ← Matrix.diagonal_smul]
  congr 1
  funext S
  rw [Pi.smul_apply, smul_eq_mul, Finset.mul_sum]
  refine Finset.sum_congr rfl fun i _ => ?_
  simp only [shiftLevels, if_true, add_sub_cancel_left]
  ring

/-- **C160** (levels) Along any simultaneous shift of the levels the free energy of the spectrum is concave and differentiable, and its derivative is the sum over sites and
spins of the shift times the occupation that `get_occupation` reports. -/
theorem C160_levels (ha : a.Valid) (hw : a.n ≤ w) (hb : 0 < beta) (x : ℕ → ℕ → ℝ) {es : ℝ → Espace (ℕ × ℕ)} {U D : ℝ → ℕ → ℝ}
    (h : ∀ t, OccRun w (shiftLevels a x t) beta (es t) (U t) (D t)) :
    (∀ t, HasDerivAt (fun t => freeEnergy beta (es t)) (∑ i ∈ Finset.range a.n, (x 0 i * U t i + x 1 i * D t i)) t) ∧ ConcaveOn ℝ Set.univ fun t => freeEnergy beta (es t) := by
  have he : ∀ t, EigenEspace a.n (a.ham + t • shiftOp (n := a.n) x) (es t) ∧ ∀ k : Fin a.n,
      (U t k : ℂ) = thermalOcc beta (a.ham + t • shiftOp (n := a.n) x) false k ∧ (D t k : ℂ) = thermalOcc beta (a.ham + t • shiftOp (n := a.n) x) true k := by
    intro t
    rw [← shiftLevels_ham]
    exact OccRun.eigen (a := shiftLevels a x t) (shiftLevels_valid ha x t) hw (h t)
  have hAB : ∀ s t : ℝ, (a.ham + s • shiftOp (n := a.n) x) - (a.ham + t • shiftOp (n := a.n) x) = (s - t) • shiftOp (n := a.n) x := fun s t => by
    rw [add_sub_add_left_eq_sub, sub_smul]
  have eF : (fun t => freeEnergy beta (es t)) = fun t => -Real.log (∑ k, Real.exp (-beta * esVal a.n (es t) k)) / beta := funext fun t => freeEnergy_eq (he t).1.toCompleteEspace beta
  rw [eF]
  refine ⟨fun t => ?_, line_concave hb hAB fun t => (he t).1.basis⟩
  refine (line_deriv hb hAB (fun t => (he t).1.basis) t).congr_deriv ?_
  rw [avgOf, shiftOp, thermal_work (he t).1 (he t).2 (fun i => x 0 i) fun i => x 1 i]
  exact (Finset.sum_range fun i => x 0 i * U t i + x 1 i * D t i).symm

/-- **C160** (one level) The derivative of the free energy with respect to one level is the occupation of that level. -/
theorem C160_level (ha : a.Valid) (hw : a.n ≤ w) (hb : 0 < beta) {k σ : ℕ} (hk : k < a.n) (hσ : σ < 2) {es : ℝ → Espace (ℕ × ℕ)} {U D : ℝ → ℕ → ℝ}
    (h : ∀ t, OccRun w { a with H := fun s i j => a.H s i j + if s = σ ∧ i = k ∧ j = k then t else 0 } beta (es t) (U t) (D t)) (t : ℝ) :
    HasDerivAt (fun t => freeEnergy beta (es t)) (if σ = 0 then U t k else D t k) t := by
  have e : ∀ t, ({ a with H := fun s i j => a.H s i j + if s = σ ∧ i = k ∧ j = k then t else 0 } : HamArgs) = shiftLevels a (fun s i => if s = σ ∧ i = k then 1 else 0) t := by
    intro t
    unfold shiftLevels
    congr 1
    funext s i j
    congr 1
    by_cases hij : i = j
    · subst hij
      simp
    · rw [if_neg (by rintro ⟨-, rfl, rfl⟩; exact hij rfl), if_neg hij]
  have := (C160_levels ha hw hb (fun s i => if s = σ ∧ i = k then 1 else 0) (fun t => e t ▸ h t)).1 t
  refine this.congr_deriv ?_
  rw [Finset.sum_eq_single k (fun i _ hik => by simp [hik]) (fun hn => absurd (Finset.mem_range.mpr hk) hn)]
  interval_cases σ <;> simp

/-- **C160** (chemical potential) `mu` is added to every level: the derivative of the free energy with respect to `mu` is the total number of electrons. -/
theorem C160_mu (ha : a.Valid) (hw : a.n ≤ w) (hb : 0 < beta) {es : ℝ → Espace (ℕ × ℕ)} {U D : ℝ → ℕ → ℝ} (h : ∀ mu, OccRun w { a with mu := mu } beta (es mu) (U mu) (D mu)) :
    (∀ mu, HasDerivAt (fun mu => freeEnergy beta (es mu)) (∑ i ∈ Finset.range a.n, (U mu i + D mu i)) mu) ∧ ConcaveOn ℝ Set.univ fun mu => freeEnergy beta (es mu) := by
  have he : ∀ t, EigenEspace a.n (a.hamH a.H t) (es t) ∧ ∀ k : Fin a.n,
      (U t k : ℂ) = thermalOcc beta (a.hamH a.H t) false k ∧ (D t k : ℂ) = thermalOcc beta (a.hamH a.H t) true k := fun t =>
    OccRun.eigen (a := { a with mu := t }) (withMu_valid ha t) hw (h t)
  have hAB : ∀ s t : ℝ, a.hamH a.H s - a.hamH a.H t = (s - t) • Matrix.diagonal (numE (n := a.n)) := fun s t => by
    rw [hamH_mu, hamH_mu, add_sub_add_left_eq_sub, ← sub_smul]
    congr 1
    ring
  have eF : (fun t => freeEnergy beta (es t)) = fun t => -Real.log (∑ k, Real.exp (-beta * esVal a.n (es t) k)) / beta := funext fun t => freeEnergy_eq (he t).1.toCompleteEspace beta
  rw [eF]
  refine ⟨fun t => ?_, line_concave hb hAB fun t => (he t).1.basis⟩
  refine (line_deriv hb hAB (fun t => (he t).1.basis) t).congr_deriv ?_
  have hN : Matrix.diagonal (numE (n := a.n)) = Matrix.diagonal fun S => ∑ i : Fin a.n, ((1 : ℝ) * (if orb false i ∈ S then 1 else 0) + 1 * (if orb true i ∈ S then 1 else 0)) := by
    congr 1
    funext S
    rw [numE, Fintype.sum_bool, add_comm, ← Finset.sum_add_distrib]
    simp
  rw [avgOf, hN, thermal_work (he t).1 (he t).2 (fun _ => 1) fun _ => 1]
  simp only [one_mul]
  exact (Finset.sum_range fun i => U t i + D t i).symm

/-- The difference of the Hamiltonians with two values of the on-site interaction of a site. -/
theorem shiftU_ham_sub (a : HamArgs) (V : ℕ → ℕ → ℝ) (k : Fin a.n) (s t : ℝ) :
    (a.hamU fun i j => V i j + if i = k ∧ j = k then s else 0) - (a.hamU fun i j => V i j + if i = k ∧ j = k then t else 0) = (s - t) • doubleOcc a.hf k := by
  have hdiag : doubleOcc a.hf k = Matrix.diagonal fun S => ((if orb false k ∈ S then 1 else 0) - (if a.hf then 1 / 2 else 0)) * ((if orb true k ∈ S then 1 else 0) - (if a.hf then 1 / 2 else 0) : ℝ) := by
    rw [doubleOcc, num_diagonal, num_diagonal, ← Matrix.diagonal_one, ← Matrix.diagonal_smul, Matrix.diagonal_sub, Matrix.diagonal_sub, Matrix.diagonal_mul_diagonal]
    simp
  rw [withU_ham, withU_ham, add_sub_add_left_eq_sub, Matrix.diagonal_sub, hdiag, ← Matrix.diagonal_smul]
  congr 1
  funext S
  unfold interE onsiteVal interVal
  have e2 : ∀ t : ℝ, ∀ i j : Fin a.n, (if i ≠ j then V i j + (if (i : ℕ) = k ∧ (j : ℕ) = k then t else 0) else 0) = if i ≠ j then V i j else 0 := fun t i j => by
    by_cases hij : i = j
    · simp [hij]
    · rw [if_pos hij, if_pos hij, if_neg (fun hc => hij (Fin.ext (hc.1.trans hc.2.symm))), add_zero]
  simp only [e2]
  rw [add_sub_add_right_eq_sub, ← Finset.sum_sub_distrib, Finset.sum_eq_single k]
  · simp only [and_self, if_true, Pi.smul_apply, smul_eq_mul]
    ring
  · intro i _ hik
    have : ¬ (i : ℕ) = k := fun hc => hik (Fin.ext hc)
    simp [this]
  · simp

/-- **C160** (interaction) The free energy is concave in the on-site interaction of a site, and its derivative is the thermal average of the double occupancy
`(n_up - c)(n_dw - c)` of the site. -/
theorem C160_interaction (ha : a.Valid) (hw : a.n ≤ w) (hb : 0 < beta) {V : ℕ → ℕ → ℝ} (k : Fin a.n) {es : ℝ → Espace (ℕ × ℕ)} {E : ℝ → WithTop ℝ}
    (h : ∀ t, BuildEspace w (shiftU a V k t) none (.ok (es t, E t))) :
    ∃ d : ℝ → ℝ, (∀ t, (d t : ℂ) = thermal beta ((shiftU a V k t).ham : Matrix (Finset (Fin (a.n + a.n))) (Finset (Fin (a.n + a.n))) ℝ) (cplx (doubleOcc a.hf k))) ∧
      (∀ t, HasDerivAt (fun t => freeEnergy beta (es t)) (d t) t) ∧ ConcaveOn ℝ Set.univ fun t => freeEnergy beta (es t) := by
  have he : ∀ t, EigenEspace a.n (a.hamU fun i j => V i j + if i = k ∧ j = k then t else 0) (es t) := fun t =>
    buildEspace_eigen (a := shiftU a V k t) (HamArgs.withU_valid ha _) hw (h t)
  have hAB := shiftU_ham_sub a V k
  have eF : (fun t => freeEnergy beta (es t)) = fun t => -Real.log (∑ k, Real.exp (-beta * esVal a.n (es t) k)) / beta := funext fun t => freeEnergy_eq (he t).toCompleteEspace beta
  rw [eF]
  refine ⟨fun t => avgOf beta (doubleOcc a.hf k) (esKet a.n (es t)) (esVal a.n (es t)), fun t => ?_, fun t => line_deriv hb hAB (fun t => (he t).basis) t, line_concave hb hAB fun t => (he t).basis⟩
  exact ((he t).basis.thermal beta (doubleOcc a.hf k)).symm

/-- The hypotheses are met: runs exist for every shift, for two sites with hopping 1. -/
example (x : ℕ → ℕ → ℝ) : ∃ (es : ℝ → Espace (ℕ × ℕ)) (U D : ℝ → ℕ → ℝ), ∀ t, OccRun 64 (shiftLevels freeArgs x t) 1 (es t) (U t) (D t) := by
  choose es U D h using fun t => OccRun.exists (a := shiftLevels freeArgs x t) (w := 64) (shiftLevels_valid freeArgs_valid x t) (by simp [shiftLevels, freeArgs]) 1
  exact ⟨es, U, D, h⟩

/-- The hypotheses on the interaction and on `mu` are met as well. -/
example (k : ℕ) : (∃ (es : ℝ → Espace (ℕ × ℕ)) (E : ℝ → WithTop ℝ), ∀ t, BuildEspace 64 (shiftU freeArgs (fun _ _ => 3) k t) none (.ok (es t, E t))) ∧
    ∃ (es : ℝ → Espace (ℕ × ℕ)) (U D : ℝ → ℕ → ℝ), ∀ mu, OccRun 64 { freeArgs with mu := mu } 1 (es mu) (U mu) (D mu) := by
  constructor
  · have : ∀ t, ∃ p : Espace (ℕ × ℕ) × WithTop ℝ, BuildEspace 64 (shiftU freeArgs (fun _ _ => 3) k t) none (.ok p) := fun t =>
      (buildEspace_none_ok (HamArgs.withU_valid freeArgs_valid _) (by simp [HamArgs.withU, freeArgs])).1
    choose p hp using this
    exact ⟨fun t => (p t).1, fun t => (p t).2, hp⟩
  · choose es U D h using fun mu => OccRun.exists (a := { freeArgs with mu := mu }) (w := 64) (withMu_valid freeArgs_valid mu) (by simp [freeArgs]) 1
    exact ⟨es, U, D, h⟩

end Edpyt
