import Verif.Props.FreeDeriv
import Verif.Proof.Maxwell
/-!
C205: the responses of the occupations to the levels and to the interaction are reciprocal.
-/
namespace Edpyt
open Spec Matrix

/-! ## Specification -/

/-- The occupations summed with the weights `x`. -/
noncomputable def Spec.weightedOcc (n : ℕ) (x : ℕ → ℕ → ℝ) (U D : ℕ → ℝ) : ℝ := ∑ i ∈ Finset.range n, (x 0 i * U i + x 1 i * D i)

/-- The weights that pick one site and spin. -/
def Spec.oneLevel (σ k : ℕ) : ℕ → ℕ → ℝ := fun s i => if s = σ ∧ i = k then 1 else 0

variable {a : HamArgs} {w : ℕ} {beta : ℝ}

theorem weightedOcc_one {n σ k : ℕ} (hk : k < n) (hσ : σ < 2) (U D : ℕ → ℝ) : weightedOcc n (oneLevel σ k) U D = if σ = 0 then U k else D k := by
  unfold weightedOcc oneLevel
  rw [Finset.sum_eq_single k (fun i _ hik => by simp [hik]) (fun hn => absurd (Finset.mem_range.mpr hk) hn)]
  interval_cases σ <;> simp

theorem weightedOcc_avg {A : Matrix (Finset (Fin (a.n + a.n))) (Finset (Fin (a.n + a.n))) ℝ} {es : Espace (ℕ × ℕ)} (h : EigenEspace a.n A es) {U D : ℕ → ℝ}
    (hU : ∀ k : Fin a.n, (U k : ℂ) = thermalOcc beta A false k ∧ (D k : ℂ) = thermalOcc beta A true k) (x : ℕ → ℕ → ℝ) :
    avgOf beta (shiftOp (n := a.n) x) (esKet a.n es) (esVal a.n es) = weightedOcc a.n x U D := by
  rw [avgOf, shiftOp, thermal_work h hU (fun i => x 0 i) fun i => x 1 i]
  exact (Finset.sum_range fun i => x 0 i * U i + x 1 i * D i).symm

/-- **C205** (levels) Shift the levels by `s` times the weights `x` and `t` times the weights `y`. At every `s` and `t` the occupations that `get_occupation` reports are differentiable. The
change of the occupations summed with the weights `x` under a shift with the weights `y` is the change of the occupations summed with the weights `y` under a shift with
the weights `x`; the direct changes are not positive, and bound the change across. -/
theorem C205_levels (ha : a.Valid) (hw : a.n ≤ w) (hb : 0 < beta) (x y : ℕ → ℕ → ℝ) {es : ℝ → ℝ → Espace (ℕ × ℕ)} {U D : ℝ → ℝ → ℕ → ℝ}
    (h : ∀ s t, OccRun w (shiftLevels (shiftLevels a x s) y t) beta (es s t) (U s t) (D s t)) (s₀ t₀ : ℝ) :
    ∃ χxx χxy χyy : ℝ, HasDerivAt (fun s => weightedOcc a.n x (U s t₀) (D s t₀)) χxx s₀ ∧ HasDerivAt (fun t => weightedOcc a.n x (U s₀ t) (D s₀ t)) χxy t₀ ∧
      HasDerivAt (fun s => weightedOcc a.n y (U s t₀) (D s t₀)) χxy s₀ ∧ HasDerivAt (fun t => weightedOcc a.n y (U s₀ t) (D s₀ t)) χyy t₀ ∧
      χxx ≤ 0 ∧ χyy ≤ 0 ∧ χxy ^ 2 ≤ χxx * χyy := by
  have he : ∀ s t, EigenEspace a.n (a.ham + s • shiftOp (n := a.n) x + t • shiftOp (n := a.n) y) (es s t) ∧ ∀ k : Fin a.n,
      (U s t k : ℂ) = thermalOcc beta (a.ham + s • shiftOp (n := a.n) x + t • shiftOp (n := a.n) y) false k ∧
      (D s t k : ℂ) = thermalOcc beta (a.ham + s • shiftOp (n := a.n) x + t • shiftOp (n := a.n) y) true k := by
    intro s t
    have e : ((shiftLevels (shiftLevels a x s) y t).ham : Matrix (Finset (Fin (a.n + a.n))) (Finset (Fin (a.n + a.n))) ℝ) =
        a.ham + s • shiftOp (n := a.n) x + t • shiftOp (n := a.n) y :=
      (shiftLevels_ham (shiftLevels a x s) y t).trans (congrArg (· + t • shiftOp (n := a.n) y) (shiftLevels_ham a x s))
    rw [← e]
    exact OccRun.eigen (a := shiftLevels (shiftLevels a x s) y t) (shiftLevels_valid (shiftLevels_valid ha x s) y t) hw (h s t)
  have := plane_response hb (fun s t => (he s t).1.basis) s₀ t₀
  simp only [fun s t => weightedOcc_avg (he s t).1 (he s t).2 x, fun s t => weightedOcc_avg (he s t).1 (he s t).2 y] at this
  exact this

/-- **C205** (two levels) The change of the occupation of site `i` and spin `σ` with the level of site `j` and spin `τ` is the change of the occupation of site `j` and spin
`τ` with the level of site `i` and spin `σ`. -/
theorem C205_sites (ha : a.Valid) (hw : a.n ≤ w) (hb : 0 < beta) {σ i τ j : ℕ} (hσ : σ < 2) (hi : i < a.n) (hτ : τ < 2) (hj : j < a.n)
    {es : ℝ → ℝ → Espace (ℕ × ℕ)} {U D : ℝ → ℝ → ℕ → ℝ}
    (h : ∀ s t, OccRun w { a with H := fun r k l => a.H r k l + (if r = σ ∧ k = i ∧ l = i then s else 0) + (if r = τ ∧ k = j ∧ l = j then t else 0) } beta (es s t) (U s t) (D s t)) :
    ∃ χ : ℝ, HasDerivAt (fun t => if σ = 0 then U 0 t i else D 0 t i) χ 0 ∧ HasDerivAt (fun s => if τ = 0 then U s 0 j else D s 0 j) χ 0 := by
  have e : ∀ s t : ℝ, ({ a with H := fun r k l => a.H r k l + (if r = σ ∧ k = i ∧ l = i then s else 0) + (if r = τ ∧ k = j ∧ l = j then t else 0) } : HamArgs) =
      shiftLevels (shiftLevels a (oneLevel σ i) s) (oneLevel τ j) t := by
    have one : ∀ (σ i r k l : ℕ) (s : ℝ), (if r = σ ∧ k = i ∧ l = i then s else 0) = if k = l then s * oneLevel σ i r k else 0 := by
      intro σ i r k l s
      unfold oneLevel
      by_cases hkl : k = l
      · subst hkl
        simp
      · rw [if_neg (by rintro ⟨-, rfl, rfl⟩; exact hkl rfl), if_neg hkl]
    intro s t
    unfold shiftLevels
    congr 1
    funext r k l
    rw [one, one]
  obtain ⟨-, χ, -, -, h1, h2, -⟩ := C205_levels ha hw hb (oneLevel σ i) (oneLevel τ j) (fun s t => e s t ▸ h s t) 0 0
  refine ⟨χ, ?_, ?_⟩
  · simpa only [weightedOcc_one hi hσ] using h1
  · simpa only [weightedOcc_one hj hτ] using h2

/-- **C205** (interaction) Raise the levels by `s` times the weights `x` and the on-site interaction of site `k` by `t`. The double occupancy of the site falls with the interaction,
and its change with the levels is the change of the summed occupations with the interaction. -/
theorem C205_interaction (ha : a.Valid) (hw : a.n ≤ w) (hb : 0 < beta) (x : ℕ → ℕ → ℝ) (V : ℕ → ℕ → ℝ) (k : Fin a.n) {es : ℝ → ℝ → Espace (ℕ × ℕ)} {U D : ℝ → ℝ → ℕ → ℝ}
    (h : ∀ s t, OccRun w (shiftLevels (shiftU a V k t) x s) beta (es s t) (U s t) (D s t)) :
    ∃ d : ℝ → ℝ → ℝ, (∀ s t, (d s t : ℂ) = thermal beta ((shiftLevels (shiftU a V k t) x s).ham : Matrix (Finset (Fin (a.n + a.n))) (Finset (Fin (a.n + a.n))) ℝ) (cplx (doubleOcc a.hf k))) ∧
      (∀ s t t', t ≤ t' → d s t' ≤ d s t) ∧ ∀ s₀ t₀, ∃ χxx χxd χdd : ℝ,
        HasDerivAt (fun s => weightedOcc a.n x (U s t₀) (D s t₀)) χxx s₀ ∧ HasDerivAt (fun t => weightedOcc a.n x (U s₀ t) (D s₀ t)) χxd t₀ ∧
        HasDerivAt (fun s => d s t₀) χxd s₀ ∧ HasDerivAt (fun t => d s₀ t) χdd t₀ ∧ χxx ≤ 0 ∧ χdd ≤ 0 ∧ χxd ^ 2 ≤ χxx * χdd := by
  set A : Matrix (Finset (Fin (a.n + a.n))) (Finset (Fin (a.n + a.n))) ℝ := a.hamU fun i j => V i j + if i = k ∧ j = k then 0 else 0 with hA
  have e : ∀ s t, ((shiftLevels (shiftU a V k t) x s).ham : Matrix (Finset (Fin (a.n + a.n))) (Finset (Fin (a.n + a.n))) ℝ) =
      A + s • shiftOp (n := a.n) x + t • doubleOcc a.hf k := by
    intro s t
    have h1 : ((shiftLevels (shiftU a V k t) x s).ham : Matrix (Finset (Fin (a.n + a.n))) (Finset (Fin (a.n + a.n))) ℝ) =
        (a.hamU fun i j => V i j + if i = k ∧ j = k then t else 0) + s • shiftOp (n := a.n) x := shiftLevels_ham (shiftU a V k t) x s
    have h2 := shiftU_ham_sub a V k t 0
    rw [sub_zero, sub_eq_iff_eq_add] at h2
    rw [h1, h2]
    abel
  have he : ∀ s t, EigenEspace a.n (A + s • shiftOp (n := a.n) x + t • doubleOcc a.hf k) (es s t) ∧ ∀ i : Fin a.n,
      (U s t i : ℂ) = thermalOcc beta (A + s • shiftOp (n := a.n) x + t • doubleOcc a.hf k) false i ∧
      (D s t i : ℂ) = thermalOcc beta (A + s • shiftOp (n := a.n) x + t • doubleOcc a.hf k) true i := by
    intro s t
    rw [← e]
    exact OccRun.eigen (a := shiftLevels (shiftU a V k t) x s) (shiftLevels_valid (HamArgs.withU_valid ha _) x s) hw (h s t)
  have hpl := plane_response hb fun s t => (he s t).1.basis
  refine ⟨fun s t => avgOf beta (doubleOcc a.hf k) (esKet a.n (es s t)) (esVal a.n (es s t)), fun s t => ?_, fun s t t' htt => ?_, fun s₀ t₀ => ?_⟩
  · rw [e]
    exact ((he s t).1.basis.thermal beta (doubleOcc a.hf k)).symm
  · have hder : ∀ t, ∃ c : ℝ, c ≤ 0 ∧ HasDerivAt (fun t => avgOf beta (doubleOcc a.hf k) (esKet a.n (es s t)) (esVal a.n (es s t))) c t := fun t => by
      obtain ⟨_, _, c, -, -, -, h1, -, h2, -⟩ := hpl s t
      exact ⟨c, h2, h1⟩
    choose c hc hd using hder
    exact antitone_of_deriv_nonpos (fun t => (hd t).differentiableAt) (fun t => (hd t).deriv ▸ hc t) htt
  · have := hpl s₀ t₀
    simp only [fun s t => weightedOcc_avg (he s t).1 (he s t).2 x] at this
    exact this

/-- The hypotheses are met: runs exist for every shift of the levels and of the interaction, for two sites with hopping 1. -/
example (x y : ℕ → ℕ → ℝ) : (∃ (es : ℝ → ℝ → Espace (ℕ × ℕ)) (U D : ℝ → ℝ → ℕ → ℝ), ∀ s t, OccRun 64 (shiftLevels (shiftLevels freeArgs x s) y t) 1 (es s t) (U s t) (D s t)) ∧
    ∃ (es : ℝ → ℝ → Espace (ℕ × ℕ)) (U D : ℝ → ℝ → ℕ → ℝ), ∀ s t, OccRun 64 (shiftLevels (shiftU freeArgs (fun _ _ => 3) 0 t) x s) 1 (es s t) (U s t) (D s t) := by
  constructor
  · choose es U D h using fun s t => OccRun.exists (a := shiftLevels (shiftLevels freeArgs x s) y t) (w := 64) (shiftLevels_valid (shiftLevels_valid freeArgs_valid x s) y t)
      (by simp [shiftLevels, freeArgs]) 1
    exact ⟨es, U, D, h⟩
  · choose es U D h using fun s t => OccRun.exists (a := shiftLevels (shiftU freeArgs (fun _ _ => 3) 0 t) x s) (w := 64)
      (shiftLevels_valid (HamArgs.withU_valid freeArgs_valid _) x s) (by simp [shiftLevels, shiftU, freeArgs]) 1
    exact ⟨es, U, D, h⟩

end Edpyt
