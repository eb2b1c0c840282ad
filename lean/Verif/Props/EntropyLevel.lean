import Verif.Props.Reciprocity
import Verif.Props.Thermo
import Verif.Proof.MaxwellTemp
/-!
C208: the response of the entropy to the levels and to the interaction is the response of the occupations to the temperature.
-/
namespace Edpyt
open Spec Matrix Filter Topology

variable {a : HamArgs} {w : ℕ} {kB : ℝ}

/-! ## Helpers -/

/-- The entropy from `get_entropy` is that of the spectrum less a part that does not depend on the spectrum. -/
theorem entropy_split (kB : ℝ) (w : ℕ) (junk : ℕ → ℕ → ℕ) (fresh : ℕ → ℝ) (ek : List ℝ) (β : ℝ) : ∃ c : ℝ, ∀ (es : Espace (ℕ × ℕ)) (egs S : ℝ), getEntropy kB w junk fresh ek es egs β = .ok S →
    ∃ E Z, entropyParams es egs β = .ok (E, Z) ∧ S = calcEntropy kB Z E (1 / (kB * β)) - c := by
  rcases hb : buildNonInteracting w junk fresh ek with e | bath
  · refine ⟨0, fun es egs S h => ?_⟩
    rw [getEntropy, hb] at h
    cases h
  rcases hp : entropyParams bath.1 (bath.2.untopD 0) β with e | pb
  · refine ⟨0, fun es egs S h => ?_⟩
    rcases hq : entropyParams es egs β with e' | q <;> rw [getEntropy, hb] at h <;> simp only [Bind.bind, Except.bind, hp, hq] at h <;> cases h
  · refine ⟨calcEntropy kB pb.2 pb.1 (1 / (kB * β)), fun es egs S h => ?_⟩
    rcases hq : entropyParams es egs β with e' | q <;> rw [getEntropy, hb] at h <;> simp only [Bind.bind, Except.bind, hp, hq] at h
    · cases h
    · split at h
      · cases h
      · exact ⟨q.1, q.2, rfl, (Except.ok.inj h).symm⟩

theorem entropy_slope (hk : 0 < kB) {n : ℕ} {A X : Matrix (Finset (Fin (n + n))) (Finset (Fin (n + n))) ℝ} {es : ℝ → Espace (ℕ × ℕ)} (he : ∀ s, EigenEspace n (A + s • X) (es s)) {w' : ℕ}
    {junk : ℕ → ℕ → ℕ} {fresh : ℕ → ℝ} {ek : List ℝ} {egs : ℝ → ℝ} {S : ℝ → ℝ → ℝ}
    (hS : ∀ s T, 0 < T → getEntropy kB w' junk fresh ek (es s) (egs s) (1 / (kB * T)) = .ok (S s T)) :
    ∃ c : ℝ → ℝ, ∀ s T, 0 < T → HasDerivAt (fun T => lineFree kB A X (s, T)) (-(S s T + c T)) T := by
  choose c hc using fun T => entropy_split kB w' junk fresh ek (1 / (kB * T))
  refine ⟨c, fun s T hT => ?_⟩
  have hex : ∀ T, ∃ E Z, 0 < T → entropyParams (es s) (egs s) (1 / (kB * T)) = .ok (E, Z) ∧ S s T = calcEntropy kB Z E T - c T := by
    intro T
    by_cases hT : 0 < T
    · obtain ⟨E, Z, h1, h2⟩ := hc T _ _ _ (hS s T hT)
      have e : 1 / (kB * (1 / (kB * T))) = T := by
        have := hT.ne'
        have := hk.ne'
        field_simp
      rw [e] at h2
      exact ⟨E, Z, fun _ => ⟨h1, h2⟩⟩
    · exact ⟨0, 0, fun h => absurd h hT⟩
  choose E Z hEZ using hex
  have hpart : ∀ T, 0 < T → Z T = Real.exp (1 / (kB * T) * egs s) * ∑ k, Real.exp (-(1 / (kB * T)) * esVal n (es s) k) := by
    intro T hT
    have := (hEZ T hT).1
    rw [entropyParams] at this
    split at this
    · cases this
    · have h2 := (Prod.mk.inj (Except.ok.inj this)).2
      rw [entropy_loop] at h2
      rw [← h2, ← partition_eq (he s).toCompleteEspace]
      simp only [zero_add, partition]
      rw [List.map_flatMap, List.flatMap_def, List.sum_flatten, List.map_map]
      congr 2
      funext p
      simp only [Function.comp, neg_mul]
  have hne : ((es s).flatMap fun p => p.2.eigvals) ≠ [] := by
    intro hnil
    have h0 : Z T = 0 := by
      have := (hEZ T hT).1
      rw [entropyParams] at this
      split at this
      · cases this
      · have h2 := (Prod.mk.inj (Except.ok.inj this)).2
        rw [entropy_loop, hnil] at h2
        rw [← h2]
        simp
    rw [hpart T hT] at h0
    exact (mul_pos (Real.exp_pos _) (Finset.sum_pos (fun k _ => Real.exp_pos _) Finset.univ_nonempty)).ne' h0
  have hd := C159_free_energy (es s) hne hk (fun T hT => (hEZ T hT).1) hT
  have e : calcEntropy kB (Z T) (E T) T = S s T + c T := by rw [(hEZ T hT).2]; ring
  rw [e] at hd
  refine hd.congr_of_eventuallyEq ?_
  filter_upwards [lt_mem_nhds hT] with t ht
  rw [lineFree_eq (fun s => (he s).basis), hpart t ht, Real.log_mul (Real.exp_pos _).ne' (Finset.sum_pos (fun k _ => Real.exp_pos _) Finset.univ_nonempty).ne', Real.log_exp]
  have := ht.ne'
  have := hk.ne'
  field_simp
  ring

/-! ## C208 -/

/-- **C208** (levels) Shift the levels by `s` times the weights `x`. The impurity entropy that `get_entropy` reports is differentiable in `s`, the occupations that `get_occupation`
reports are differentiable in the temperature, and the change of the entropy with `s` is minus the change of the occupations summed with the weights `x` with the
temperature. -/
theorem C208_levels (ha : a.Valid) (hw : a.n ≤ w) (hk : 0 < kB) (x : ℕ → ℕ → ℝ) {es : ℝ → Espace (ℕ × ℕ)} {U D : ℝ → ℝ → ℕ → ℝ}
    (h : ∀ s T, 0 < T → OccRun w (shiftLevels a x s) (1 / (kB * T)) (es s) (U s T) (D s T)) {w' : ℕ} {junk : ℕ → ℕ → ℕ} {fresh : ℕ → ℝ} {ek : List ℝ} {egs : ℝ → ℝ} {S : ℝ → ℝ → ℝ}
    (hS : ∀ s T, 0 < T → getEntropy kB w' junk fresh ek (es s) (egs s) (1 / (kB * T)) = .ok (S s T)) (s₀ : ℝ) {T₀ : ℝ} (hT : 0 < T₀) :
    ∃ c : ℝ, HasDerivAt (fun s => S s T₀) c s₀ ∧ HasDerivAt (fun T => weightedOcc a.n x (U s₀ T) (D s₀ T)) (-c) T₀ := by
  have he : ∀ s T, 0 < T → EigenEspace a.n (a.ham + s • shiftOp (n := a.n) x) (es s) ∧ ∀ k : Fin a.n,
      (U s T k : ℂ) = thermalOcc (1 / (kB * T)) (a.ham + s • shiftOp (n := a.n) x) false k ∧
      (D s T k : ℂ) = thermalOcc (1 / (kB * T)) (a.ham + s • shiftOp (n := a.n) x) true k := by
    intro s T hT
    rw [← shiftLevels_ham]
    exact OccRun.eigen (a := shiftLevels a x s) (shiftLevels_valid ha x s) hw (h s T hT)
  have he' := fun s => (he s 1 one_pos).1
  obtain ⟨c, hc⟩ := entropy_slope hk he' hS
  obtain ⟨q, h1, h2⟩ := maxwell_temp hk (fun s => (he' s).basis) hc s₀ hT
  refine ⟨q, ?_, ?_⟩
  · simpa using h1.sub_const (c T₀)
  · refine h2.congr_of_eventuallyEq ?_
    filter_upwards [lt_mem_nhds hT] with T hT
    exact (weightedOcc_avg (he s₀ T hT).1 (he s₀ T hT).2 x).symm

/-- **C208** (one level) The change of the entropy with the level of a site and spin is minus the change of its occupation with the temperature. -/
theorem C208_level (ha : a.Valid) (hw : a.n ≤ w) (hk : 0 < kB) {σ i : ℕ} (hσ : σ < 2) (hi : i < a.n) {es : ℝ → Espace (ℕ × ℕ)} {U D : ℝ → ℝ → ℕ → ℝ}
    (h : ∀ s T, 0 < T → OccRun w { a with H := fun r k l => a.H r k l + if r = σ ∧ k = i ∧ l = i then s else 0 } (1 / (kB * T)) (es s) (U s T) (D s T)) {w' : ℕ} {junk : ℕ → ℕ → ℕ}
    {fresh : ℕ → ℝ} {ek : List ℝ} {egs : ℝ → ℝ} {S : ℝ → ℝ → ℝ} (hS : ∀ s T, 0 < T → getEntropy kB w' junk fresh ek (es s) (egs s) (1 / (kB * T)) = .ok (S s T)) {T₀ : ℝ} (hT : 0 < T₀) :
    ∃ c : ℝ, HasDerivAt (fun s => S s T₀) c 0 ∧ HasDerivAt (fun T => if σ = 0 then U 0 T i else D 0 T i) (-c) T₀ := by
  have e : ∀ s : ℝ, ({ a with H := fun r k l => a.H r k l + if r = σ ∧ k = i ∧ l = i then s else 0 } : HamArgs) = shiftLevels a (oneLevel σ i) s := by
    intro s
    unfold shiftLevels
    congr 1
    funext r k l
    congr 1
    unfold oneLevel
    by_cases hkl : k = l
    · subst hkl
      simp
    · rw [if_neg (by rintro ⟨-, rfl, rfl⟩; exact hkl rfl), if_neg hkl]
  obtain ⟨c, h1, h2⟩ := C208_levels ha hw hk (oneLevel σ i) (fun s T hT => e s ▸ h s T hT) hS 0 hT
  exact ⟨c, h1, by simpa only [weightedOcc_one hi hσ] using h2⟩

/-- **C208** (interaction) Raise the on-site interaction of site `k` by `s`. The change of the entropy with `s` is minus the change of the double occupancy of the site with the
temperature: where the double occupancy falls on heating, a stronger interaction raises the entropy. -/
theorem C208_interaction (ha : a.Valid) (hw : a.n ≤ w) (hk : 0 < kB) (V : ℕ → ℕ → ℝ) (k : Fin a.n) {es : ℝ → Espace (ℕ × ℕ)} {E : ℝ → WithTop ℝ}
    (h : ∀ s, BuildEspace w (shiftU a V k s) none (.ok (es s, E s))) {w' : ℕ} {junk : ℕ → ℕ → ℕ} {fresh : ℕ → ℝ} {ek : List ℝ} {egs : ℝ → ℝ} {S : ℝ → ℝ → ℝ}
    (hS : ∀ s T, 0 < T → getEntropy kB w' junk fresh ek (es s) (egs s) (1 / (kB * T)) = .ok (S s T)) :
    ∃ d : ℝ → ℝ → ℝ, (∀ s T, (d s T : ℂ) = thermal (1 / (kB * T)) ((shiftU a V k s).ham : Matrix (Finset (Fin (a.n + a.n))) (Finset (Fin (a.n + a.n))) ℝ) (cplx (doubleOcc a.hf k))) ∧
      ∀ s₀ T₀, 0 < T₀ → ∃ c : ℝ, HasDerivAt (fun s => S s T₀) c s₀ ∧ HasDerivAt (fun T => d s₀ T) (-c) T₀ := by
  set A : Matrix (Finset (Fin (a.n + a.n))) (Finset (Fin (a.n + a.n))) ℝ := a.hamU fun i j => V i j + if i = k ∧ j = k then 0 else 0 with hA
  have e : ∀ s, ((shiftU a V k s).ham : Matrix (Finset (Fin (a.n + a.n))) (Finset (Fin (a.n + a.n))) ℝ) = A + s • doubleOcc a.hf k := by
    intro s
    have h2 := shiftU_ham_sub a V k s 0
    rw [sub_zero, sub_eq_iff_eq_add] at h2
    exact h2.trans (add_comm _ _)
  have he : ∀ s, EigenEspace a.n (A + s • doubleOcc a.hf k) (es s) := by
    intro s
    rw [← e]
    exact buildEspace_eigen (a := shiftU a V k s) (HamArgs.withU_valid ha _) hw (h s)
  obtain ⟨c, hc⟩ := entropy_slope hk he hS
  refine ⟨fun s T => avgOf (1 / (kB * T)) (doubleOcc a.hf k) (esKet a.n (es s)) (esVal a.n (es s)), fun s T => ?_, fun s₀ T₀ hT => ?_⟩
  · rw [e]
    exact ((he s).basis.thermal _ (doubleOcc a.hf k)).symm
  · obtain ⟨q, h1, h2⟩ := maxwell_temp hk (fun s => (he s).basis) hc s₀ hT
    exact ⟨q, by simpa using h1.sub_const (c T₀), h2⟩

/-- The hypotheses are met: for two sites with hopping 1 there are spectra, occupations and entropies for all shifts of the levels and all temperatures. -/
example (x : ℕ → ℕ → ℝ) (junk : ℕ → ℕ → ℕ) (fresh : ℕ → ℝ) : ∃ (es : ℝ → Espace (ℕ × ℕ)) (U D : ℝ → ℝ → ℕ → ℝ) (S : ℝ → ℝ → ℝ),
    (∀ s T, 0 < T → OccRun 64 (shiftLevels freeArgs x s) (1 / (1 * T)) (es s) (U s T) (D s T)) ∧
    ∀ s T, 0 < T → getEntropy 1 64 junk fresh [1] (es s) 0 (1 / (1 * T)) = .ok (S s T) := by
  have hv := fun s => shiftLevels_valid freeArgs_valid x s
  have hw : ∀ s, (shiftLevels freeArgs x s).n ≤ 64 := fun s => by simp [shiftLevels, freeArgs]
  choose p hp using fun s => (buildEspace_none_ok (w := 64) (hv s) (hw s)).1
  have hview : ∀ s, List.Forall₂ OccView (p s).1 ((p s).1.map fun q => OccSct.ofSct q.2) := fun s => by
    rw [List.forall₂_map_right_iff]
    exact List.forall₂_same.mpr fun q _ => OccSct.ofSct_view q
  choose U D As ho _ using fun s (T : ℝ) => C101_get_occupation (buildEspace_eigen (hv s) (hw s) (hp s)) (hview s) 0 (1 / (1 * T))
  have hS : ∀ s T, ∃ S, 0 < T → getEntropy 1 64 junk fresh [1] (p s).1 0 (1 / (1 * T)) = .ok S := fun s T =>
    ⟨_, fun hT => C64_impurity_entropy 1 (1 / (1 * T)) 0 (by positivity) 64 junk fresh [1] (by simp) (by simp) (p s).1 (flat_ne (hv s) (hw s) (hp s)).1⟩
  choose S hS using hS
  exact ⟨fun s => (p s).1, U, D, S, fun s T _ => ⟨(p s).2, _, 0, As s T, hp s, hview s, ho s T⟩, hS⟩

end Edpyt
