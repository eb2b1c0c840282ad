import Verif.Props.LevelBound
import Verif.Proof.Levels
import Verif.Props.LevelSymm
/-!
C210: the response of the number of electrons to the chemical potential and of the magnetisation to a field is the fluctuation over the temperature.
-/
namespace Edpyt
open Spec Matrix

/-! ## Specification -/

/-- The Boltzmann average over the eigenvalues of all sectors of a function of the numbers of electrons of the sector. -/
noncomputable def Spec.sectorAvg (beta : ℝ) (es : Espace (ℕ × ℕ)) (f : ℕ → ℕ → ℝ) : ℝ :=
  (es.map fun p => (p.2.eigvals.map fun E => Real.exp (-beta * E) * f p.1.1 p.1.2).sum).sum / (es.map fun p => (p.2.eigvals.map fun E => Real.exp (-beta * E)).sum).sum

/-- The variance of a function of the numbers of electrons. -/
noncomputable def Spec.sectorVar (beta : ℝ) (es : Espace (ℕ × ℕ)) (f : ℕ → ℕ → ℝ) : ℝ := sectorAvg beta es (fun u d => f u d ^ 2) - sectorAvg beta es f ^ 2

variable {a : HamArgs} {w : ℕ} {beta : ℝ}

/-! ## Helpers -/

theorem sector_sum {n : ℕ} {es : Espace (ℕ × ℕ)} (h : CompleteEspace n es) (beta : ℝ) (f : ℕ → ℕ → ℝ) :
    (es.map fun p => (p.2.eigvals.map fun E => Real.exp (-beta * E) * f p.1.1 p.1.2).sum).sum = ∑ x : EigIdx n, Real.exp (-beta * esVal n es x) * f x.1.1 x.1.2 := by
  have h1 := sum_sigma_sectors n (fun q k => Real.exp (-beta * ((sctAt es q).eigvals[k]?.getD 0)) * f q.1 q.2)
  have h2 : (∑ x : EigIdx n, Real.exp (-beta * esVal n es x) * f x.1.1 x.1.2) =
      ∑ a : EigIdx n, Real.exp (-beta * ((sctAt es ((a.1.1 : ℕ), (a.1.2 : ℕ))).eigvals[(a.2 : ℕ)]?.getD 0)) * f a.1.1 a.1.2 := rfl
  rw [h2, h1, ← (h.keys.map _).sum_eq, List.map_map]
  congr 1
  apply List.map_congr_left
  intro p hp
  have hk := mem_ndindex2.mp (h.keys.mem_iff.mp (List.mem_map.mpr ⟨p, hp, rfl⟩))
  obtain ⟨up, dw, hmem, hget, -, -, -, hl⟩ := h.at (u := p.1.1) (d := p.1.2) (by omega) (by omega)
  have hs : sctAt es p.1 = p.2 := by unfold sctAt; rw [dictGet_mem h.nodup (show (p.1, p.2) ∈ es from hp)]
  have hs' : sctAt es (p.1.1, p.1.2) = p.2 := hs
  rw [hs'] at hl
  simp only [Function.comp, hs]
  rw [← hl, ← sum_map_range]
  congr 1
  apply List.ext_getElem
  · simp
  · intro i h3 h4
    simp only [List.length_map] at h3
    simp only [List.getElem_map, List.getElem_range, List.getElem?_eq_getElem h3, Option.getD_some]

theorem sectorAvg_eq {n : ℕ} {es : Espace (ℕ × ℕ)} (h : CompleteEspace n es) (beta : ℝ) (f : ℕ → ℕ → ℝ) :
    sectorAvg beta es f = (∑ x : EigIdx n, Real.exp (-beta * esVal n es x) * f x.1.1 x.1.2) / ∑ x : EigIdx n, Real.exp (-beta * esVal n es x) := by
  have h1 := sector_sum h beta fun _ _ => 1
  simp only [mul_one] at h1
  rw [sectorAvg, sector_sum h, h1]

/-- The operator of a uniform shift of the levels of either spin. -/
theorem shiftOp_ket {n : ℕ} {H : Matrix (Finset (Fin (n + n))) (Finset (Fin (n + n))) ℝ} {es : Espace (ℕ × ℕ)} (h : EigenEspace n H es) (c : ℕ → ℝ) (x : EigIdx n) :
    shiftOp (n := n) (fun s _ => c s) *ᵥ esKet n es x = (c 0 * (x.1.1 : ℕ) + c 1 * (x.1.2 : ℕ)) • esKet n es x := by
  funext S
  rw [shiftOp, Matrix.mulVec_diagonal, Pi.smul_apply, smul_eq_mul]
  by_cases hS : esKet n es x S = 0
  · rw [hS, mul_zero, mul_zero]
  · congr 1
    obtain ⟨h1, h2⟩ := h.support x hS
    rw [spinCount_eq] at h1 h2
    have h1' : (((Finset.univ.filter fun i : Fin n => orb false i ∈ S).card : ℕ) : ℝ) = (x.1.1 : ℕ) := by exact_mod_cast h1
    have h2' : (((Finset.univ.filter fun i : Fin n => orb true i ∈ S).card : ℕ) : ℝ) = (x.1.2 : ℕ) := by exact_mod_cast h2
    rw [Finset.sum_add_distrib, ← Finset.mul_sum, ← Finset.mul_sum, Finset.sum_boole, Finset.sum_boole, h1', h2']

/-- The response to a uniform shift of the levels of either spin. -/
theorem uniform_response {n : ℕ} (hb : 0 < beta) {A : Matrix (Finset (Fin (n + n))) (Finset (Fin (n + n))) ℝ} (c : ℕ → ℝ) {es : ℝ → Espace (ℕ × ℕ)}
    (he : ∀ s, EigenEspace n (A + s • shiftOp (n := n) (fun s _ => c s)) (es s)) :
    (∀ s, avgOf beta (shiftOp (n := n) (fun s _ => c s)) (esKet n (es s)) (esVal n (es s)) = sectorAvg beta (es s) fun u d => c 0 * u + c 1 * d) ∧
    ∀ s₀, HasDerivAt (fun s => avgOf beta (shiftOp (n := n) (fun s _ => c s)) (esKet n (es s)) (esVal n (es s))) (-(beta * sectorVar beta (es s₀) fun u d => c 0 * u + c 1 * d)) s₀ := by
  set X := shiftOp (n := n) (fun s _ => c s) with hX
  have h1 : ∀ s, avgOf beta X (esKet n (es s)) (esVal n (es s)) = sectorAvg beta (es s) fun u d => c 0 * u + c 1 * d := by
    intro s
    rw [sectorAvg_eq (he s).toCompleteEspace, avgOf]
    congr 1
    refine Finset.sum_congr rfl fun x _ => ?_
    rw [shiftOp_ket (he s) c x, dotProduct_smul, (he s).basis.orth x x, if_pos rfl, smul_eq_mul, mul_one]
  have h2 : ∀ s, avgOf beta (X * X) (esKet n (es s)) (esVal n (es s)) = sectorAvg beta (es s) fun u d => (c 0 * u + c 1 * d) ^ 2 := by
    intro s
    rw [sectorAvg_eq (he s).toCompleteEspace, avgOf]
    congr 1
    refine Finset.sum_congr rfl fun x _ => ?_
    rw [← Matrix.mulVec_mulVec, shiftOp_ket (he s) c x, Matrix.mulVec_smul, shiftOp_ket (he s) c x, smul_smul, dotProduct_smul, (he s).basis.orth x x, if_pos rfl, smul_eq_mul, mul_one, pow_two]
  refine ⟨h1, fun s₀ => ?_⟩
  have hc : Commute (A + s₀ • X) X := (he s₀).basis.commute (g := fun x => c 0 * (x.1.1 : ℕ) + c 1 * (x.1.2 : ℕ))
    ⟨(he s₀).basis.card, (he s₀).basis.orth, fun x => shiftOp_ket (he s₀) c x⟩
  have := response_commute hb (fun s => (he s).basis) s₀ hc
  rw [h2 s₀] at this
  rw [sectorVar, ← h1 s₀]
  exact this

/-! ## C210 -/

/-- **C210** (fields) Shift all levels of spin up by `t * c 0` and all levels of spin down by `t * c 1`. The occupations summed with these weights are the Boltzmann average of
`c 0 * nup + c 1 * ndw` over the sectors, and their slope in `t` is minus `beta` times its variance. -/
theorem C210_fields (ha : a.Valid) (hw : a.n ≤ w) (hb : 0 < beta) (c : ℕ → ℝ) {es : ℝ → Espace (ℕ × ℕ)} {U D : ℝ → ℕ → ℝ}
    (h : ∀ t, OccRun w (shiftLevels a (fun s _ => c s) t) beta (es t) (U t) (D t)) (t₀ : ℝ) :
    (∑ i ∈ Finset.range a.n, (c 0 * U t₀ i + c 1 * D t₀ i) = sectorAvg beta (es t₀) fun u d => c 0 * u + c 1 * d) ∧
    HasDerivAt (fun t => ∑ i ∈ Finset.range a.n, (c 0 * U t i + c 1 * D t i)) (-(beta * sectorVar beta (es t₀) fun u d => c 0 * u + c 1 * d)) t₀ := by
  have he : ∀ s, EigenEspace a.n (a.ham + s • shiftOp (n := a.n) (fun s _ => c s)) (es s) ∧ ∀ k : Fin a.n,
      (U s k : ℂ) = thermalOcc beta (a.ham + s • shiftOp (n := a.n) (fun s _ => c s)) false k ∧
      (D s k : ℂ) = thermalOcc beta (a.ham + s • shiftOp (n := a.n) (fun s _ => c s)) true k := by
    intro s
    rw [← shiftLevels_ham]
    exact OccRun.eigen (a := shiftLevels a (fun s _ => c s) s) (shiftLevels_valid ha _ s) hw (h s)
  obtain ⟨h1, h2⟩ := uniform_response hb c fun s => (he s).1
  have e : ∀ s, avgOf beta (shiftOp (n := a.n) (fun s _ => c s)) (esKet a.n (es s)) (esVal a.n (es s)) = ∑ i ∈ Finset.range a.n, (c 0 * U s i + c 1 * D s i) := fun s =>
    weightedOcc_avg (he s).1 (he s).2 fun s _ => c s
  simp only [e] at h1 h2
  exact ⟨h1 t₀, h2 t₀⟩

/-- **C210** (chemical potential) `mu` is added to every level: the slope of the number of electrons in `mu` is minus `beta` times the variance of the number of electrons. -/
theorem C210_mu (ha : a.Valid) (hw : a.n ≤ w) (hb : 0 < beta) {es : ℝ → Espace (ℕ × ℕ)} {U D : ℝ → ℕ → ℝ} (h : ∀ mu, OccRun w { a with mu := mu } beta (es mu) (U mu) (D mu)) (mu₀ : ℝ) :
    (∑ i ∈ Finset.range a.n, (U mu₀ i + D mu₀ i) = sectorAvg beta (es mu₀) fun u d => u + d) ∧
    HasDerivAt (fun mu => ∑ i ∈ Finset.range a.n, (U mu i + D mu i)) (-(beta * sectorVar beta (es mu₀) fun u d => u + d)) mu₀ := by
  have hN : Matrix.diagonal (numE (n := a.n)) = shiftOp (n := a.n) (fun _ _ => (fun _ => 1 : ℕ → ℝ) 0) := by
    rw [shiftOp]
    congr 1
    funext S
    rw [numE, Fintype.sum_bool, add_comm, ← Finset.sum_add_distrib]
    simp
  have he : ∀ t, EigenEspace a.n (a.hamH a.H t) (es t) ∧ ∀ k : Fin a.n,
      (U t k : ℂ) = thermalOcc beta (a.hamH a.H t) false k ∧ (D t k : ℂ) = thermalOcc beta (a.hamH a.H t) true k := fun t =>
    OccRun.eigen (a := { a with mu := t }) (withMu_valid ha t) hw (h t)
  obtain ⟨A, hline⟩ : ∃ A : Matrix (Finset (Fin (a.n + a.n))) (Finset (Fin (a.n + a.n))) ℝ, ∀ t, a.hamH a.H t = A + t • shiftOp (n := a.n) (fun s _ => (fun _ => 1 : ℕ → ℝ) s) :=
    ⟨a.ham + (-a.mu) • Matrix.diagonal (numE (n := a.n)), fun t => by
      rw [hamH_mu a t, hN, add_assoc, ← add_smul]
      congr 2
      ring⟩
  simp only [hline] at he
  obtain ⟨h1, h2⟩ := uniform_response hb (fun _ => 1) fun s => (he s).1
  have e : ∀ s, avgOf beta (shiftOp (n := a.n) (fun s _ => (fun _ => 1 : ℕ → ℝ) s)) (esKet a.n (es s)) (esVal a.n (es s)) = ∑ i ∈ Finset.range a.n, (U s i + D s i) := fun s => by
    rw [weightedOcc_avg (he s).1 (he s).2]
    simp [weightedOcc]
  simp only [e, one_mul] at h1 h2
  exact ⟨h1 mu₀, h2 mu₀⟩

/-- The hypotheses are met: for two sites with hopping 1 there are runs for every field and every `mu`. -/
example (c : ℕ → ℝ) : (∃ (es : ℝ → Espace (ℕ × ℕ)) (U D : ℝ → ℕ → ℝ), ∀ t, OccRun 64 (shiftLevels freeArgs (fun s _ => c s) t) 2 (es t) (U t) (D t)) ∧
    ∃ (es : ℝ → Espace (ℕ × ℕ)) (U D : ℝ → ℕ → ℝ), ∀ mu, OccRun 64 { freeArgs with mu := mu } 2 (es mu) (U mu) (D mu) := by
  constructor
  · choose es U D h using fun t => OccRun.exists (a := shiftLevels freeArgs (fun s _ => c s) t) (w := 64) (shiftLevels_valid freeArgs_valid _ t) (by simp [shiftLevels, freeArgs]) 2
    exact ⟨es, U, D, h⟩
  · choose es U D h using fun mu => OccRun.exists (a := { freeArgs with mu := mu }) (w := 64) (withMu_valid freeArgs_valid mu) (by simp [freeArgs]) 2
    exact ⟨es, U, D, h⟩

end Edpyt
