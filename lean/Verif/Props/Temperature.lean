import Verif.Props.Response
import Verif.Props.ThermalGf
import Verif.Proof.ColdLimit
/-!
# C152: the results as functions of the temperature
-/
namespace Edpyt
open Spec Matrix Filter Topology

/-! ## Specification -/

/-- `f beta` is the occupation of site `k` with spin `s` (`true` = down) that `get_occupation` returns at the inverse temperature `beta` after
`build_espace`. -/
def Spec.OccOf (w : ℕ) (a : HamArgs) (s : Bool) (k : ℕ) (f : ℝ → ℝ) : Prop :=
  ∀ beta, ∃ es U D, OccRun w a beta es U D ∧ f beta = if s then D k else U k

/-- `g beta` is the Green function between sites `i` and `j` that `build_gf2_exact` gives at the inverse temperature `beta`, at `e + i eta`. -/
def Spec.Gf2Of (w : ℕ) (a : HamArgs) (s : Bool) (i j : Fin a.n) (e eta : ℝ) (g : ℝ → ℂ) : Prop :=
  ∀ beta, ∃ es E junk egs G, BuildEspace w a none (.ok (es, E)) ∧ buildGf2Exact junk a.n es beta egs s = .ok G ∧ g beta = (G i j).call e eta

/-- `g beta` is the Green function of site `pos` that `build_gf_exact` gives at the inverse temperature `beta`, at `e + i eta`. -/
def Spec.GfOf (w : ℕ) (a : HamArgs) (pos : ℕ) (e eta : ℝ) (g : ℝ → ℂ) : Prop :=
  ∀ beta, ∃ es E junk egs G, BuildEspace w a none (.ok (es, E)) ∧ buildGfExact junk a.n es beta egs pos false = .ok G ∧ g beta = G.call e eta

variable {a : HamArgs} {w : ℕ} {es : Espace (ℕ × ℕ)} {E0 : ℝ}

/-! ## Helpers -/

theorem fock_card (n : ℕ) : Fintype.card (Finset (Fin (n + n))) = 4 ^ n := by
  rw [Fintype.card_finset, Fintype.card_fin, ← two_mul, pow_mul]
  norm_num

theorem esVal_mem {n : ℕ} {H : Matrix (Finset (Fin (n + n))) (Finset (Fin (n + n))) ℝ} (h : EigenEspace n H es) (k : EigIdx n) : ∃ p ∈ es, esVal n es k ∈ p.2.eigvals := by
  obtain ⟨up, dw, hm, -, -, -, -, hlen⟩ := h.toCompleteEspace.at (u := k.1.1) (d := k.1.2) (by have := k.1.1.2; omega) (by have := k.1.2.2; omega)
  refine ⟨_, hm, ?_⟩
  unfold esVal
  have hk := k.2.2
  rw [List.getElem?_eq_getElem (by rw [hlen]; exact hk), Option.getD_some]
  exact List.getElem_mem _

theorem esVal_least (ha : a.Valid) (hw : a.n ≤ w) (h : BuildEspace w a none (.ok (es, ((E0 : ℝ) : WithTop ℝ)))) {κ : Type} [Fintype κ] [DecidableEq κ]
    {u : κ → Finset (Fin (a.n + a.n)) → ℝ} {E : κ → ℝ} (hB : EigBasis a.ham u E) : IsLeast (Set.range E) E0 := by
  obtain ⟨h1, x, hx1, hx⟩ := C127_variational ha hw h
  constructor
  · by_contra hcon
    have h0 : ∀ k, u k ⬝ᵥ x = 0 := fun k => by
      have : E k * (u k ⬝ᵥ x) = E0 * (u k ⬝ᵥ x) := by
        have e := congrArg (fun y => u k ⬝ᵥ y) hx
        simp only [dotProduct_smul, smul_eq_mul] at e
        rw [← e, hB.apply, hB.coord fun j => E j * (u j ⬝ᵥ x)]
      by_contra hne
      exact hcon ⟨k, mul_right_cancel₀ hne this⟩
    have := hB.expand x
    simp only [h0, zero_smul, Finset.sum_const_zero] at this
    rw [← this] at hx1
    simp at hx1
  · rintro _ ⟨k, rfl⟩
    have := h1 (u k)
    rw [hB.eig, dotProduct_smul, hB.orth, if_pos rfl] at this
    simpa using this

/-- The eigenbasis of the Hamiltonian as a matrix. -/
theorem exists_diag (ha : a.Valid) (hw : a.n ≤ w) (h : BuildEspace w a none (.ok (es, ((E0 : ℝ) : WithTop ℝ)))) : ∃ U E, Diag a.ham U E ∧ IsLeast (Set.range E) E0 ∧
    ∀ i, ∃ p ∈ es, E i ∈ p.2.eigvals := by
  have hE := buildEspace_eigen ha hw h
  let e : Finset (Fin (a.n + a.n)) ≃ EigIdx a.n := Fintype.equivOfCardEq hE.basis.card.symm
  have hd := hE.basis.diag e
  refine ⟨_, _, hd, ?_, fun i => esVal_mem hE (e i)⟩
  have hr : (Set.range fun i => esVal a.n es (e i)) = Set.range (esVal a.n es) := e.surjective.range_comp (esVal a.n es)
  rw [hr]
  exact esVal_least ha hw h hE.basis

/-- A ground state projector exists. -/
theorem exists_levelProj (ha : a.Valid) (hw : a.n ≤ w) (h : BuildEspace w a none (.ok (es, ((E0 : ℝ) : WithTop ℝ)))) : ∃ P, LevelProj a.ham E0 P := by
  obtain ⟨U, E, hd, -⟩ := exists_diag ha hw h
  exact ⟨_, hd.levelProj E0⟩

theorem Spec.OccOf.eq (ha : a.Valid) (hw : a.n ≤ w) {s : Bool} {k : ℕ} (hk : k < a.n) {f : ℝ → ℝ} (hf : OccOf w a s k f) (beta : ℝ) :
    (f beta : ℂ) = Spec.thermal beta a.ham (cplx (num ℝ (orb s ⟨k, hk⟩))) := by
  obtain ⟨es, U, D, hr, he⟩ := hf beta
  obtain ⟨-, hU⟩ := hr.eigen ha hw
  obtain ⟨h1, h2⟩ := hU ⟨k, hk⟩
  rw [he]
  cases s
  · exact h1
  · exact h2

theorem eigElem_num {n : ℕ} {H U : Matrix (Finset (Fin (n + n))) (Finset (Fin (n + n))) ℝ} {E : Finset (Fin (n + n)) → ℝ} (h : Diag H U E) (o : Fin (n + n)) (i : Finset (Fin (n + n))) :
    ‖eigElem U (cplx (num ℝ o)) i - (1 / 2 : ℂ)‖ ≤ 1 / 2 := by
  unfold eigElem
  rw [cplx_elem, num_diagonal]
  have h1 : (fun j => U j i) ⬝ᵥ (fun j => U j i) = 1 := by
    have := congrFun (congrFun h.left i) i
    rw [Matrix.one_apply_eq] at this
    rw [← this]
    rfl
  have e : ((fun j => U j i) ⬝ᵥ (Matrix.diagonal fun S => if o ∈ S then (1 : ℝ) else 0) *ᵥ fun j => U j i) = ∑ S, (if o ∈ S then 1 else 0) * U S i ^ 2 := by
    unfold dotProduct
    refine Finset.sum_congr rfl fun S _ => ?_
    rw [Matrix.mulVec_diagonal]
    ring
  rw [e]
  have h2 : ∑ S, U S i ^ 2 = 1 := by
    rw [← h1]
    exact Finset.sum_congr rfl fun S _ => by ring
  have l : 0 ≤ ∑ S, (if o ∈ S then 1 else 0) * U S i ^ 2 := Finset.sum_nonneg fun S _ => mul_nonneg (by split_ifs <;> norm_num) (sq_nonneg _)
  have u : ∑ S, (if o ∈ S then 1 else 0) * U S i ^ 2 ≤ 1 := by
    refine le_trans (Finset.sum_le_sum fun S _ => ?_) h2.le
    split_ifs
    · rw [one_mul]
    · rw [zero_mul]; exact sq_nonneg _
  have e2 : ((∑ S, (if o ∈ S then 1 else 0) * U S i ^ 2 : ℝ) : ℂ) - 1 / 2 = ((∑ S, (if o ∈ S then 1 else 0) * U S i ^ 2 - 1 / 2 : ℝ) : ℂ) := by push_cast; ring
  rw [e2, Complex.norm_real, Real.norm_eq_abs, abs_le]
  constructor <;> linarith

theorem trace_num {n : ℕ} (o : Fin (n + n)) : trace (num ℝ o) = 4 ^ n / 2 := by
  have h := congrArg trace (ann_cre_anticomm (R := ℝ) o o)
  rw [Matrix.trace_add, Matrix.trace_mul_comm (ann ℝ o)] at h
  have h1 : trace (num ℝ o) + trace (num ℝ o) = trace (1 : Matrix (Finset (Fin (n + n))) (Finset (Fin (n + n))) ℝ) := by
    unfold num
    rw [h]
    simp
  rw [Matrix.trace_one, fock_card] at h1
  push_cast at h1
  linarith

theorem thermal_green_limit (ha : a.Valid) (hw : a.n ≤ w) (h : BuildEspace w a none (.ok (es, ((E0 : ℝ) : WithTop ℝ)))) {P : Matrix (Finset (Fin (a.n + a.n))) (Finset (Fin (a.n + a.n))) ℝ}
    (hP : LevelProj a.ham E0 P) {A B : Matrix (Finset (Fin (a.n + a.n))) (Finset (Fin (a.n + a.n))) ℝ} {z : ℂ} (hz : z.im ≠ 0) {g : ℝ → ℂ} (hg : ∀ beta, IsGreen beta a.ham A B z (g beta)) :
    Continuous g ∧ ∃ g0, IsLevelGreen P a.ham A B z g0 ∧ Tendsto g atTop (𝓝 g0) ∧
      ∀ Δ, (∀ p ∈ es, ∀ E ∈ p.2.eigvals, E = E0 ∨ E0 + Δ ≤ E) → ∃ C, ∀ beta ≥ 0, ‖g beta - g0‖ ≤ C * Real.exp (-beta * Δ) := by
  obtain ⟨U, E, hd, hl, hm⟩ := exists_diag ha hw h
  obtain ⟨X, hX, -⟩ := hg 0
  have e : ∀ beta, g beta = Spec.thermal beta a.ham (X * cplx B + cplx B * X) := fun beta => by
    have h1 := (hd.green beta A B hz (g beta)).mp (hg beta)
    have h2 := (hd.green beta A B hz _).mp ⟨X, hX, rfl⟩
    rw [h1, h2]
  have eg : g = fun beta => Spec.thermal beta a.ham (X * cplx B + cplx B * X) := funext e
  refine ⟨eg ▸ hd.thermal_continuous _, _, ⟨X, hX, rfl⟩, eg ▸ hd.thermal_cold hP hl _, fun Δ hΔ => ?_⟩
  obtain ⟨C, hC⟩ : ∃ C, ∀ i, ‖eigElem U (X * cplx B + cplx B * X) i - 0‖ ≤ C := ⟨∑ j, ‖eigElem U (X * cplx B + cplx B * X) j - 0‖,
    fun i => Finset.single_le_sum (f := fun j => ‖eigElem U (X * cplx B + cplx B * X) j - 0‖) (fun _ _ => norm_nonneg _) (Finset.mem_univ i)⟩
  refine ⟨2 * C * Fintype.card (Finset (Fin (a.n + a.n))), fun beta hb => ?_⟩
  rw [e]
  refine (hd.thermal_rate (Δ := Δ) hP hl hb (fun i => ?_) _ hC).trans (le_of_eq (by ring))
  obtain ⟨p, hp, hE⟩ := hm i
  exact hΔ p hp _ hE

/-! ## C152 -/

/-- **C152** (occupations) The occupations are continuous functions of the inverse temperature. As the temperature goes to zero they tend to the average
over the ground states, whatever their number, and if no other level lies closer than `Δ` to the ground state the difference is at most
`4^n exp (-beta Δ)`. -/
theorem C152_occupation (ha : a.Valid) (hw : a.n ≤ w) (h : BuildEspace w a none (.ok (es, ((E0 : ℝ) : WithTop ℝ)))) {P : Matrix (Finset (Fin (a.n + a.n))) (Finset (Fin (a.n + a.n))) ℝ}
    (hP : LevelProj a.ham E0 P) {s : Bool} {k : ℕ} (hk : k < a.n) {f : ℝ → ℝ} (hf : OccOf w a s k f) :
    Continuous f ∧ Tendsto (fun beta => (f beta : ℂ)) atTop (𝓝 (levelAvg P (cplx (num ℝ (orb s ⟨k, hk⟩))))) ∧
      ∀ Δ, (∀ p ∈ es, ∀ E ∈ p.2.eigvals, E = E0 ∨ E0 + Δ ≤ E) → ∀ beta ≥ 0, ‖(f beta : ℂ) - levelAvg P (cplx (num ℝ (orb s ⟨k, hk⟩)))‖ ≤ 4 ^ a.n * Real.exp (-beta * Δ) := by
  obtain ⟨U, E, hd, hl, hm⟩ := exists_diag ha hw h
  have e := OccOf.eq ha hw hk hf
  have ef : (fun beta => (f beta : ℂ)) = fun beta => Spec.thermal beta a.ham (cplx (num ℝ (orb s ⟨k, hk⟩))) := funext e
  refine ⟨?_, ef ▸ hd.thermal_cold hP hl _, fun Δ hΔ beta hb => ?_⟩
  · have : Continuous fun beta => (f beta : ℂ) := ef ▸ hd.thermal_continuous _
    have := Complex.continuous_re.comp this
    exact this
  · rw [e]
    refine (hd.thermal_rate (Δ := Δ) hP hl hb (fun i => ?_) _ (eigElem_num hd (orb s ⟨k, hk⟩))).trans (le_of_eq ?_)
    · obtain ⟨p, hp, hE⟩ := hm i
      exact hΔ p hp _ hE
    · rw [fock_card]
      push_cast
      ring

/-- **C152** (infinite temperature) At `beta = 0` every site is half filled for every Hamiltonian, and this is the limit of high temperatures. -/
theorem C152_hot (ha : a.Valid) (hw : a.n ≤ w) {s : Bool} {k : ℕ} (hk : k < a.n) {f : ℝ → ℝ} (hf : OccOf w a s k f) : f 0 = 1 / 2 ∧ Tendsto f (𝓝 0) (𝓝 (1 / 2)) := by
  have h0 : f 0 = 1 / 2 := by
    have e := OccOf.eq ha hw hk hf 0
    rw [thermal_zero, fock_card] at e
    have ht : trace (cplx (num ℝ (orb s ⟨k, hk⟩))) = ((trace (num ℝ (orb s (⟨k, hk⟩ : Fin a.n))) : ℝ) : ℂ) := by
      simp [trace, cplx]
    rw [ht, trace_num] at e
    have : (f 0 : ℂ) = ((1 / 2 : ℝ) : ℂ) := by
      rw [e]
      push_cast
      field_simp
    exact_mod_cast this
  refine ⟨h0, ?_⟩
  obtain ⟨⟨es, E⟩, hb⟩ := (buildEspace_none_ok ha hw).1
  obtain ⟨E0, rfl, -⟩ := buildEspace_least ha hw hb
  obtain ⟨P, hP⟩ := exists_levelProj ha hw hb
  have := (C152_occupation ha hw hb hP hk hf).1.tendsto 0
  rwa [h0] at this

/-- **C152** (Green functions) The elements of the matrix of Green functions, and the Green function of a site, are continuous functions of the inverse
temperature at every point off the real axis, and tend to the average over the ground states exponentially fast in the gap. -/
theorem C152_green (ha : a.Valid) (hw : a.n ≤ w) (h : BuildEspace w a none (.ok (es, ((E0 : ℝ) : WithTop ℝ)))) {P : Matrix (Finset (Fin (a.n + a.n))) (Finset (Fin (a.n + a.n))) ℝ}
    (hP : LevelProj a.ham E0 P) {e eta : ℝ} (he : eta ≠ 0) :
    (∀ (s : Bool) (i j : Fin a.n) (g : ℝ → ℂ), Gf2Of w a s i j e eta g → Continuous g ∧ ∃ g0, IsLevelGreen P a.ham (ann ℝ (orb s i)) (cre ℝ (orb s j)) (e + Complex.I * eta) g0 ∧ Tendsto g atTop (𝓝 g0) ∧
      ∀ Δ, (∀ p ∈ es, ∀ E ∈ p.2.eigvals, E = E0 ∨ E0 + Δ ≤ E) → ∃ C, ∀ beta ≥ 0, ‖g beta - g0‖ ≤ C * Real.exp (-beta * Δ)) ∧
    ∀ (pos : Fin a.n) (g : ℝ → ℂ), GfOf w a pos e eta g → Continuous g ∧ ∃ g0, IsLevelGreen P a.ham (ann ℝ (orb false pos)) (cre ℝ (orb false pos)) (e + Complex.I * eta) g0 ∧ Tendsto g atTop (𝓝 g0) ∧
      ∀ Δ, (∀ p ∈ es, ∀ E ∈ p.2.eigvals, E = E0 ∨ E0 + Δ ≤ E) → ∃ C, ∀ beta ≥ 0, ‖g beta - g0‖ ≤ C * Real.exp (-beta * Δ) := by
  have hz : ((e : ℂ) + Complex.I * eta).im ≠ 0 := by simpa using he
  constructor
  · intro s i j g hg
    refine thermal_green_limit ha hw h hP hz fun beta => ?_
    obtain ⟨es1, E1, junk, egs, G, hb, hG, e1⟩ := hg beta
    obtain ⟨G', h1, h2⟩ := C93_gf2_exact (junk := junk) (beta := beta) (egs := egs) ha.le (buildEspace_eigen ha hw hb) s
    rw [hG] at h1
    obtain rfl := Except.ok.inj h1
    exact (h2 i j e eta he _).mpr e1
  · intro pos g hg
    refine thermal_green_limit ha hw h hP hz fun beta => ?_
    obtain ⟨es1, E1, junk, egs, G, hb, hG, e1⟩ := hg beta
    obtain ⟨G', h1, h2⟩ := C92_gf_exact (junk := junk) (beta := beta) (egs := egs) ha.le (buildEspace_eigen ha hw hb) pos.2
    rw [hG] at h1
    obtain rfl := Except.ok.inj h1
    exact (h2 e eta he _).mpr e1

/-- Non-vacuity: for the two-site arguments of `hotImp` all hypotheses hold, with runs for every temperature and a ground state projector. -/
example : ∃ es E0 P f g, BuildEspace 64 hotArgs none (.ok (es, ((E0 : ℝ) : WithTop ℝ))) ∧ LevelProj hotArgs.ham E0 P ∧ OccOf 64 hotArgs true 0 f ∧
    GfOf 64 hotArgs 0 1 (1 / 10) g ∧ f 0 = 1 / 2 := by
  have hw : hotArgs.n ≤ 64 := by have := hotArgs_valid.le; omega
  have h0 : 0 < hotArgs.n := by have := hotArgs_valid.two_le; omega
  obtain ⟨⟨es, E⟩, hb⟩ := (buildEspace_none_ok hotArgs_valid hw).1
  obtain ⟨E0, rfl, -⟩ := buildEspace_least hotArgs_valid hw hb
  obtain ⟨P, hP⟩ := exists_levelProj hotArgs_valid hw hb
  choose fes fU fD hf using fun beta => OccRun.exists hotArgs_valid hw beta
  have hocc : OccOf 64 hotArgs true 0 fun beta => fD beta 0 := fun beta => ⟨_, _, _, hf beta, rfl⟩
  choose G hG _ using fun beta => C92_gf_exact (junk := 0) (beta := beta) (egs := 0) hotArgs_valid.le (buildEspace_eigen hotArgs_valid hw hb) h0
  exact ⟨es, E0, P, _, fun beta => (G beta).call 1 (1 / 10), hb, hP, hocc, fun beta => ⟨es, _, 0, 0, G beta, hb, hG beta, rfl⟩, (C152_hot hotArgs_valid hw h0 hocc).1⟩

end Edpyt
