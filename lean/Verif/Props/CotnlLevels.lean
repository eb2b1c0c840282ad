import Verif.Props.CotnlIntegrate
import Verif.Props.CotnlBalance
import Verif.Props.NChoice
/-!
Property C174: matrices of `cotnl` between levels do not depend on the choice of the eigenvectors.
-/
namespace Edpyt
open Spec Matrix

/-! ## Bases with the same levels -/

section
variable {ι κ K : Type} [Fintype ι] [DecidableEq ι] [Fintype κ] [DecidableEq κ] {H : Matrix ι ι ℝ} {u u' : κ → ι → ℝ} {E E' : κ → ℝ}

theorem level_sumV (h : EigBasis H u E) (h' : EigBasis H u' E') {lev lev' : κ → K} (hl : ∀ x y, u x ⬝ᵥ u' y ≠ 0 → lev x = lev' y) (g : K → ℝ) (v : K → ι → ℝ) :
    ∑ x, g (lev x) * (u x ⬝ᵥ v (lev x)) ^ 2 = ∑ y, g (lev' y) * (u' y ⬝ᵥ v (lev' y)) ^ 2 := by
  have h1 : ∀ x, g (lev x) * (u x ⬝ᵥ v (lev x)) ^ 2 = ∑ y, g (lev' y) * ((u x ⬝ᵥ v (lev' y)) * (u' y ⬝ᵥ v (lev' y)) * (u x ⬝ᵥ u' y)) := by
    intro x
    have e : u x ⬝ᵥ v (lev x) = ∑ y, (u' y ⬝ᵥ v (lev x)) * (u x ⬝ᵥ u' y) := by
      conv_lhs => rw [← h'.expand (v (lev x)), dotProduct_sum]
      exact Finset.sum_congr rfl fun y _ => by rw [dotProduct_smul, smul_eq_mul]
    rw [sq]
    conv_lhs => rw [show g (lev x) * ((u x ⬝ᵥ v (lev x)) * (u x ⬝ᵥ v (lev x))) = (g (lev x) * (u x ⬝ᵥ v (lev x))) * (u x ⬝ᵥ v (lev x)) by ring]; arg 2; rw [e]
    rw [Finset.mul_sum]
    refine Finset.sum_congr rfl fun y _ => ?_
    by_cases hz : u x ⬝ᵥ u' y = 0
    · rw [hz]; ring
    · rw [hl x y hz]; ring
  simp only [h1]
  rw [Finset.sum_comm]
  refine Finset.sum_congr rfl fun y _ => ?_
  have e : u' y ⬝ᵥ v (lev' y) = ∑ x, (u x ⬝ᵥ v (lev' y)) * (u x ⬝ᵥ u' y) := by
    conv_lhs => rw [← h.expand (v (lev' y)), dotProduct_sum]
    exact Finset.sum_congr rfl fun x _ => by rw [dotProduct_smul, smul_eq_mul, dotProduct_comm (u' y)]
  rw [sq]
  conv_rhs => arg 2; arg 1; rw [e]
  rw [Finset.sum_mul, Finset.mul_sum]
  exact Finset.sum_congr rfl fun x _ => by ring

theorem level_sum2V (h : EigBasis H u E) (h' : EigBasis H u' E') {lev lev' : κ → K} (hl : ∀ x y, u x ⬝ᵥ u' y ≠ 0 → lev x = lev' y) (G : K → K → ℝ) (C : K → K → Matrix ι ι ℝ) :
    ∑ x, ∑ y, G (lev x) (lev y) * (u x ⬝ᵥ C (lev x) (lev y) *ᵥ u y) ^ 2 = ∑ x, ∑ y, G (lev' x) (lev' y) * (u' x ⬝ᵥ C (lev' x) (lev' y) *ᵥ u' y) ^ 2 := by
  rw [Finset.sum_comm]
  have h1 : ∀ y, ∑ x, G (lev x) (lev y) * (u x ⬝ᵥ C (lev x) (lev y) *ᵥ u y) ^ 2 = ∑ x, G (lev' x) (lev y) * (u' x ⬝ᵥ C (lev' x) (lev y) *ᵥ u y) ^ 2 :=
    fun y => level_sumV h h' hl (fun k => G k (lev y)) (fun k => C k (lev y) *ᵥ u y)
  simp only [h1]
  rw [Finset.sum_comm]
  refine Finset.sum_congr rfl fun x _ => ?_
  have h2 : ∀ (l : K) (w : ι → ℝ), u' x ⬝ᵥ C (lev' x) l *ᵥ w = w ⬝ᵥ (C (lev' x) l)ᵀ *ᵥ u' x := fun l w => by rw [dotProduct_mulVec, ← mulVec_transpose, dotProduct_comm]
  simp only [h2]
  exact level_sumV h h' hl (fun k => G (lev' x) k) (fun l => (C (lev' x) l)ᵀ *ᵥ u' x)

/-- A function of the levels as an operator. -/
def specOp (u : κ → ι → ℝ) (lev : κ → K) (g : K → ℝ) : Matrix ι ι ℝ := ∑ x, g (lev x) • vecMulVec (u x) (u x)

theorem specOp_form (u : κ → ι → ℝ) (lev : κ → K) (g : K → ℝ) (p q : ι → ℝ) : p ⬝ᵥ specOp u lev g *ᵥ q = ∑ x, g (lev x) * ((u x ⬝ᵥ p) * (u x ⬝ᵥ q)) := by
  unfold specOp
  rw [sum_mulVec, dotProduct_sum]
  refine Finset.sum_congr rfl fun x _ => ?_
  rw [smul_mulVec, dotProduct_smul, smul_eq_mul, vecMulVec_mulVec, dotProduct_smul]
  simp only [MulOpposite.smul_eq_mul_unop, MulOpposite.unop_op]
  rw [dotProduct_comm p]

theorem specOp_indep (h : EigBasis H u E) (h' : EigBasis H u' E') {lev lev' : κ → K} (hl : ∀ x y, u x ⬝ᵥ u' y ≠ 0 → lev x = lev' y) (g : K → ℝ) : specOp u lev g = specOp u' lev' g := by
  have key : ∀ p q : ι → ℝ, p ⬝ᵥ specOp u lev g *ᵥ q = p ⬝ᵥ specOp u' lev' g *ᵥ q := by
    intro p q
    rw [specOp_form, specOp_form]
    have e : ∀ (w : κ → ι → ℝ) (l : κ → K), ∑ x, g (l x) * ((w x ⬝ᵥ p) * (w x ⬝ᵥ q)) =
        (∑ x, g (l x) * (w x ⬝ᵥ (p + q)) ^ 2 - ∑ x, g (l x) * (w x ⬝ᵥ p) ^ 2 - ∑ x, g (l x) * (w x ⬝ᵥ q) ^ 2) / 2 := by
      intro w l
      rw [← Finset.sum_sub_distrib, ← Finset.sum_sub_distrib, Finset.sum_div]
      refine Finset.sum_congr rfl fun x _ => ?_
      rw [dotProduct_add]
      ring
    rw [e, e, level_sum h h' hl, level_sum h h' hl, level_sum h h' hl]
  ext i j
  have := key (Pi.single i 1) (Pi.single j 1)
  simpa using this

end

/-! ## Elements as functions of the levels -/

section
variable {a : HamArgs} {es es1 : Espace ℕ}

/-- The operator between the levels `k` and `l` whose matrix elements are the amplitudes. -/
noncomputable def transOp (n N : ℕ) (es : Espace ℕ) (σ' σ : Bool) (u v : List ℝ) (z : ℝ) (k l : ℤ × ℝ) : Matrix (Finset (Fin (n + n))) (Finset (Fin (n + n))) ℝ :=
  (if (N : ℤ) + 1 < 2 * n then (leadOp n σ' v)ᵀ * specOp (nKet n es) (xLevel n es) (fun m => if m.1 = N + 1 then (m.2 - k.2 - z)⁻¹ else 0) * leadOp n σ u else 0) +
  (if (N : ℤ) - 1 > 0 then leadOp n σ u * specOp (nKet n es) (xLevel n es) (fun m => if m.1 = N - 1 then (l.2 - m.2 - z)⁻¹ else 0) * (leadOp n σ' v)ᵀ else 0)

theorem transOp_indep (h : NRun a es) (h1 : NRun a es1) (N : ℕ) (σ' σ : Bool) (u v : List ℝ) (z : ℝ) (k l : ℤ × ℝ) :
    transOp a.n N es σ' σ u v z k l = transOp a.n N es1 σ' σ u v z k l := by
  unfold transOp
  simp only [specOp_indep h.basis h1.basis (fun x y => xLevel_overlap h h1 x y)]

theorem op_form {ι : Type} [Fintype ι] (A S B : Matrix ι ι ℝ) (p q : ι → ℝ) : p ⬝ᵥ (A * S * B) *ᵥ q = (Aᵀ *ᵥ p) ⬝ᵥ S *ᵥ (B *ᵥ q) := by
  rw [← mulVec_mulVec, ← mulVec_mulVec, dotProduct_mulVec, mulVec_transpose]

theorem up_form (hr : NRun a es) {N : ℕ} (hN : N + 1 < a.n + a.n + 1) {sI sJ : List ℕ} (hI : NSctOk a.n N (nSctAt es N) sI) (hJ : NSctOk a.n (N + 1) (nSctAt es (N + 1)) sJ)
    (f i : Fin ((a.n + a.n).choose N)) (σ' σ : Bool) {u v : List ℝ} (hu : u.length = a.n) (hv : v.length = a.n) (z : ℝ) :
    ampGf u v z (gf2Up a.n sI sJ (nSctAt es N) (nSctAt es (N + 1)) (if σ' then 1 else 0, if σ then 1 else 0) (f, i)) =
      nKet a.n es ⟨⟨N, by omega⟩, f⟩ ⬝ᵥ ((leadOp a.n σ' v)ᵀ * specOp (nKet a.n es) (xLevel a.n es) (fun m => if m.1 = N + 1 then (m.2 - nVal a.n es ⟨⟨N, by omega⟩, f⟩ - z)⁻¹ else 0) *
        leadOp a.n σ u) *ᵥ nKet a.n es ⟨⟨N, by omega⟩, i⟩ := by
  rw [op_form, transpose_transpose, specOp_form, sum_nSector hN, ampGf_up _ _ _ _ _ _ hu hv]
  · obtain ⟨-, -, -, hl⟩ := hr.get (N + 1) (by omega)
    rw [hl, Finset.sum_range]
    refine Finset.sum_congr rfl fun j _ => ?_
    rw [nKet_amp hr hN hI hJ, nKet_amp hr hN hI hJ]
    have hc : (xLevel a.n es ⟨⟨N + 1, hN⟩, j⟩).1 = (N : ℤ) + 1 := by simp [xLevel]
    rw [if_pos hc]
    simp only [xLevel, nVal]
    ring
  · intro x hx
    rw [if_neg, zero_mul]
    intro h
    exact hx (by simp only [xLevel] at h; omega)

theorem down_form (hr : NRun a es) {N : ℕ} (hN : N + 1 < a.n + a.n + 1) {sK sI : List ℕ} (hK : NSctOk a.n N (nSctAt es N) sK) (hI : NSctOk a.n (N + 1) (nSctAt es (N + 1)) sI)
    (f i : Fin ((a.n + a.n).choose (N + 1))) (σ' σ : Bool) {u v : List ℝ} (hu : u.length = a.n) (hv : v.length = a.n) (z : ℝ) :
    ampGf u v z (gf2Down a.n sK sI (nSctAt es N) (nSctAt es (N + 1)) (if σ then 1 else 0, if σ' then 1 else 0) (f, i)) =
      nKet a.n es ⟨⟨N + 1, hN⟩, f⟩ ⬝ᵥ (leadOp a.n σ u * specOp (nKet a.n es) (xLevel a.n es) (fun m => if m.1 = N then (nVal a.n es ⟨⟨N + 1, hN⟩, i⟩ - m.2 - z)⁻¹ else 0) *
        (leadOp a.n σ' v)ᵀ) *ᵥ nKet a.n es ⟨⟨N + 1, hN⟩, i⟩ := by
  rw [op_form, specOp_form, sum_nSector (show N < a.n + a.n + 1 by omega), ampGf_down _ _ _ _ _ _ hu hv]
  · obtain ⟨-, -, -, hl⟩ := hr.get N (by omega)
    rw [hl, Finset.sum_range]
    refine Finset.sum_congr rfl fun j _ => ?_
    have e : ∀ (τ : Bool) (w : List ℝ) (y : Fin ((a.n + a.n).choose (N + 1))), nKet a.n es ⟨⟨N, by omega⟩, j⟩ ⬝ᵥ (leadOp a.n τ w)ᵀ *ᵥ nKet a.n es ⟨⟨N + 1, hN⟩, y⟩ =
        nKet a.n es ⟨⟨N + 1, hN⟩, y⟩ ⬝ᵥ leadOp a.n τ w *ᵥ nKet a.n es ⟨⟨N, by omega⟩, j⟩ := fun τ w y => by
      rw [dotProduct_mulVec, vecMul_transpose, dotProduct_comm]
    rw [e, e, nKet_amp hr hN hK hI, nKet_amp hr hN hK hI]
    have hc : (xLevel a.n es ⟨⟨N, by omega⟩, j⟩).1 = (N : ℤ) := by simp [xLevel]
    rw [if_pos hc]
    simp only [xLevel, nVal]
    ring
  · intro x hx
    rw [if_neg, zero_mul]
    intro h
    exact hx (by simp only [xLevel] at h; omega)

/-- The amplitude of an element is a matrix element of an operator which depends on the levels only. -/
theorem sigma_form (hr : NRun a es) {N : ℕ} (hN : N ≤ a.n + a.n) {sK sI sJ : List ℕ} (hI : NSctOk a.n N (nSctAt es N) sI)
    (hJ : N + 1 ≤ a.n + a.n → NSctOk a.n (N + 1) (nSctAt es (N + 1)) sJ) (hK : NSctOk a.n (N - 1) (nSctAt es (N - 1)) sK)
    (f i : Fin ((a.n + a.n).choose N)) (σ' σ : Bool) {u v : List ℝ} (hu : u.length = a.n) (hv : v.length = a.n) (z : ℝ) :
    ampSigma u v z (sigmaOf a.n sK sI sJ (nSctAt es (N - 1)) (nSctAt es N) (nSctAt es (N + 1)) N (if σ' then 1 else 0, if σ then 1 else 0) (f, i)) =
      nKet a.n es ⟨⟨N, by omega⟩, f⟩ ⬝ᵥ transOp a.n N es σ' σ u v z (xLevel a.n es ⟨⟨N, by omega⟩, f⟩) (xLevel a.n es ⟨⟨N, by omega⟩, i⟩) *ᵥ nKet a.n es ⟨⟨N, by omega⟩, i⟩ := by
  have e1 : (N : ℤ) + 1 < 2 * a.n → ampGf u v z (gf2Up a.n sI sJ (nSctAt es N) (nSctAt es (N + 1)) (if σ' then 1 else 0, if σ then 1 else 0) (f, i)) =
      nKet a.n es ⟨⟨N, by omega⟩, f⟩ ⬝ᵥ ((leadOp a.n σ' v)ᵀ * specOp (nKet a.n es) (xLevel a.n es) (fun m => if m.1 = (N : ℤ) + 1 then (m.2 - nVal a.n es ⟨⟨N, by omega⟩, f⟩ - z)⁻¹ else 0) *
        leadOp a.n σ u) *ᵥ nKet a.n es ⟨⟨N, by omega⟩, i⟩ :=
    fun hc => up_form hr (by omega) hI (hJ (by omega)) f i σ' σ hu hv z
  have e2 : (N : ℤ) - 1 > 0 → ampGf u v z (gf2Down a.n sK sI (nSctAt es (N - 1)) (nSctAt es N) (if σ then 1 else 0, if σ' then 1 else 0) (f, i)) =
      nKet a.n es ⟨⟨N, by omega⟩, f⟩ ⬝ᵥ (leadOp a.n σ u * specOp (nKet a.n es) (xLevel a.n es) (fun m => if m.1 = (N : ℤ) - 1 then (nVal a.n es ⟨⟨N, by omega⟩, i⟩ - m.2 - z)⁻¹ else 0) *
        (leadOp a.n σ' v)ᵀ) *ᵥ nKet a.n es ⟨⟨N, by omega⟩, i⟩ := by
    intro hc
    obtain ⟨M, rfl⟩ : ∃ M, N = M + 1 := ⟨N - 1, by omega⟩
    have e : ((M + 1 : ℕ) : ℤ) - 1 = (M : ℤ) := by push_cast; ring
    rw [e]
    exact down_form hr (by omega) hK hI f i σ' σ hu hv z
  unfold ampSigma sigmaOf transOp
  simp only
  rw [add_mulVec, dotProduct_add, List.map_append, List.sum_append]
  congr 1
  · by_cases c : (N : ℤ) + 1 < 2 * a.n
    · rw [if_pos c, if_pos c, List.map_singleton, List.sum_singleton, e1 c]
      rfl
    · rw [if_neg c, if_neg c]; simp
  · by_cases c : (N : ℤ) - 1 > 0
    · rw [if_pos c, if_pos c, List.map_singleton, List.sum_singleton, e2 c]
      rfl
    · rw [if_neg c, if_neg c]; simp

/-- The weight of a pair of levels of the sector. -/
noncomputable def sctW (N : ℕ) (Φ : ℤ × ℝ → ℤ × ℝ → ℝ) (k l : ℤ × ℝ) : ℝ := if k.1 = N ∧ l.1 = N then Φ k l else 0

/-- The squared amplitudes of a sector, summed with a weight and at an energy that depend on the levels. -/
theorem sigma_sum (hr : NRun a es) {N : ℕ} (hN : N ≤ a.n + a.n) {sK sI sJ : List ℕ} (hI : NSctOk a.n N (nSctAt es N) sI)
    (hJ : N + 1 ≤ a.n + a.n → NSctOk a.n (N + 1) (nSctAt es (N + 1)) sJ) (hK : NSctOk a.n (N - 1) (nSctAt es (N - 1)) sK)
    (σ' σ : Bool) {u v : List ℝ} (hu : u.length = a.n) (hv : v.length = a.n) (Φ : ℤ × ℝ → ℤ × ℝ → ℝ) (z : ℝ → ℝ) :
    ((ndindex2 (nSctAt es N).eigvals.length (nSctAt es N).eigvals.length).map fun fi =>
      Φ (nLevel es ((N : ℤ), fi.1)) (nLevel es ((N : ℤ), fi.2)) * ampSigma u v (z ((nSctAt es N).eigvals[fi.1]?.getD 0 - (nSctAt es N).eigvals[fi.2]?.getD 0))
        (sigmaOf a.n sK sI sJ (nSctAt es (N - 1)) (nSctAt es N) (nSctAt es (N + 1)) N (if σ' then 1 else 0, if σ then 1 else 0) fi) ^ 2).sum =
    ∑ x : NIdx a.n, ∑ y : NIdx a.n, sctW N Φ (xLevel a.n es x) (xLevel a.n es y) *
      (nKet a.n es x ⬝ᵥ transOp a.n N es σ' σ u v (z ((xLevel a.n es x).2 - (xLevel a.n es y).2)) (xLevel a.n es x) (xLevel a.n es y) *ᵥ nKet a.n es y) ^ 2 := by
  obtain ⟨st, hg, -, hl⟩ := hr.get N hN
  rw [ndindex2_sum, hl, Finset.sum_range]
  have hz : ∀ k l : ℤ × ℝ, k.1 ≠ N ∨ l.1 ≠ N → sctW N Φ k l = 0 := by
    intro k l h
    unfold sctW
    rw [if_neg]
    rintro ⟨h1, h2⟩
    rcases h with h | h
    · exact h h1
    · exact h h2
  rw [sum_nSector (show N < a.n + a.n + 1 by omega)]
  · refine Finset.sum_congr rfl fun f _ => ?_
    rw [Finset.sum_range, sum_nSector (show N < a.n + a.n + 1 by omega)]
    · refine Finset.sum_congr rfl fun i _ => ?_
      have e1 := nLevel_x hr (show N < a.n + a.n + 1 by omega) f.2
      have e2 := nLevel_x hr (show N < a.n + a.n + 1 by omega) i.2
      rw [e1, e2, sigma_form hr hN hI hJ hK f i σ' σ hu hv]
      unfold sctW
      rw [if_pos ⟨by simp [xLevel], by simp [xLevel]⟩]
      rfl
    · intro y hy
      rw [hz _ _ (Or.inr fun h => hy (by simp only [xLevel] at h; omega)), zero_mul]
  · intro x hx
    refine Finset.sum_eq_zero fun y _ => ?_
    rw [hz _ _ (Or.inl fun h => hx (by simp only [xLevel] at h; omega)), zero_mul]

/-- The sum is the same for two runs. -/
theorem sigma_level (h : NRun a es) (h1 : NRun a es1) {N : ℕ} (hN : N ≤ a.n + a.n) {sK sI sJ sK1 sI1 sJ1 : List ℕ} (hI : NSctOk a.n N (nSctAt es N) sI)
    (hJ : N + 1 ≤ a.n + a.n → NSctOk a.n (N + 1) (nSctAt es (N + 1)) sJ) (hK : NSctOk a.n (N - 1) (nSctAt es (N - 1)) sK) (hI1 : NSctOk a.n N (nSctAt es1 N) sI1)
    (hJ1 : N + 1 ≤ a.n + a.n → NSctOk a.n (N + 1) (nSctAt es1 (N + 1)) sJ1) (hK1 : NSctOk a.n (N - 1) (nSctAt es1 (N - 1)) sK1)
    {spins : ℕ × ℕ} (hs : spins ∈ ndindex2 2 2) {u v : List ℝ} (hu : u.length = a.n) (hv : v.length = a.n) (Φ : ℤ × ℝ → ℤ × ℝ → ℝ) (z : ℝ → ℝ) :
    ((ndindex2 (nSctAt es N).eigvals.length (nSctAt es N).eigvals.length).map fun fi =>
      Φ (nLevel es ((N : ℤ), fi.1)) (nLevel es ((N : ℤ), fi.2)) * ampSigma u v (z ((nSctAt es N).eigvals[fi.1]?.getD 0 - (nSctAt es N).eigvals[fi.2]?.getD 0))
        (sigmaOf a.n sK sI sJ (nSctAt es (N - 1)) (nSctAt es N) (nSctAt es (N + 1)) N spins fi) ^ 2).sum =
    ((ndindex2 (nSctAt es1 N).eigvals.length (nSctAt es1 N).eigvals.length).map fun fi =>
      Φ (nLevel es1 ((N : ℤ), fi.1)) (nLevel es1 ((N : ℤ), fi.2)) * ampSigma u v (z ((nSctAt es1 N).eigvals[fi.1]?.getD 0 - (nSctAt es1 N).eigvals[fi.2]?.getD 0))
        (sigmaOf a.n sK1 sI1 sJ1 (nSctAt es1 (N - 1)) (nSctAt es1 N) (nSctAt es1 (N + 1)) N spins fi) ^ 2).sum := by
  obtain ⟨p1, p2⟩ := mem_ndindex2.mp hs
  have hσ : ∀ s : ℕ, s < 2 → ∃ σ : Bool, s = if σ then 1 else 0 := by
    intro s hs
    interval_cases s
    · exact ⟨false, rfl⟩
    · exact ⟨true, rfl⟩
  obtain ⟨σ', q1⟩ := hσ _ p1
  obtain ⟨σ, q2⟩ := hσ _ p2
  obtain ⟨s1, s2⟩ := spins
  simp only at q1 q2
  subst q1 q2
  rw [sigma_sum h hN hI hJ hK σ' σ hu hv, sigma_sum h1 hN hI1 hJ1 hK1 σ' σ hu hv]
  simp only [transOp_indep h h1]
  exact level_sum2V h.basis h1.basis (fun x y => xLevel_overlap h h1 x y) (sctW N Φ) fun k l => transOp a.n N es1 σ' σ u v (z (k.2 - l.2)) k l

/-- A rate which is a sum of squared amplitudes, with weights and at energies which depend on the exchanged energy only. -/
def QuadRate (n : ℕ) (u v : List ℝ) (r : NSigma → ℝ) : Prop :=
  ∃ (ι : Type) (_ : Fintype ι) (c z : ι → ℝ → ℝ), ∀ s : NSigma, (∀ g ∈ s.gf2, ShapedGf n g) → r s = ∑ m, c m s.dE * ampSigma u v (z m s.dE) s ^ 2

theorem multiset_double (S : List (ℕ × ℕ)) {β : Type} (F : ℕ × ℕ → Multiset β) (φ : β → ℝ) : (((S.map F).sum).map φ).sum = (S.map fun s => ((F s).map φ).sum).sum := by
  induction S with
  | nil => simp
  | cons x S ih => rw [List.map_cons, List.sum_cons, Multiset.map_add, Multiset.sum_add, ih, List.map_cons, List.sum_cons]

theorem list_sum_comm {β ι : Type} [Fintype ι] (l : List β) (f : β → ι → ℝ) : (l.map fun x => ∑ m, f x m).sum = ∑ m, (l.map fun x => f x m).sum := by
  induction l with
  | nil => simp
  | cons x l ih => simp only [List.map_cons, List.sum_cons, ih, Finset.sum_add_distrib]

theorem sigmaOf_shaped (hr : NRun a es) {N : ℕ} (hN : N ≤ a.n + a.n) (sK sI sJ : List ℕ) (spins fi : ℕ × ℕ) :
    ∀ g ∈ (sigmaOf a.n sK sI sJ (nSctAt es (N - 1)) (nSctAt es N) (nSctAt es (N + 1)) N spins fi).gf2, ShapedGf a.n g := by
  intro g hg
  unfold sigmaOf at hg
  simp only [List.mem_append] at hg
  rcases hg with hg | hg
  · by_cases c : (N : ℤ) + 1 < 2 * a.n
    · rw [if_pos c, List.mem_singleton] at hg
      rw [hg]
      exact shaped_up _ _ _ _ _ _ (hr.vals_ne (by omega))
    · rw [if_neg c] at hg; simp at hg
  · by_cases c : (N : ℤ) - 1 > 0
    · rw [if_pos c, List.mem_singleton] at hg
      rw [hg]
      exact shaped_down _ _ _ _ _ _ (hr.vals_ne (by omega))
    · rw [if_neg c] at hg; simp at hg

/-- The elements as sums over pairs of states. -/
theorem flat_quad (hr : NRun a es) {N : ℕ} (hN : N ≤ a.n + a.n) (sK sI sJ : List ℕ) {ι : Type} [Fintype ι] {c z : ι → ℝ → ℝ} {u v : List ℝ} {r : NSigma → ℝ}
    (hq : ∀ s : NSigma, (∀ g ∈ s.gf2, ShapedGf a.n g) → r s = ∑ m, c m s.dE * ampSigma u v (z m s.dE) s ^ 2) (Φ : ℤ × ℝ → ℤ × ℝ → ℝ) (spins : ℕ × ℕ) :
    ((ndindex2 (nSctAt es N).eigvals.length (nSctAt es N).eigvals.length).map fun fi => Φ (nLevel es ((N : ℤ), fi.1)) (nLevel es ((N : ℤ), fi.2)) *
      r (sigmaOf a.n sK sI sJ (nSctAt es (N - 1)) (nSctAt es N) (nSctAt es (N + 1)) N spins fi)).sum =
    ∑ m, ((ndindex2 (nSctAt es N).eigvals.length (nSctAt es N).eigvals.length).map fun fi =>
      (fun k l : ℤ × ℝ => Φ k l * c m (k.2 - l.2)) (nLevel es ((N : ℤ), fi.1)) (nLevel es ((N : ℤ), fi.2)) *
        ampSigma u v (z m ((nSctAt es N).eigvals[fi.1]?.getD 0 - (nSctAt es N).eigvals[fi.2]?.getD 0))
          (sigmaOf a.n sK sI sJ (nSctAt es (N - 1)) (nSctAt es N) (nSctAt es (N + 1)) N spins fi) ^ 2).sum := by
  obtain ⟨st, hg, -, hl⟩ := hr.get N hN
  rw [← list_sum_comm]
  congr 1
  refine List.map_congr_left fun fi hfi => ?_
  obtain ⟨b1, b2⟩ := mem_ndindex2.mp hfi
  rw [hl] at b1 b2
  rw [hq _ (sigmaOf_shaped hr hN sK sI sJ spins fi), Finset.mul_sum]
  refine Finset.sum_congr rfl fun m _ => ?_
  rw [nLevel_x hr (show N < a.n + a.n + 1 by omega) b1, nLevel_x hr (show N < a.n + a.n + 1 by omega) b2, ← mul_assoc]
  rfl

/-- What is used of the dictionary of elements. -/
def CotnlOf (a : HamArgs) (es : Espace ℕ) (N : ℕ) (sd : List ((NId × NId) × List NSigma)) : Prop :=
  ∃ sK sI sJ, NSctOk a.n N (nSctAt es N) sI ∧ (N + 1 ≤ a.n + a.n → NSctOk a.n (N + 1) (nSctAt es (N + 1)) sJ) ∧ NSctOk a.n (N - 1) (nSctAt es (N - 1)) sK ∧
    (∀ q ∈ sd, q.2 ≠ []) ∧ flatD sd = ((ndindex2 2 2).map fun spins => if (N : ℤ) + 1 < 2 * a.n ∨ (N : ℤ) - 1 > 0 then (↑((ndindex2 (nSctAt es N).eigvals.length (nSctAt es N).eigvals.length).map fun fi =>
        ((((N : ℤ), fi.1), ((N : ℤ), fi.2)), sigmaOf a.n sK sI sJ (nSctAt es (N - 1)) (nSctAt es N) (nSctAt es (N + 1)) N spins fi)) : Multiset ((NId × NId) × NSigma)) else 0).sum

theorem cotnlOf (hr : NRun a es) {N : ℕ} (hN : N ≤ a.n + a.n) {junk : ℕ} {e0 : Option ℝ} {sd : List ((NId × NId) × List NSigma)}
    (hb : cotnlBuild junk a.n es (some (N : ℤ)) e0 none = .ok sd) : CotnlOf a es N sd := by
  obtain ⟨sI, gI, oI, -⟩ := hr.get N hN
  obtain ⟨sK, gK, oK, -⟩ := hr.get (N - 1) (by omega)
  have hJ : ∃ sJ, N + 1 ≤ a.n + a.n → dictGet es (N + 1) = .ok (nSctAt es (N + 1)) ∧ NSctOk a.n (N + 1) (nSctAt es (N + 1)) sJ := by
    by_cases c : N + 1 ≤ a.n + a.n
    · obtain ⟨sJ, gJ, oJ, -⟩ := hr.get (N + 1) c
      exact ⟨sJ, fun _ => ⟨gJ, oJ⟩⟩
    · exact ⟨[], fun h => absurd h c⟩
  obtain ⟨sJ, hJ⟩ := hJ
  obtain ⟨sd', h1, ⟨-, h2⟩, h3⟩ := cotnlBuild_full (junk := junk) hr.le ⟨gI, oI⟩ (fun hc => hJ (by omega)) (fun _ => ⟨gK, oK⟩) e0
  rw [hb] at h1
  cases h1
  exact ⟨sK, sI, sJ, oI, fun h => (hJ h).2, oK, h2, h3⟩

theorem flat_level (h : NRun a es) (h1 : NRun a es1) {N : ℕ} (hN : N ≤ a.n + a.n) {sd sd1 : List ((NId × NId) × List NSigma)} (hs : CotnlOf a es N sd) (hs1 : CotnlOf a es1 N sd1)
    {u v : List ℝ} (hu : u.length = a.n) (hv : v.length = a.n) {r : NSigma → ℝ} (hr : QuadRate a.n u v r) (Φ : ℤ × ℝ → ℤ × ℝ → ℝ) :
    ((flatD sd).map fun q => Φ (nLevel es q.1.1) (nLevel es q.1.2) * r q.2).sum = ((flatD sd1).map fun q => Φ (nLevel es1 q.1.1) (nLevel es1 q.1.2) * r q.2).sum := by
  obtain ⟨sK, sI, sJ, oI, oJ, oK, -, e⟩ := hs
  obtain ⟨sK1, sI1, sJ1, oI1, oJ1, oK1, -, e1⟩ := hs1
  obtain ⟨ι, hι, c, z, hq⟩ := hr
  rw [e, e1, multiset_double, multiset_double]
  congr 1
  refine List.map_congr_left fun spins hsp => ?_
  split
  · rw [Multiset.map_coe, Multiset.map_coe, Multiset.sum_coe, Multiset.sum_coe, List.map_map, List.map_map]
    refine (flat_quad h hN sK sI sJ hq Φ spins).trans (Eq.trans ?_ (flat_quad h1 hN sK1 sI1 sJ1 hq Φ spins).symm)
    exact Finset.sum_congr rfl fun m _ => sigma_level h h1 hN oI oJ oK oI1 oJ1 oK1 hsp hu hv (fun k l => Φ k l * c m (k.2 - l.2)) (z m)
  · rfl

end

/-! ## The two methods -/

theorem approximate_quad {n : ℕ} {A : List (List ℝ)} {l1 l2 : ℕ} {u v : List ℝ} (hu : A[l1]? = some u) (hv : A[l2]? = some v) (lu : u.length = n) (lv : v.length = n) (beta : ℝ) {mu : List ℝ}
    {m1 m2 : ℝ} (h1 : mu[l1]? = some m1) (h2 : mu[l2]? = some m2) : QuadRate n u v fun s => (s.approximate A beta mu l1 l2).toOption.getD 0 := by
  refine ⟨Unit, inferInstance, fun _ d => coG beta (d - m1 + m2), fun _ d => 0.5 * (d + mu.sum), fun s hs => ?_⟩
  unfold NSigma.approximate
  rw [getItem_some h1, getItem_some h2]
  simp only [bind, Except.bind]
  rw [sigma_call hs hu hv lu lv]
  simp [pure, Except.pure, Except.toOption]

theorem integrate_quad {n : ℕ} {A : List (List ℝ)} {l1 l2 : ℕ} {u v : List ℝ} (hu : A[l1]? = some u) (hv : A[l2]? = some v) (lu : u.length = n) (lv : v.length = n) (beta : ℝ) {mu : List ℝ}
    {m1 m2 : ℝ} (h1 : mu[l1]? = some m1) (h2 : mu[l2]? = some m2) : QuadRate n u v fun s => (s.integrate A beta mu l1 l2).toOption.getD 0 := by
  let lo : ℝ → ℝ := fun d => windowLo beta (m1 - d) m2
  let hi : ℝ → ℝ := fun d => windowHi beta (m1 - d) m2
  let pt : Fin 199 × Bool → ℝ → ℝ := fun m d => lo d + (if m.2 then ((m.1 : ℕ) : ℝ) else ((m.1 : ℕ) : ℝ) + 1) * ((hi d - lo d) / 199)
  refine ⟨Fin 199 × Bool, inferInstance, fun m d => (hi d - lo d) / 199 / 2 * nestedWeight beta (pt m d) (m1 - d) m2, pt, fun s hs => ?_⟩
  simp only
  rw [integrate_sum hs hu hv lu lv beta h1 h2]
  simp only [Except.toOption, Option.getD_some]
  rw [trapz_linspace, Finset.sum_range, Fintype.sum_prod_type]
  refine Finset.sum_congr rfl fun i _ => ?_
  rw [Fintype.sum_bool]
  simp only [pt, lo, hi, coIntegrand, if_true, Bool.false_eq_true, if_false]
  ring

/-! ## The dictionaries -/

theorem cotnl_weights {integ : ℕ → ℕ → NSigma → Except PyErr ℝ} {e i : ℕ} (he : e < 2) (hi : i < 2) (φ : NId × NId → ℝ) :
    ∀ {sd : List ((NId × NId) × List NSigma)} {W0 T0 W T : List ((NId × NId) × ℝ)}, forM' (cotnlStep integ e i) sd (W0, T0) = .ok (W, T) → (W0.map Prod.fst).Nodup → (T0.map Prod.fst).Nodup →
      wsum φ W = wsum φ W0 + ((flatD sd).map fun q => (φ q.1 - φ (q.1.2, q.1.2)) * ((integ 0 0 q.2).toOption.getD 0 + (integ 0 1 q.2).toOption.getD 0 + (integ 1 0 q.2).toOption.getD 0 + (integ 1 1 q.2).toOption.getD 0)).sum ∧
      wsum φ T = wsum φ T0 + ((flatD sd).map fun q => φ q.1 * ((integ e i q.2).toOption.getD 0 - (integ i e q.2).toOption.getD 0)).sum := by
  intro sd
  induction sd with
  | nil =>
    intro W0 T0 W T h _ _
    simp only [forM', Except.ok.injEq, Prod.mk.injEq] at h
    rw [h.1, h.2]
    simp [flatD_nil]
  | cons p sd ih =>
    intro W0 T0 W T h hW hT
    rw [forM'] at h
    cases hb : cotnlStep integ e i (W0, T0) p with
    | error x => simp [hb, bind, Except.bind] at h
    | ok st =>
      rw [hb] at h
      simp only [bind, Except.bind] at h
      obtain ⟨g00, g01, g10, g11, x, y, k1, k2, k3, k4, k5, k6, rfl⟩ := cotnlStep_ok hb
      have hg : ∀ {γ : ℝ} {l1 l2 : ℕ}, cotnlGamma p.2 integ l1 l2 = .ok γ → γ = (p.2.map fun s => (integ l1 l2 s).toOption.getD 0).sum := fun h => ((gamma_ok _ _).mp h).2
      have hx : x = (p.2.map fun s => (integ e i s).toOption.getD 0).sum ∧ y = (p.2.map fun s => (integ i e s).toOption.getD 0).sum := by
        interval_cases e <;> interval_cases i <;> simp [gamma22, getItem, pyIndex, bind, Except.bind] at k5 k6 <;> rw [← k5, ← k6] <;>
          first
            | exact ⟨hg k1, hg k1⟩
            | exact ⟨hg k2, hg k3⟩
            | exact ⟨hg k3, hg k2⟩
            | exact ⟨hg k4, hg k4⟩
      have n1 : ((dictAdd T0 p.1 (x - y)).map Prod.fst).Nodup := nodup_dictSet hT _ _
      have n2 : ((addRate W0 p.1 (g00 + g01 + g10 + g11)).map Prod.fst).Nodup := by
        unfold addRate
        split
        · exact nodup_dictSet (nodup_dictSet hW _ _) _ _
        · exact hW
      obtain ⟨i1, i2⟩ := ih h n2 n1
      have fl : ∀ φ : (NId × NId) × NSigma → ℝ, ((flatD (p :: sd)).map φ).sum = (p.2.map fun x => φ (p.1, x)).sum + ((flatD sd).map φ).sum := by
        intro φ
        rw [flatD_cons, Multiset.map_add, Multiset.sum_add, Multiset.map_coe, Multiset.sum_coe, List.map_map]
        rfl
      constructor
      · rw [i1, fl]
        have : wsum φ (addRate W0 p.1 (g00 + g01 + g10 + g11)) = wsum φ W0 + (φ p.1 - φ (p.1.2, p.1.2)) * (g00 + g01 + g10 + g11) := by
          unfold addRate
          by_cases c : p.1.1 ≠ p.1.2
          · rw [if_pos c, wsum_dictAdd _ (show ((dictAdd W0 (p.1.2, p.1.2) (-(g00 + g01 + g10 + g11))).map Prod.fst).Nodup from nodup_dictSet hW _ _), wsum_dictAdd _ hW]
            ring
          · rw [if_neg c]
            push Not at c
            have : p.1 = (p.1.2, p.1.2) := Prod.ext c rfl
            rw [← this]; ring
        rw [this]
        dsimp only
        rw [List.sum_map_mul_left, List.sum_map_add, List.sum_map_add, List.sum_map_add, ← hg k1, ← hg k2, ← hg k3, ← hg k4]
        ring
      · rw [i2, fl, wsum_dictAdd _ hT]
        dsimp only
        rw [List.sum_map_mul_left, hx.1, hx.2]
        have : (p.2.map fun s => (integ e i s).toOption.getD 0 - (integ i e s).toOption.getD 0).sum = (p.2.map fun s => (integ e i s).toOption.getD 0).sum - (p.2.map fun s => (integ i e s).toOption.getD 0).sum := by
          induction p.2 with
          | nil => simp
          | cons s l ih2 => simp only [List.map_cons, List.sum_cons, ih2]; ring
        rw [this]
        ring

theorem cotnlOf_keys {a : HamArgs} {es : Espace ℕ} {N : ℕ} {sd : List ((NId × NId) × List NSigma)} (h : CotnlOf a es N sd) (k : NId × NId) :
    (∃ p ∈ sd, p.1 = k) ↔ ((N : ℤ) + 1 < 2 * a.n ∨ (N : ℤ) - 1 > 0) ∧ ∃ fi ∈ ndindex2 (nSctAt es N).eigvals.length (nSctAt es N).eigvals.length, (((N : ℤ), fi.1), ((N : ℤ), fi.2)) = k := by
  obtain ⟨sK, sI, sJ, -, -, -, hne, e⟩ := h
  have hm : (∃ p ∈ sd, p.1 = k) ↔ ∃ x, (k, x) ∈ flatD sd := by
    constructor
    · rintro ⟨p, hp, rfl⟩
      obtain ⟨x, hx⟩ := List.exists_mem_of_ne_nil _ (hne p hp)
      exact ⟨x, mem_flatD.mpr ⟨p, hp, rfl, hx⟩⟩
    · rintro ⟨x, hx⟩
      obtain ⟨p, hp, e, -⟩ := mem_flatD.mp hx
      exact ⟨p, hp, e⟩
  have h4 : ndindex2 2 2 = [(0, 0), (0, 1), (1, 0), (1, 1)] := by decide
  rw [hm, e]
  by_cases c : (N : ℤ) + 1 < 2 * a.n ∨ (N : ℤ) - 1 > 0
  · simp only [if_pos c, h4, List.map_cons, List.map_nil, List.sum_cons, List.sum_nil, Multiset.mem_add, Multiset.mem_coe, List.mem_map, Prod.mk.injEq, Multiset.notMem_zero, or_false]
    constructor
    · rintro ⟨x, hx⟩
      refine ⟨c, ?_⟩
      rcases hx with ⟨fi, h1, h2, -⟩ | ⟨fi, h1, h2, -⟩ | ⟨fi, h1, h2, -⟩ | ⟨fi, h1, h2, -⟩ <;> exact ⟨fi, h1, h2⟩
    · rintro ⟨-, fi, h1, h2⟩
      exact ⟨_, Or.inl ⟨fi, h1, h2, rfl⟩⟩
  · simp only [if_neg c, h4, List.map_cons, List.map_nil, List.sum_cons, List.sum_nil]
    constructor
    · rintro ⟨x, hx⟩
      simp at hx
    · rintro ⟨h, -⟩
      exact absurd h c

theorem cotnlDicts_forM {sd : List ((NId × NId) × List NSigma)} {integ : ℕ → ℕ → NSigma → Except PyErr ℝ} {e i : ℤ} {r : List ((NId × NId) × ℝ) × List ((NId × NId) × ℝ)}
    (h : cotnlDicts sd integ e i = .ok r) : forM' (cotnlStep integ e i) sd ([], []) = .ok r := by
  unfold cotnlDicts at h
  cases h0 : checkElements sd with
  | error e => simp [h0, bind, Except.bind] at h
  | ok u => rwa [h0] at h

section
variable {sd : List ((NId × NId) × List NSigma)} {integ : ℕ → ℕ → NSigma → Except PyErr ℝ} {e i : ℕ} (he : e < 2) (hi : i < 2) {W T : List ((NId × NId) × ℝ)}
  (h : cotnlDicts sd integ e i = .ok (W, T))

include he hi h

theorem cotnl_matrix_W (F : NId → NId → ℝ) :
    ∑ x ∈ Finset.range (matrixIds W).length, ∑ y ∈ Finset.range (matrixIds W).length, dictToMatrix W x y * F ((matrixIds W)[x]?.getD (0, 0)) ((matrixIds W)[y]?.getD (0, 0)) =
      ((flatD sd).map fun q => (F q.1.1 q.1.2 - F q.1.2 q.1.2) * (integ 0 0 q.2).toOption.getD 0).sum + ((flatD sd).map fun q => (F q.1.1 q.1.2 - F q.1.2 q.1.2) * (integ 0 1 q.2).toOption.getD 0).sum +
      ((flatD sd).map fun q => (F q.1.1 q.1.2 - F q.1.2 q.1.2) * (integ 1 0 q.2).toOption.getD 0).sum + ((flatD sd).map fun q => (F q.1.1 q.1.2 - F q.1.2 q.1.2) * (integ 1 1 q.2).toOption.getD 0).sum := by
  have w := (cotnl_weights he hi (fun k => F ((matrixIds W)[(matrixIds W).idxOf k.1]?.getD (0, 0)) ((matrixIds W)[(matrixIds W).idxOf k.2]?.getD (0, 0))) (cotnlDicts_forM h) (by simp) (by simp)).1
  rw [wsum_matrix rfl fun x y => F ((matrixIds W)[x]?.getD (0, 0)) ((matrixIds W)[y]?.getD (0, 0)), w]
  have z : ∀ w : NId × NId → ℝ, wsum w ([] : List ((NId × NId) × ℝ)) = 0 := fun w => rfl
  rw [z, zero_add, ← Multiset.sum_map_add, ← Multiset.sum_map_add, ← Multiset.sum_map_add]
  congr 1
  refine Multiset.map_congr rfl fun q hq => ?_
  obtain ⟨p, hp, e1, -⟩ := mem_flatD.mp hq
  by_cases c : q.1.1 = q.1.2
  · rw [c]; ring
  · have m1 : q.1.1 ∈ matrixIds W := ((C79_cotnl_partial h).1 _).mpr ⟨p, hp, by rw [e1]; exact c, Or.inl (by rw [e1])⟩
    have m2 : q.1.2 ∈ matrixIds W := ((C79_cotnl_partial h).1 _).mpr ⟨p, hp, by rw [e1]; exact c, Or.inr (by rw [e1])⟩
    simp only [List.getElem?_idxOf m1, List.getElem?_idxOf m2, Option.getD_some]
    ring

theorem cotnl_matrix_T (F : NId → NId → ℝ) :
    ∑ x ∈ Finset.range (matrixIds T).length, ∑ y ∈ Finset.range (matrixIds T).length, dictToMatrix T x y * F ((matrixIds T)[x]?.getD (0, 0)) ((matrixIds T)[y]?.getD (0, 0)) =
      ((flatD sd).map fun q => F q.1.1 q.1.2 * (integ e i q.2).toOption.getD 0).sum + ((flatD sd).map fun q => -F q.1.1 q.1.2 * (integ i e q.2).toOption.getD 0).sum := by
  have w := (cotnl_weights he hi (fun k => F ((matrixIds T)[(matrixIds T).idxOf k.1]?.getD (0, 0)) ((matrixIds T)[(matrixIds T).idxOf k.2]?.getD (0, 0))) (cotnlDicts_forM h) (by simp) (by simp)).2
  rw [wsum_matrix rfl fun x y => F ((matrixIds T)[x]?.getD (0, 0)) ((matrixIds T)[y]?.getD (0, 0)), w]
  have z : ∀ w : NId × NId → ℝ, wsum w ([] : List ((NId × NId) × ℝ)) = 0 := fun w => rfl
  rw [z, zero_add, ← Multiset.sum_map_add]
  congr 1
  refine Multiset.map_congr rfl fun q hq => ?_
  obtain ⟨p, hp, e1, -⟩ := mem_flatD.mp hq
  have m1 : q.1.1 ∈ matrixIds T := ((C79_cotnl_partial h).2 _).mpr ⟨p, hp, Or.inl (by rw [e1])⟩
  have m2 : q.1.2 ∈ matrixIds T := ((C79_cotnl_partial h).2 _).mpr ⟨p, hp, Or.inr (by rw [e1])⟩
  simp only [List.getElem?_idxOf m1, List.getElem?_idxOf m2, Option.getD_some]
  ring

end

/-- What `cotnl` runs on: the elements of a run are built, and both methods give all the rates. -/
theorem cotnl_ok {a : HamArgs} {es : Espace ℕ} (hr : NRun a es) {N : ℕ} (hN : N ≤ a.n + a.n) (junk : ℕ) (e0 : Option ℝ) {beta : ℝ} {mu : List ℝ} {A : List (List ℝ)}
    (hmu : 2 ≤ mu.length) (hA : 2 ≤ A.length) (hl : ∀ v ∈ A, v.length = a.n) {integ : ℕ → ℕ → NSigma → Except PyErr ℝ}
    (hm : integ = NSigma.approximate A beta mu ∨ integ = NSigma.integrate A beta mu) {extract inject : ℕ} (he : extract < 2) (hi : inject < 2) :
    ∃ sd W T, cotnlBuild junk a.n es (some (N : ℤ)) e0 none = .ok sd ∧ cotnlDicts sd integ extract inject = .ok (W, T) := by
  obtain ⟨sd, hsd⟩ : ∃ sd, cotnlBuild junk a.n es (some (N : ℤ)) e0 none = .ok sd := by
    obtain ⟨sI, gI, oI, -⟩ := hr.get N hN
    obtain ⟨sK, gK, oK, -⟩ := hr.get (N - 1) (by omega)
    have hJ : ∃ sJ, N + 1 ≤ a.n + a.n → dictGet es (N + 1) = .ok (nSctAt es (N + 1)) ∧ NSctOk a.n (N + 1) (nSctAt es (N + 1)) sJ := by
      by_cases c : N + 1 ≤ a.n + a.n
      · obtain ⟨sJ, gJ, oJ, -⟩ := hr.get (N + 1) c
        exact ⟨sJ, fun _ => ⟨gJ, oJ⟩⟩
      · exact ⟨[], fun h => absurd h c⟩
    obtain ⟨sJ, hJ⟩ := hJ
    obtain ⟨sd', h1, -⟩ := cotnlBuild_full (junk := junk) hr.le ⟨gI, oI⟩ (fun hc => hJ (by omega)) (fun _ => ⟨gK, oK⟩) e0
    exact ⟨sd', h1⟩
  have hc := cotnlOf hr hN hsd
  have hint : ∀ l1 l2, l1 < 2 → l2 < 2 → ∀ p ∈ sd, ∀ s ∈ p.2, ∃ x, integ l1 l2 s = .ok x := by
    intro l1 l2 b1 b2 p hp s hs
    have hu : A[l1]? = some (A[l1]'(by omega)) := List.getElem?_eq_getElem _
    have hv : A[l2]? = some (A[l2]'(by omega)) := List.getElem?_eq_getElem _
    have h1 : mu[l1]? = some (mu[l1]'(by omega)) := List.getElem?_eq_getElem _
    have h2 : mu[l2]? = some (mu[l2]'(by omega)) := List.getElem?_eq_getElem _
    have hsh : ∀ g ∈ s.gf2, ShapedGf a.n g := by
      have hmem : (p.1, s) ∈ flatD sd := mem_flatD.mpr ⟨p, hp, rfl, hs⟩
      obtain ⟨sK, sI, sJ, -, -, -, -, e⟩ := hc
      have h4 : ndindex2 2 2 = [(0, 0), (0, 1), (1, 0), (1, 1)] := by decide
      rw [e] at hmem
      by_cases c : (N : ℤ) + 1 < 2 * a.n ∨ (N : ℤ) - 1 > 0
      · simp only [if_pos c, h4, List.map_cons, List.map_nil, List.sum_cons, List.sum_nil, Multiset.mem_add, Multiset.mem_coe, List.mem_map, Prod.mk.injEq, Multiset.notMem_zero, or_false] at hmem
        rcases hmem with ⟨fi, -, -, rfl⟩ | ⟨fi, -, -, rfl⟩ | ⟨fi, -, -, rfl⟩ | ⟨fi, -, -, rfl⟩ <;> exact sigmaOf_shaped hr hN _ _ _ _ _
      · simp only [if_neg c, h4, List.map_cons, List.map_nil, List.sum_cons, List.sum_nil] at hmem
        simp at hmem
    rcases hm with rfl | rfl
    · unfold NSigma.approximate
      rw [getItem_some h1, getItem_some h2]
      simp only [bind, Except.bind]
      rw [sigma_call hsh hu hv (hl _ (List.getElem_mem _)) (hl _ (List.getElem_mem _))]
      exact ⟨_, rfl⟩
    · exact ⟨_, integrate_sum hsh hu hv (hl _ (List.getElem_mem _)) (hl _ (List.getElem_mem _)) beta h1 h2⟩
  have hck : checkElements sd = .ok () := by
    unfold checkElements
    rw [if_pos]
    rw [List.all_eq_true]
    intro x hx
    obtain ⟨p, hp, rfl⟩ := List.mem_map.mp hx
    obtain ⟨c, fi, hfi, e⟩ := (cotnlOf_keys hc p.1).mp ⟨p, hp, rfl⟩
    obtain ⟨p', hp', e'⟩ := (cotnlOf_keys hc (((N : ℤ), fi.2), ((N : ℤ), fi.1))).mpr ⟨c, (fi.2, fi.1), by
      rw [mem_ndindex2] at hfi ⊢; exact ⟨hfi.2, hfi.1⟩, rfl⟩
    refine decide_eq_true (List.mem_map.mpr ⟨p', hp', ?_⟩)
    rw [e', ← e]
  obtain ⟨r, hr'⟩ : ∃ r, forM' (cotnlStep integ extract inject) sd ([], []) = .ok r := by
    clear hck hsd hc
    generalize (([], []) : List ((NId × NId) × ℝ) × List ((NId × NId) × ℝ)) = st
    induction sd generalizing st with
    | nil => exact ⟨st, rfl⟩
    | cons p sd ih =>
      have g : ∀ l1 l2, l1 < 2 → l2 < 2 → ∃ γ, cotnlGamma p.2 integ l1 l2 = .ok γ := fun l1 l2 b1 b2 =>
        ⟨_, (gamma_ok _ _).mpr ⟨hint l1 l2 b1 b2 p List.mem_cons_self, rfl⟩⟩
      obtain ⟨g00, h00⟩ := g 0 0 (by norm_num) (by norm_num)
      obtain ⟨g01, h01⟩ := g 0 1 (by norm_num) (by norm_num)
      obtain ⟨g10, h10⟩ := g 1 0 (by norm_num) (by norm_num)
      obtain ⟨g11, h11⟩ := g 1 1 (by norm_num) (by norm_num)
      have hs : ∃ st', cotnlStep integ extract inject st p = .ok st' := by
        unfold cotnlStep
        rw [h00, h01, h10, h11]
        interval_cases extract <;> interval_cases inject <;> exact ⟨_, rfl⟩
      obtain ⟨st', hst⟩ := hs
      obtain ⟨r, hr⟩ := ih (fun l1 l2 b1 b2 q hq => hint l1 l2 b1 b2 q (List.mem_cons_of_mem _ hq)) st'
      refine ⟨r, ?_⟩
      rw [forM', hst]
      exact hr
  refine ⟨sd, r.1, r.2, hsd, ?_⟩
  unfold cotnlDicts
  rw [hck]
  exact hr'

/-! ## Property -/

/-- **C174** Two runs of `build_espace(…, symmetry='N')` on the same arguments may differ in the eigenvectors of degenerate levels. The tables of states of the
matrices of `cotnl`, with the approximate or the integrated rates, are nevertheless the same, and so is every sum of rates, or of entries of the transition matrix,
weighted by a function of the levels of both states: the rate between two levels does not depend on the eigenvectors. -/
theorem C174_levels {a : HamArgs} (ha : a.NValid) {w w' : ℕ} (hw : a.n + a.n ≤ w) (hw' : a.n + a.n ≤ w') {es es1 : Espace ℕ} {e0 e1 : WithTop ℝ}
    (h : NBuildEspace w a none (.ok (es, e0))) (h1 : NBuildEspace w' a none (.ok (es1, e1))) {N : ℕ} (hN : N ≤ 2 * a.n) {junk junk' : ℕ} {egs egs' : Option ℝ}
    {sd sd1 : List ((NId × NId) × List NSigma)} (hsd : cotnlBuild junk a.n es (some (N : ℤ)) egs none = .ok sd) (hsd1 : cotnlBuild junk' a.n es1 (some (N : ℤ)) egs' none = .ok sd1)
    {beta : ℝ} {mu : List ℝ} {A : List (List ℝ)} (hmu : 2 ≤ mu.length) (hA : 2 ≤ A.length) (hl : ∀ v ∈ A, v.length = a.n) {integ : ℕ → ℕ → NSigma → Except PyErr ℝ}
    (hm : integ = NSigma.approximate A beta mu ∨ integ = NSigma.integrate A beta mu) {extract inject : ℕ} (he : extract < 2) (hi : inject < 2)
    {W T W1 T1 : List ((NId × NId) × ℝ)} (hd : cotnlDicts sd integ extract inject = .ok (W, T)) (hd1 : cotnlDicts sd1 integ extract inject = .ok (W1, T1)) :
    matrixIds W = matrixIds W1 ∧ matrixIds T = matrixIds T1 ∧ (∀ i, i < (matrixIds T).length → nRowLevel es (matrixIds T) i = nRowLevel es1 (matrixIds T1) i) ∧
    (∀ ψ : ℤ × ℝ → ℤ × ℝ → ℝ,
      ∑ f ∈ Finset.range (matrixIds W).length, ∑ i ∈ Finset.range (matrixIds W).length, dictToMatrix W f i * ψ (nRowLevel es (matrixIds W) f) (nRowLevel es (matrixIds W) i) =
      ∑ f ∈ Finset.range (matrixIds W1).length, ∑ i ∈ Finset.range (matrixIds W1).length, dictToMatrix W1 f i * ψ (nRowLevel es1 (matrixIds W1) f) (nRowLevel es1 (matrixIds W1) i)) ∧
    ∀ ψ : ℤ × ℝ → ℤ × ℝ → ℝ,
      ∑ f ∈ Finset.range (matrixIds T).length, ∑ i ∈ Finset.range (matrixIds T).length, dictToMatrix T f i * ψ (nRowLevel es (matrixIds T) f) (nRowLevel es (matrixIds T) i) =
      ∑ f ∈ Finset.range (matrixIds T1).length, ∑ i ∈ Finset.range (matrixIds T1).length, dictToMatrix T1 f i * ψ (nRowLevel es1 (matrixIds T1) f) (nRowLevel es1 (matrixIds T1) i) := by
  have hr := nRun a ha hw h
  have hr1 := nRun a ha hw' h1
  have hN' : N ≤ a.n + a.n := by omega
  have hv : (nSctAt es N).eigvals = (nSctAt es1 N).eigvals := nRun_vals ha hw hw' h h1 hN'
  have hc := cotnlOf hr hN' hsd
  have hc1 := cotnlOf hr1 hN' hsd1
  have hkeys : ∀ k, (∃ p ∈ sd, p.1 = k) ↔ ∃ p ∈ sd1, p.1 = k := by
    intro k
    rw [cotnlOf_keys hc, cotnlOf_keys hc1, hv]
  have lift : ∀ P : NId × NId → Prop, (∃ p ∈ sd, P p.1) ↔ ∃ p ∈ sd1, P p.1 := by
    intro P
    constructor
    · rintro ⟨p, hp, hP⟩
      obtain ⟨p', hp', e⟩ := (hkeys p.1).mp ⟨p, hp, rfl⟩
      exact ⟨p', hp', by rw [e]; exact hP⟩
    · rintro ⟨p, hp, hP⟩
      obtain ⟨p', hp', e⟩ := (hkeys p.1).mpr ⟨p, hp, rfl⟩
      exact ⟨p', hp', by rw [e]; exact hP⟩
  have hW : matrixIds W = matrixIds W1 := matrixIds_ext fun x => by
    rw [(C79_cotnl_partial hd).1, (C79_cotnl_partial hd1).1]
    exact lift fun k => k.1 ≠ k.2 ∧ (k.1 = x ∨ k.2 = x)
  have hT : matrixIds T = matrixIds T1 := matrixIds_ext fun x => by
    rw [(C79_cotnl_partial hd).2, (C79_cotnl_partial hd1).2]
    exact lift fun k => k.1 = x ∨ k.2 = x
  have hA0 : ∀ l, l < 2 → ∃ v, A[l]? = some v ∧ v.length = a.n := fun l h => ⟨A[l]'(by omega), List.getElem?_eq_getElem _, hl _ (List.getElem_mem _)⟩
  have hm0 : ∀ l, l < 2 → ∃ m, mu[l]? = some m := fun l h => ⟨mu[l]'(by omega), List.getElem?_eq_getElem _⟩
  have lev : ∀ l1 l2, l1 < 2 → l2 < 2 → ∀ Φ : ℤ × ℝ → ℤ × ℝ → ℝ, ((flatD sd).map fun q => Φ (nLevel es q.1.1) (nLevel es q.1.2) * (integ l1 l2 q.2).toOption.getD 0).sum =
      ((flatD sd1).map fun q => Φ (nLevel es1 q.1.1) (nLevel es1 q.1.2) * (integ l1 l2 q.2).toOption.getD 0).sum := by
    intro l1 l2 b1 b2 Φ
    obtain ⟨u, hu, lu⟩ := hA0 l1 b1
    obtain ⟨v, hv, lv⟩ := hA0 l2 b2
    obtain ⟨m1, hm1⟩ := hm0 l1 b1
    obtain ⟨m2, hm2⟩ := hm0 l2 b2
    have hq : QuadRate a.n u v fun s => (integ l1 l2 s).toOption.getD 0 := by
      rcases hm with rfl | rfl
      · exact approximate_quad hu hv lu lv beta hm1 hm2
      · exact integrate_quad hu hv lu lv beta hm1 hm2
    exact flat_level hr hr1 hN' hc hc1 lu lv hq Φ
  refine ⟨hW, hT, fun x hx => ?_, fun ψ => ?_, fun ψ => ?_⟩
  · unfold nRowLevel
    rw [← hT, List.getElem?_eq_getElem hx, Option.getD_some]
    obtain ⟨p, hp, hpx⟩ := ((C79_cotnl_partial hd).2 _).mp (List.getElem_mem hx)
    obtain ⟨-, fi, hfi, e⟩ := (cotnlOf_keys hc p.1).mp ⟨p, hp, rfl⟩
    have hs : ((matrixIds T)[x]).1 = N := by
      rcases hpx with hpx | hpx <;> rw [← hpx, ← e]
    obtain ⟨-, g, -⟩ := hr.get N hN'
    obtain ⟨-, g1, -⟩ := hr1.get N hN'
    unfold nLevel
    rw [nidEnergy_of (M := N) hs g, nidEnergy_of (M := N) hs g1, hv]
  · unfold nRowLevel
    rw [cotnl_matrix_W he hi hd fun x y => ψ (nLevel es x) (nLevel es y), cotnl_matrix_W he hi hd1 fun x y => ψ (nLevel es1 x) (nLevel es1 y)]
    have := fun l1 l2 b1 b2 => lev l1 l2 b1 b2 fun k l => ψ k l - ψ l l
    rw [this 0 0 (by norm_num) (by norm_num), this 0 1 (by norm_num) (by norm_num), this 1 0 (by norm_num) (by norm_num), this 1 1 (by norm_num) (by norm_num)]
  · unfold nRowLevel
    rw [cotnl_matrix_T he hi hd fun x y => ψ (nLevel es x) (nLevel es y), cotnl_matrix_T he hi hd1 fun x y => ψ (nLevel es1 x) (nLevel es1 y)]
    rw [lev extract inject he hi ψ, lev inject extract hi he fun k l => -ψ k l]

/-- The hypotheses of `C174_levels` are met, with eigenvectors that differ: two choices for two sites at energy zero, the elements of which are
built and integrated. -/
example : ∃ sd sd1 W T W1 T1, cotnlBuild 0 2 (nChosen 64 2 (mixChoice false)) (some 1) none none = .ok sd ∧ cotnlBuild 0 2 (nChosen 64 2 (mixChoice true)) (some 1) none none = .ok sd1 ∧
    cotnlDicts sd (NSigma.integrate [[1, 2], [3, 4]] 1 [0, 1]) 0 1 = .ok (W, T) ∧ cotnlDicts sd1 (NSigma.integrate [[1, 2], [3, 4]] 1 [0, 1]) 0 1 = .ok (W1, T1) ∧
    nChosen 64 2 (mixChoice false) ≠ nChosen 64 2 (mixChoice true) := by
  have hr := fun rot => nRun hopArgs hopArgs_nvalid (by simp [hopArgs, freeArgs]) (mix_run rot)
  obtain ⟨sd, W, T, h1, h2⟩ := cotnl_ok (hr false) (N := 1) (show 1 ≤ 2 + 2 by norm_num) 0 none (beta := 1) (mu := [0, 1]) (A := [[1, 2], [3, 4]]) (by simp) (by simp)
    (by intro v hv; simp at hv; rcases hv with rfl | rfl <;> rfl) (Or.inr rfl) (extract := 0) (inject := 1) (by norm_num) (by norm_num)
  obtain ⟨sd1, W1, T1, h3, h4⟩ := cotnl_ok (hr true) (N := 1) (show 1 ≤ 2 + 2 by norm_num) 0 none (beta := 1) (mu := [0, 1]) (A := [[1, 2], [3, 4]]) (by simp) (by simp)
    (by intro v hv; simp at hv; rcases hv with rfl | rfl <;> rfl) (Or.inr rfl) (extract := 0) (inject := 1) (by norm_num) (by norm_num)
  refine ⟨sd, sd1, W, T, W1, T1, h1, h3, h2, h4, fun e => ?_⟩
  have e1 := nChosen_get (w := 64) (n := 2) (ch := mixChoice false) (N := 1) (by norm_num)
  rw [e, nChosen_get (w := 64) (n := 2) (ch := mixChoice true) (N := 1) (by norm_num)] at e1
  have e2 := congrArg (fun s : Sct => (s.eigvecs[0]?.getD (fun _ => 0) : ℕ → ℝ) 0) (Except.ok.inj e1)
  simp [nChosenSct, mixChoice, mixVec] at e2

end Edpyt
