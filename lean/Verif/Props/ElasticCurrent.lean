import Verif.Proof.Elastic
import Verif.Props.CoBuild
import Verif.Props.MatrixOrder
import Verif.Props.CoBalance
import Verif.Props.GreenStable
import Verif.Props.Field
import Verif.Props.Blockade
/-!
C202: the second law for cotunnelling through degenerate ground states.
-/
namespace Edpyt
open Spec Matrix

/-! ### Specification -/

/-- `T.dot(P).sum()` with `T = build_transition_matrix(sigmadict, beta, mu, A, 0, 1, approx_integral=True)`: the particle current from lead 0 to lead 1. -/
noncomputable def elasticCurrent (sd : SigmaDict) (A : List (List ℝ)) (beta : ℝ) (mu : List ℝ) (p : ℕ → ℝ) : ℝ :=
  ∑ f ∈ Finset.range (coFinalIds sd).length, ∑ i ∈ Finset.range (coFinalIds sd).length, coTransition sd (CoSigma.approximate A beta mu) 0 1 f i * p i

/-- The states whose energy is within the cutoff of `egs` have the energy `egs`. -/
def OnlyGround (n : ℕ) (es : Espace (ℕ × ℕ)) (egs c : ℝ) : Prop :=
  ∀ q k, q.1 ≤ n → q.2 ≤ n → k < n.choose q.1 * n.choose q.2 → |stateEnergy es q k - egs| < c → stateEnergy es q k = egs

/-- An electron of energy `z` is not in resonance: adding it to a ground state, or taking it from one, does not give the energy of a state with one electron more or less. -/
def NoResonance (n : ℕ) (es : Espace (ℕ × ℕ)) (egs z : ℝ) : Prop :=
  ∀ q k, q.1 ≤ n → q.2 ≤ n → k < n.choose q.1 * n.choose q.2 → stateEnergy es q k = egs → ∀ s,
    (∀ m, m < n.choose (shiftUp s q).1 * n.choose (shiftUp s q).2 → stateEnergy es (shiftUp s q) m - egs ≠ z) ∧
    ∀ qJ, shiftUp s qJ = q → ∀ m, m < n.choose qJ.1 * n.choose qJ.2 → egs - stateEnergy es qJ m ≠ z

/-! ### Reversal of an amplitude -/

theorem IsAmplitude.turn {ι : Type} [Fintype ι] {K A B : Matrix ι ι ℝ} {F I : ι → ℝ} {v v' : ℝ} (hK : Kᵀ = K) (h : IsAmplitude K F A B I v) (h' : IsAmplitude K I Bᵀ Aᵀ F v') : v = v' := by
  obtain ⟨x, hx⟩ := h.1
  obtain ⟨y, hy⟩ := h'.1
  rw [← h.2 x hx, ← h'.2 y hy]
  rw [dotProduct_mulVec, ← mulVec_transpose, ← hy, dotProduct_mulVec I, ← mulVec_transpose, transpose_transpose, ← hx]
  rw [dotProduct_comm, dotProduct_mulVec, ← mulVec_transpose, hK]

theorem annSum_turn {n : ℕ} (s : Bool) (a : Fin n → ℝ) : (annSum s a)ᵀ = creSum s a := by
  simp only [annSum, creSum, transpose_sum, transpose_smul]
  rfl

theorem creSum_turn {n : ℕ} (s : Bool) (a : Fin n → ℝ) : (creSum s a)ᵀ = annSum s a := by
  rw [← annSum_turn, transpose_transpose]

variable {n : ℕ} {es : Espace (ℕ × ℕ)} {H : Matrix (Finset (Fin (n + n))) (Finset (Fin (n + n))) ℝ}

theorem IsSecondOrder.turn (hH : Hᵀ = H) {i j : Bool} {a b : List ℝ} {E z : ℝ} {F I : Finset (Fin (n + n)) → ℝ} {v v' : ℝ} (h : IsSecondOrder n H i j b a E z F I v)
    (h' : IsSecondOrder n H j i a b E z I F v') : v = v' := by
  obtain ⟨ve, vh, rfl, h1, h2⟩ := h
  obtain ⟨ve', vh', rfl, h1', h2'⟩ := h'
  have e1 : ve = ve' := IsAmplitude.turn (by rw [transpose_sub, transpose_smul, transpose_one, hH]) h1 (by rw [annSum_turn, creSum_turn]; exact h1')
  have e2 : vh = vh' := IsAmplitude.turn (by rw [transpose_add, transpose_smul, transpose_one, hH]) h2 (by rw [annSum_turn, creSum_turn]; exact h2')
  rw [e1, e2]

theorem coChannels_turn (q qF : ℕ × ℕ) : coChannels qF q = (coChannels q qF).map Prod.swap := by
  obtain ⟨u, d⟩ := q
  obtain ⟨u', d'⟩ := qF
  have key : ∀ b1 b2 b3 b4 : Bool, ¬ (b2 = true ∧ b3 = true) →
      ([(false, false), (false, true), (true, false), (true, true)] : List (Bool × Bool)).filter (fun ij => bif ij.1 then (bif ij.2 then b4 else b2) else (bif ij.2 then b3 else b1)) =
      (([(false, false), (false, true), (true, false), (true, true)] : List (Bool × Bool)).filter (fun ij => bif ij.1 then (bif ij.2 then b4 else b3) else (bif ij.2 then b2 else b1))).map Prod.swap := by
    decide
  have := key (decide (shiftUp false (u', d') = shiftUp false (u, d))) (decide (shiftUp false (u', d') = shiftUp true (u, d)))
    (decide (shiftUp true (u', d') = shiftUp false (u, d))) (decide (shiftUp true (u', d') = shiftUp true (u, d))) (by
      simp only [decide_eq_true_eq, shiftUp, Prod.mk.injEq, Bool.false_eq_true, if_true, if_false]
      omega)
  unfold coChannels
  convert this using 1
  · refine List.filter_congr fun ij _ => ?_
    obtain ⟨i, j⟩ := ij
    cases i <;> cases j <;> simp [eq_comm]
  · congr 1

/-! ### The stored elements -/

/-- The value of a call, zero if it raises. -/
noncomputable def callValue (z : ℝ) (A : List (List ℝ)) (e j : ℕ) (s : CoSigma) : ℝ := (s.call z A e j).toOption.getD 0

/-- The sum of the squared amplitudes stored for a pair of states. -/
noncomputable def strength (sd : SigmaDict) (z : ℝ) (A : List (List ℝ)) (e j : ℕ) (F I : TId) : ℝ :=
  match dictGet sd (F, I) with
  | .ok l => (l.map (callValue z A e j)).sum
  | .error _ => 0

/-- What a stored list is. -/
def StoredList (n : ℕ) (H : Matrix (Finset (Fin (n + n))) (Finset (Fin (n + n))) ℝ) (es : Espace (ℕ × ℕ)) (egs : ℝ) (sd : SigmaDict) (F I : TId) (l : List CoSigma) : Prop :=
  ∃ qF f q k l', F = stId qF f ∧ I = stId q k ∧ (qF.1 ≤ n ∧ qF.2 ≤ n ∧ f < n.choose qF.1 * n.choose qF.2 ∧ stateEnergy es qF f = egs) ∧
    (q.1 ≤ n ∧ q.2 ≤ n ∧ k < n.choose q.1 * n.choose q.2 ∧ stateEnergy es q k = egs) ∧
    List.Forall₂ (IsCoElem n H es qF f q k) (coChannels q qF) l ∧ dictGet sd (I, F) = .ok l' ∧ List.Forall₂ (IsCoElem n H es q k qF f) (coChannels qF q) l'

theorem stored_lists (hn : n ≤ 32) (hn0 : 0 < n) (h : EigenEspace n H es) (junk : ℕ) {egs c : ℝ} (hg : OnlyGround n es egs c) :
    ∃ sd, coBuild junk n egs es (some c) = .ok sd ∧ ∀ F I l, dictGet sd (F, I) = .ok l → StoredList n H es egs sd F I l := by
  obtain ⟨sd0, sd, h0, h1, hsub, hcut⟩ := C144_cutoff hn hn0 h junk egs c
  obtain ⟨sd1, h2, hnd, hkeys, hall⟩ := C144_elements hn hn0 h junk egs
  rw [h0] at h2
  injection h2 with h2
  subst h2
  refine ⟨sd, h1, fun F I l hl => ?_⟩
  obtain ⟨qF, f, q, k, a1, a2, a3, a4, a5, a6⟩ := hkeys _ (hsub _ (dictGet_mem_of_ok hl))
  injection a6 with e1 e2
  subst e1; subst e2
  obtain ⟨g1, g2, g3, g4⟩ := (hcut qF f q k a1 a2 a3 a4 l).mp hl
  obtain ⟨l0, b1, b2⟩ := hall qF f q k a1 a2 a3 a4 a5
  rw [g1] at b1
  injection b1 with b1
  subst b1
  have a5' : coChannels qF q ≠ [] := by rw [coChannels_turn]; simpa using a5
  obtain ⟨l', c1, c2⟩ := hall q k qF f a2 a1 a4 a3 a5'
  exact ⟨qF, f, q, k, l', rfl, rfl, ⟨a1.1, a1.2.1, a3, hg qF f a1.1 a1.2.1 a3 g3⟩, ⟨a2.1, a2.2.1, a4, hg q k a2.1 a2.2.1 a4 g4⟩, b2,
    (hcut q k qF f a2 a1 a4 a3 l').mpr ⟨c1, by rw [abs_sub_comm]; exact g2, g4, g3⟩, c2⟩

theorem elem_call {qF q : ℕ × ℕ} {f k : ℕ} {ij : Bool × Bool} {s : CoSigma} (hs : IsCoElem n H es qF f q k ij s) {egs z : ℝ} (hq : q.1 ≤ n ∧ q.2 ≤ n ∧ k < n.choose q.1 * n.choose q.2 ∧ stateEnergy es q k = egs)
    (hr : NoResonance n es egs z) {A : List (List ℝ)} {e j : ℕ} {a b : List ℝ} (ha : A[e]? = some a) (hb : A[j]? = some b) (la : a.length = n) (lb : b.length = n) :
    ∃ v, s.call z A e j = .ok (v ^ 2) ∧ IsSecondOrder n H ij.1 ij.2 b a egs z (stateKet n es qF f) (stateKet n es q k) v := by
  obtain ⟨q1, q2, q3, q4⟩ := hq
  have := hs.2 z A e j a b ha hb la lb (fun m hm hc => (hr q k q1 q2 q3 q4 ij.2).1 m hm (by rw [← hc, q4]; ring))
    (fun qJ hJ m hm hc => (hr q k q1 q2 q3 q4 ij.1).2 qJ hJ m hm (by rw [← hc, q4]; ring))
  rwa [q4] at this

theorem forall₂_turn {α β γ : Type} {R : α → β → Prop} {R' : α → γ → Prop} {r : β → ℝ} {r' : γ → ℝ} : ∀ {cs : List α} {l : List β} {l' : List γ}, List.Forall₂ R cs l → List.Forall₂ R' cs l' →
    (∀ c s s', R c s → R' c s' → r s = r' s') → (l.map r).sum = (l'.map r').sum
  | [], _, _, .nil, .nil, _ => rfl
  | _ :: _, _, _, .cons h1 h2, .cons h1' h2', hr => by
    simp only [List.map_cons, List.sum_cons]
    rw [hr _ _ _ h1 h1', forall₂_turn h2 h2' hr]

/-- The rates of `approximate` between ground states, and their symmetry. -/
structure Reversible (sd : SigmaDict) (a0 a1 : List ℝ) (m0 m1 z : ℝ) : Prop where
  called : ∀ F I l, dictGet sd (F, I) = .ok l → ∀ s ∈ l, s.gf2.dE = 0 ∧ ∀ e j, e < 2 → j < 2 → s.call z [a0, a1] e j = .ok (callValue z [a0, a1] e j s) ∧ 0 ≤ callValue z [a0, a1] e j s
  symm : ∀ F I e j, e < 2 → j < 2 → strength sd z [a0, a1] e j F I = strength sd z [a0, a1] j e I F

theorem lead_get {a0 a1 : List ℝ} (h0 : a0.length = n) (h1 : a1.length = n) {e : ℕ} (he : e < 2) : ∃ a, ([a0, a1] : List (List ℝ))[e]? = some a ∧ a.length = n := by
  have : e = 0 ∨ e = 1 := by omega
  rcases this with rfl | rfl
  · exact ⟨a0, rfl, h0⟩
  · exact ⟨a1, rfl, h1⟩

theorem reversible_of (hH : Hᵀ = H) {egs z : ℝ} {sd : SigmaDict} (hst : ∀ F I l, dictGet sd (F, I) = .ok l → StoredList n H es egs sd F I l) (hr : NoResonance n es egs z) {a0 a1 : List ℝ} (h0 : a0.length = n)
    (h1 : a1.length = n) (m0 m1 : ℝ) : Reversible sd a0 a1 m0 m1 z := by
  refine ⟨fun F I l hl s hs => ?_, ?_⟩
  · obtain ⟨qF, f, q, k, l', rfl, rfl, hF, hq, hall, -, -⟩ := hst F I l hl
    obtain ⟨ij, -, hel⟩ : ∃ ij ∈ coChannels q qF, IsCoElem n H es qF f q k ij s := by
      obtain ⟨i, hi, rfl⟩ := List.getElem_of_mem hs
      have hi' : i < (coChannels q qF).length := by rw [hall.length_eq]; exact hi
      exact ⟨(coChannels q qF)[i], List.getElem_mem hi', List.forall₂_iff_get.mp hall |>.2 i hi' hi⟩
    refine ⟨by rw [hel.1, hF.2.2.2, hq.2.2.2, sub_self], fun e j he hj => ?_⟩
    obtain ⟨a, ha, la⟩ := lead_get h0 h1 he
    obtain ⟨b, hb, lb⟩ := lead_get h0 h1 hj
    obtain ⟨v, hv, -⟩ := elem_call hel hq hr ha hb la lb
    have : callValue z [a0, a1] e j s = v ^ 2 := by simp [callValue, hv, Except.toOption]
    rw [this]
    exact ⟨hv, sq_nonneg v⟩
  · have main : ∀ F I l, dictGet sd (F, I) = .ok l → ∀ e j, e < 2 → j < 2 → strength sd z [a0, a1] e j F I = strength sd z [a0, a1] j e I F := by
      intro F I l hl e j he hj
      obtain ⟨qF, f, q, k, l', rfl, rfl, hF, hq, hall, hl', hall'⟩ := hst F I l hl
      obtain ⟨a, ha, la⟩ := lead_get h0 h1 he
      obtain ⟨b, hb, lb⟩ := lead_get h0 h1 hj
      rw [coChannels_turn, List.forall₂_map_left_iff] at hall'
      unfold strength
      rw [hl, hl']
      refine forall₂_turn hall hall' fun ij s s' hs hs' => ?_
      obtain ⟨v, hv, s1⟩ := elem_call hs hq hr ha hb la lb
      obtain ⟨v', hv', s2⟩ := elem_call hs' hF hr hb ha lb la
      simp [callValue, hv, hv', Except.toOption, s1.turn hH s2]
    intro F I e j he hj
    cases hl : dictGet sd (F, I) with
    | ok l => exact main F I l hl e j he hj
    | error x =>
      cases hl' : dictGet sd (I, F) with
      | ok l => exact (main I F l hl' j e hj he).symm
      | error y => simp [strength, hl, hl']

/-! ### Rates and currents -/

/-- The thermal factor of the pair of leads. -/
noncomputable def factor (beta m0 m1 : ℝ) (e j : Fin 2) : ℝ := coG beta (0 - (if e = 0 then m0 else m1) + if j = 0 then m0 else m1)

/-- The rates as a family over states and leads. -/
noncomputable def rateOf (sd : SigmaDict) (a0 a1 : List ℝ) (beta m0 m1 z : ℝ) (e j : Fin 2) (f i : Fin (coFinalIds sd).length) : ℝ :=
  factor beta m0 m1 e j * strength sd z [a0, a1] e j (coFinalIds sd)[f] (coFinalIds sd)[i]

section
variable {sd : SigmaDict} {a0 a1 : List ℝ} {beta m0 m1 : ℝ}

theorem approximate_value (h : Reversible sd a0 a1 m0 m1 (0.5 * (m0 + m1))) {F I : TId} {l : List CoSigma} (hl : dictGet sd (F, I) = .ok l) {s : CoSigma} (hs : s ∈ l) (e j : Fin 2) :
    CoSigma.approximate [a0, a1] beta [m0, m1] e j s = .ok (factor beta m0 m1 e j * callValue (0.5 * (m0 + m1)) [a0, a1] e j s) := by
  obtain ⟨hd, hc⟩ := h.called F I l hl s hs
  have hc' := (hc e j e.2 j.2).1
  have g : ∀ e : Fin 2, getItem [m0, m1] ((e : ℕ) : ℤ) = .ok (if e = 0 then m0 else m1) := by
    intro e; fin_cases e <;> rfl
  unfold CoSigma.approximate
  rw [g e, g j, hd]
  simp only [bind, Except.bind, pure, Except.pure, List.sum_cons, List.sum_nil, add_zero, zero_add]
  rw [hc']
  simp only [factor]

theorem coGamma_value (h : Reversible sd a0 a1 m0 m1 (0.5 * (m0 + m1))) (F I : TId) (e j : Fin 2) :
    (coGamma sd (CoSigma.approximate [a0, a1] beta [m0, m1] e j) F I).getD 0 = factor beta m0 m1 e j * strength sd (0.5 * (m0 + m1)) [a0, a1] e j F I := by
  cases hl : dictGet sd (F, I) with
  | error x => simp [coGamma, strength, hl, bind, Except.bind, Except.toOption]
  | ok l =>
    rw [coGamma_sum hl fun s hs => approximate_value h hl hs e j]
    simp [strength, hl, List.sum_map_mul_left]

theorem transition_value (h : Reversible sd a0 a1 m0 m1 (0.5 * (m0 + m1))) (f i : Fin (coFinalIds sd).length) :
    coTransition sd (CoSigma.approximate [a0, a1] beta [m0, m1]) 0 1 f i = rateOf sd a0 a1 beta m0 m1 (0.5 * (m0 + m1)) 0 1 f i - rateOf sd a0 a1 beta m0 m1 (0.5 * (m0 + m1)) 1 0 f i := by
  unfold coTransition rateOf
  rw [List.getElem?_eq_getElem f.2, List.getElem?_eq_getElem i.2]
  simp only [Fin.getElem_fin]
  cases hl : dictGet sd ((coFinalIds sd)[(f : ℕ)], (coFinalIds sd)[(i : ℕ)]) with
  | error x => simp [coGamma, strength, hl, bind, Except.bind, Except.toOption]
  | ok l =>
    rw [coGamma_sum hl (r := fun s => factor beta m0 m1 0 1 * callValue (0.5 * (m0 + m1)) [a0, a1] 0 1 s - factor beta m0 m1 1 0 * callValue (0.5 * (m0 + m1)) [a0, a1] 1 0 s) fun s hs => by
      have e1 := approximate_value (beta := beta) h hl hs 0 1
      have e2 := approximate_value (beta := beta) h hl hs 1 0
      simp only [Fin.val_zero, Fin.val_one] at e1 e2
      simp only [e1, e2, bind, Except.bind, pure, Except.pure]]
    simp only [Option.getD_some, strength, hl, Fin.val_zero, Fin.val_one, sub_eq_add_neg, List.sum_map_add, ← neg_mul, List.sum_map_mul_left]

theorem rate_value (h : Reversible sd a0 a1 m0 m1 (0.5 * (m0 + m1))) {f i : Fin (coFinalIds sd).length} (hfi : f ≠ i) :
    coRate sd (CoSigma.approximate [a0, a1] beta [m0, m1]) f i = ∑ e, ∑ j, rateOf sd a0 a1 beta m0 m1 (0.5 * (m0 + m1)) e j f i := by
  rw [coRate_off sd _ f.2 i.2 fun h => hfi (Fin.ext h)]
  have hnd : ndindex2 2 2 = [(0, 0), (0, 1), (1, 0), (1, 1)] := by decide
  have hg : ∀ e j : Fin 2, coFlow sd (CoSigma.approximate [a0, a1] beta [m0, m1] e j) (i, f) = rateOf sd a0 a1 beta m0 m1 (0.5 * (m0 + m1)) e j f i := by
    intro e j
    simp only [coFlow, List.getElem?_eq_getElem f.2, List.getElem?_eq_getElem i.2]
    rw [coGamma_value h]
    rfl
  have g00 := hg 0 0
  have g01 := hg 0 1
  have g10 := hg 1 0
  have g11 := hg 1 1
  simp only [Fin.val_zero, Fin.val_one] at g00 g01 g10 g11
  simp only [hnd, List.map_cons, List.map_nil, List.sum_cons, List.sum_nil, g00, g01, g10, g11, Fin.sum_univ_two]
  ring

theorem current_value (h : Reversible sd a0 a1 m0 m1 (0.5 * (m0 + m1))) (p : ℕ → ℝ) :
    elasticCurrent sd [a0, a1] beta [m0, m1] p = Elastic.passed (rateOf sd a0 a1 beta m0 m1 (0.5 * (m0 + m1))) fun i => p i := by
  unfold elasticCurrent Elastic.passed
  rw [Finset.sum_range]
  refine Finset.sum_congr rfl fun f _ => ?_
  rw [Finset.sum_range]
  exact Finset.sum_congr rfl fun i _ => by rw [transition_value h]

theorem stationary_value (h : Reversible sd a0 a1 m0 m1 (0.5 * (m0 + m1))) {p : ℕ → ℝ} (hp : IsStationary (coFinalIds sd).length (coRate sd (CoSigma.approximate [a0, a1] beta [m0, m1])) p)
    (i : Fin (coFinalIds sd).length) :
    ∑ f, (∑ e, ∑ j, rateOf sd a0 a1 beta m0 m1 (0.5 * (m0 + m1)) e j f i) * p i = ∑ f, (∑ e, ∑ j, rateOf sd a0 a1 beta m0 m1 (0.5 * (m0 + m1)) e j i f) * p f := by
  set W := coRate sd (CoSigma.approximate [a0, a1] beta [m0, m1]) with hW
  set R := fun f i : Fin (coFinalIds sd).length => ∑ e, ∑ j, rateOf sd a0 a1 beta m0 m1 (0.5 * (m0 + m1)) e j f i with hR
  have hoff : ∀ f i : Fin (coFinalIds sd).length, f ≠ i → W f i = R f i := fun f i hfi => rate_value h hfi
  have h1 : ∑ f : Fin (coFinalIds sd).length, W f i = 0 := by
    rw [← Finset.sum_range fun f => W f i]
    exact C55_cotunneling_conserves sd _ i.2
  have h2 : ∑ f : Fin (coFinalIds sd).length, W i f * p f = 0 := by
    rw [← Finset.sum_range fun f => W i f * p f]
    exact hp i i.2
  have e1 : ∑ f : Fin (coFinalIds sd).length, (R f i - W f i) * p i = (R i i - W i i) * p i :=
    Finset.sum_eq_single i (fun f _ hf => by rw [hoff f i hf]; ring) (fun h => absurd (Finset.mem_univ i) h)
  have e2 : ∑ f : Fin (coFinalIds sd).length, (R i f - W i f) * p f = (R i i - W i i) * p i :=
    Finset.sum_eq_single i (fun f _ hf => by rw [hoff i f (Ne.symm hf)]; ring) (fun h => absurd (Finset.mem_univ i) h)
  have e3 : ∑ f : Fin (coFinalIds sd).length, (R f i - W f i) * p i = ∑ f, R f i * p i := by
    simp only [sub_mul, Finset.sum_sub_distrib, ← Finset.sum_mul, h1, zero_mul, sub_zero]
  have e4 : ∑ f : Fin (coFinalIds sd).length, (R i f - W i f) * p f = ∑ f, R i f * p f := by
    simp only [sub_mul, Finset.sum_sub_distrib, h2, sub_zero]
  rw [← e3, ← e4, e1, e2]

theorem strength_nonneg {z : ℝ} (h : Reversible sd a0 a1 m0 m1 z) (F I : TId) {e j : ℕ} (he : e < 2) (hj : j < 2) : 0 ≤ strength sd z [a0, a1] e j F I := by
  unfold strength
  cases hl : dictGet sd (F, I) with
  | error x => exact le_rfl
  | ok l =>
    refine List.sum_nonneg fun x hx => ?_
    obtain ⟨s, hs, rfl⟩ := List.mem_map.mp hx
    exact ((h.called F I l hl s hs).2 e j he hj).2

theorem factor_nonneg (hb : 0 < beta) (e j : Fin 2) : 0 ≤ factor beta m0 m1 e j := coG_nonneg hb _

theorem rateOf_nonneg (hb : 0 < beta) {z : ℝ} (h : Reversible sd a0 a1 m0 m1 z) (e j : Fin 2) (f i : Fin (coFinalIds sd).length) : 0 ≤ rateOf sd a0 a1 beta m0 m1 z e j f i :=
  mul_nonneg (factor_nonneg hb e j) (strength_nonneg h _ _ e.2 j.2)

/-- The force of a pair of leads. -/
noncomputable def force (x : ℝ) (e j : Fin 2) : ℝ := if e = j then 0 else if e = 0 then x else -x

theorem force_anti (x : ℝ) (e j : Fin 2) : force x j e = -force x e j := by
  fin_cases e <;> fin_cases j <;> simp [force]

/-- Below the upper limit of `G` the rates of opposite processes are in the ratio of a Boltzmann factor. -/
theorem flow_of (hb : 0 < beta) (h : Reversible sd a0 a1 m0 m1 (0.5 * (m0 + m1))) {p : ℕ → ℝ}
    (hp : IsStationary (coFinalIds sd).length (coRate sd (CoSigma.approximate [a0, a1] beta [m0, m1])) p) (hpos : ∀ i, i < (coFinalIds sd).length → 0 ≤ p i) {x : ℝ}
    (hx : coG beta (m0 - m1) = Real.exp (-x) * coG beta (m1 - m0)) :
    Elastic.Flow0 (rateOf sd a0 a1 beta m0 m1 (0.5 * (m0 + m1))) (fun i => p i) (force x) := by
  refine ⟨fun e j f i => rateOf_nonneg hb h e j f i, fun i => hpos i i.2, force_anti x, fun e j f i => ?_, stationary_value h hp⟩
  have hf : factor beta m0 m1 j e = Real.exp (-force x e j) * factor beta m0 m1 e j := by
    have hx' : coG beta (m1 - m0) = Real.exp x * coG beta (m0 - m1) := by rw [hx, ← mul_assoc, ← Real.exp_add]; simp
    have e0 : (0 : ℝ) - m0 + m1 = m1 - m0 := by ring
    have e1 : (0 : ℝ) - m1 + m0 = m0 - m1 := by ring
    have e2 : (0 : ℝ) - m0 + m0 = 0 - m1 + m1 := by ring
    have f01 : factor beta m0 m1 0 1 = coG beta (m1 - m0) := by simp only [factor, if_true, one_ne_zero, if_false, e0]
    have f10 : factor beta m0 m1 1 0 = coG beta (m0 - m1) := by simp only [factor, if_true, one_ne_zero, if_false, e1]
    fin_cases e <;> fin_cases j
    · simp [force]
    · simpa [force, f01, f10] using hx
    · simpa [force, f01, f10] using hx'
    · simp [force]
  unfold rateOf
  rw [hf, h.symm _ _ j e j.2 e.2]
  ring

theorem factor_01 : factor beta m0 m1 0 1 = coG beta (m1 - m0) := by
  have e0 : (0 : ℝ) - m0 + m1 = m1 - m0 := by ring
  simp only [factor, if_true, one_ne_zero, if_false, e0]

theorem factor_10 : factor beta m0 m1 1 0 = coG beta (m0 - m1) := by
  have e1 : (0 : ℝ) - m1 + m0 = m0 - m1 := by ring
  simp only [factor, if_true, one_ne_zero, if_false, e1]

theorem coG_small {w : ℝ} (h : beta * |w| < 1e-18) : coG beta w = 1 := by rw [coG, if_pos h]

theorem coG_large (hb : 0 < beta) {w : ℝ} (h : 1000 < beta * w) : coG beta w = 0 := by
  have hw : 0 < w := by
    by_contra hw
    have := mul_nonpos_of_nonneg_of_nonpos hb.le (not_lt.mp hw)
    linarith
  have h1 : ¬ beta * |w| < 1e-18 := by
    rw [abs_of_pos hw]
    intro h0
    norm_num at h0
    linarith
  rw [coG, if_neg h1, if_pos h]

/-- The cases of `G`: the two rates are in the ratio of a Boltzmann factor that has the sign of the bias, or the bias is so small that they are equal, or so large that one of them is zero. -/
theorem factor_cases (hb : 0 < beta) (m0 m1 : ℝ) :
    (beta * |m0 - m1| < 1e-18 ∧ coG beta (m0 - m1) = coG beta (m1 - m0)) ∨
    (m0 ≠ m1 ∧ coG beta (m0 - m1) = Real.exp (-(beta * (m0 - m1))) * coG beta (m1 - m0)) ∨
    (m1 < m0 ∧ coG beta (m0 - m1) = 0) ∨ (m0 < m1 ∧ coG beta (m1 - m0) = 0) := by
  by_cases h1 : beta * |m0 - m1| < 1e-18
  · exact .inl ⟨h1, by rw [coG_small h1, coG_small (by rw [abs_sub_comm]; exact h1)]⟩
  · by_cases h2 : |beta * (m0 - m1)| ≤ 1000
    · refine .inr (.inl ⟨fun h0 => h1 (by rw [h0]; norm_num), ?_⟩)
      have := coG_rev (beta := beta) (w := m1 - m0) (by rw [abs_sub_comm]; exact not_lt.mp h1) (by rw [← neg_sub, mul_neg, abs_neg]; exact h2)
      rw [neg_sub] at this
      rw [this]
      congr 2
      ring
    · rcases le_or_gt m0 m1 with h3 | h3
      · have h4 : 1000 < beta * (m1 - m0) := by
          rw [abs_of_nonpos (mul_nonpos_of_nonneg_of_nonpos hb.le (by linarith))] at h2
          linarith
        refine .inr (.inr (.inr ⟨lt_of_le_of_ne h3 fun h0 => ?_, coG_large hb h4⟩))
        rw [h0, sub_self, mul_zero] at h4
        linarith
      · rw [abs_of_nonneg (mul_nonneg hb.le (by linarith))] at h2
        exact .inr (.inr (.inl ⟨h3, coG_large hb (not_le.mp h2)⟩))

/-- The currents of reversible elements. -/
theorem reversible_current (hb : 0 < beta) (h : Reversible sd a0 a1 m0 m1 (0.5 * (m0 + m1))) {p : ℕ → ℝ}
    (hp : IsStationary (coFinalIds sd).length (coRate sd (CoSigma.approximate [a0, a1] beta [m0, m1])) p) (hpos : ∀ i, i < (coFinalIds sd).length → 0 ≤ p i) :
    0 ≤ (m0 - m1) * elasticCurrent sd [a0, a1] beta [m0, m1] p ∧ (m0 = m1 → elasticCurrent sd [a0, a1] beta [m0, m1] p = 0) ∧
      ∀ i, i < (coFinalIds sd).length → 0 < p i → coTransition sd (CoSigma.approximate [a0, a1] beta [m0, m1]) 0 1 i i ≠ 0 → 0 < (m0 - m1) * elasticCurrent sd [a0, a1] beta [m0, m1] p := by
  rw [current_value h]
  set g := rateOf sd a0 a1 beta m0 m1 (0.5 * (m0 + m1)) with hg
  have hgn : ∀ e j f i, 0 ≤ g e j f i := rateOf_nonneg hb h
  have hsum : ∀ (e j : Fin 2) (i : Fin (coFinalIds sd).length), g e j i i * p i ≤ ∑ f, ∑ i : Fin (coFinalIds sd).length, g e j f i * p i := fun e j i =>
    (Finset.single_le_sum (f := fun k : Fin (coFinalIds sd).length => g e j i k * p k) (fun k _ => mul_nonneg (hgn e j i k) (hpos k k.2)) (Finset.mem_univ i)).trans
      (Finset.single_le_sum (f := fun f => ∑ k : Fin (coFinalIds sd).length, g e j f k * p k) (fun f _ => Finset.sum_nonneg fun k _ => mul_nonneg (hgn e j f k) (hpos k k.2)) (Finset.mem_univ i))
  have hn : ∀ e j : Fin 2, 0 ≤ ∑ f, ∑ i : Fin (coFinalIds sd).length, g e j f i * p i := fun e j =>
    Finset.sum_nonneg fun f _ => Finset.sum_nonneg fun k _ => mul_nonneg (hgn e j f k) (hpos k k.2)
  have hpass : Elastic.passed g (fun i => p i) = ∑ f, ∑ i : Fin (coFinalIds sd).length, g 0 1 f i * p i - ∑ f, ∑ i : Fin (coFinalIds sd).length, g 1 0 f i * p i := by
    simp only [Elastic.passed, sub_mul, Finset.sum_sub_distrib]
  rcases factor_cases hb m0 m1 with ⟨h1, h2⟩ | ⟨h1, h2⟩ | ⟨h1, h2⟩ | ⟨h1, h2⟩
  · have hf := flow_of hb h hp hpos (x := 0) (by rw [h2]; simp)
    obtain ⟨ho, he⟩ := hf.occupied
    have h0 : Elastic.passed g (fun i => p i) = 0 := by rw [he]; exact ho.no_force (by simp [force])
    refine ⟨by rw [h0, mul_zero], fun _ => h0, fun i hi _ hT => absurd ?_ hT⟩
    have := transition_value (beta := beta) h ⟨i, hi⟩ ⟨i, hi⟩
    rw [this, hf.rev 0 1]
    simp [force]
  · have hf := flow_of hb h hp hpos h2
    obtain ⟨ho, he⟩ := hf.occupied
    have e01 : force (beta * (m0 - m1)) 0 1 = beta * (m0 - m1) := by simp [force]
    have hx : beta * (m0 - m1) ≠ 0 := mul_ne_zero hb.ne' (sub_ne_zero.mpr h1)
    refine ⟨?_, fun h0 => absurd h0 h1, fun i hi hpi hT => ?_⟩
    · have := ho.second_law
      rw [← he, e01, mul_assoc] at this
      exact nonneg_of_mul_nonneg_right this hb
    · have hTi := transition_value (beta := beta) h ⟨i, hi⟩ ⟨i, hi⟩
      have hgi : g 0 1 ⟨i, hi⟩ ⟨i, hi⟩ ≠ 0 := by
        intro h0
        refine hT ?_
        rw [hTi, hf.rev 0 1, ← hg, h0]
        ring
      have := ho.strict (by rw [e01]; exact hx) (i := ⟨⟨i, hi⟩, hpi⟩) hgi
      rw [← he, e01, mul_assoc] at this
      exact (mul_pos_iff_of_pos_left hb).mp this
  · have z : ∀ f i, g 1 0 f i = 0 := fun f i => by rw [hg, rateOf, factor_10, h2, zero_mul]
    simp only [z, zero_mul, Finset.sum_const_zero, sub_zero] at hpass
    rw [hpass]
    refine ⟨mul_nonneg (by linarith) (hn 0 1), fun h0 => absurd h0 h1.ne', fun i hi hpi hT => mul_pos (by linarith) ?_⟩
    refine lt_of_lt_of_le (mul_pos (lt_of_le_of_ne (hgn 0 1 ⟨i, hi⟩ ⟨i, hi⟩) fun h0 => hT ?_) hpi) (hsum 0 1 ⟨i, hi⟩)
    have hTi := transition_value (beta := beta) h ⟨i, hi⟩ ⟨i, hi⟩
    rw [hTi, ← hg, z, ← h0, sub_zero]
  · have z : ∀ f i, g 0 1 f i = 0 := fun f i => by rw [hg, rateOf, factor_01, h2, zero_mul]
    simp only [z, zero_mul, Finset.sum_const_zero, zero_sub] at hpass
    rw [hpass]
    refine ⟨mul_nonneg_of_nonpos_of_nonpos (by linarith) (by linarith [hn 1 0]), fun h0 => absurd h0 h1.ne, fun i hi hpi hT => mul_pos_of_neg_of_neg (by linarith) ?_⟩
    refine neg_lt_zero.mpr (lt_of_lt_of_le (mul_pos (lt_of_le_of_ne (hgn 1 0 ⟨i, hi⟩ ⟨i, hi⟩) fun h0 => hT ?_) hpi) (hsum 1 0 ⟨i, hi⟩))
    have hTi := transition_value (beta := beta) h ⟨i, hi⟩ ⟨i, hi⟩
    rw [hTi, ← hg, z, ← h0, sub_zero]

/-- Without bias all degenerate ground states are occupied alike. -/
theorem reversible_uniform (h : Reversible sd a0 a1 m0 m0 (0.5 * (m0 + m0))) : IsStationary (coFinalIds sd).length (coRate sd (CoSigma.approximate [a0, a1] beta [m0, m0])) fun _ => 1 := by
  intro f hf
  simp only [mul_one]
  have hsymm : ∀ f i : Fin (coFinalIds sd).length, coRate sd (CoSigma.approximate [a0, a1] beta [m0, m0]) f i = coRate sd (CoSigma.approximate [a0, a1] beta [m0, m0]) i f := by
    intro f i
    by_cases hfi : f = i
    · rw [hfi]
    · rw [rate_value h hfi, rate_value h (Ne.symm hfi), Finset.sum_comm]
      refine Finset.sum_congr rfl fun e _ => Finset.sum_congr rfl fun j _ => ?_
      unfold rateOf
      rw [h.symm _ _ j e j.2 e.2]
      congr 1
      simp [factor]
  rw [← C55_cotunneling_conserves sd (CoSigma.approximate [a0, a1] beta [m0, m0]) hf]
  exact Finset.sum_congr rfl fun i hi => hsymm ⟨f, hf⟩ ⟨i, Finset.mem_range.mp hi⟩

end

/-! ### End to end -/

variable {a : HamArgs} {w : ℕ} {e0 : WithTop ℝ}

/-- **C202**. After `build_espace` on the full spectrum and `build_transition_elements` with a cutoff that keeps only states of one energy, away from resonance: in every stationary
distribution of `build_rate_matrix` the electrons do not flow from the lower to the higher chemical potential; without bias no current flows, and all states are equally probable in one stationary
distribution; and the current does not vanish if an occupied state carries one by itself. -/
theorem C202_second_law (ha : a.Valid) (hw : a.n ≤ w) (h : BuildEspace w a none (.ok (es, e0))) (junk : ℕ) {egs c : ℝ} (hg : OnlyGround a.n es egs c) {beta : ℝ} (hb : 0 < beta) {m0 m1 : ℝ}
    (hr : NoResonance a.n es egs ((m0 + m1) / 2)) {a0 a1 : List ℝ} (h0 : a0.length = a.n) (h1 : a1.length = a.n) :
    ∃ sd, coBuild junk a.n egs es (some c) = .ok sd ∧ (∀ p, (∀ i, i < (coFinalIds sd).length → 0 ≤ p i) →
      IsStationary (coFinalIds sd).length (coRate sd (CoSigma.approximate [a0, a1] beta [m0, m1])) p →
        0 ≤ (m0 - m1) * elasticCurrent sd [a0, a1] beta [m0, m1] p ∧ (m0 = m1 → elasticCurrent sd [a0, a1] beta [m0, m1] p = 0) ∧
        ∀ i, i < (coFinalIds sd).length → 0 < p i → coTransition sd (CoSigma.approximate [a0, a1] beta [m0, m1]) 0 1 i i ≠ 0 → 0 < (m0 - m1) * elasticCurrent sd [a0, a1] beta [m0, m1] p) ∧
      (m0 = m1 → IsStationary (coFinalIds sd).length (coRate sd (CoSigma.approximate [a0, a1] beta [m0, m1])) fun _ => 1) := by
  have hn0 : 0 < a.n := by have := ha.two_le; omega
  obtain ⟨sd, hsd, hst⟩ := stored_lists ha.le hn0 (buildEspace_eigen ha hw h) junk hg
  have hz : (m0 + m1) / 2 = 0.5 * (m0 + m1) := by ring
  rw [hz] at hr
  have hrev := reversible_of (ham_symm ha) hst hr h0 h1 m0 m1
  refine ⟨sd, hsd, fun p hp hs => reversible_current hb hrev hs hp, ?_⟩
  rintro rfl
  exact reversible_uniform hrev

/-! ### Two sites above the chemical potentials -/

theorem spin_pos {S : Finset (Fin (n + n))} (s : Bool) (i : Fin n) (h : orb s i ∈ S) : 0 < spinCount s S := by
  cases s
  · have : i ∈ upPart S := by simpa [upPart, orb] using h
    simpa [spinCount] using Finset.card_pos.mpr ⟨i, this⟩
  · have : i ∈ dwPart S := by simpa [dwPart, orb] using h
    simpa [spinCount] using Finset.card_pos.mpr ⟨i, this⟩

/-- An empty system with levels above the Fermi energy lets electrons pass from a site to itself. -/
theorem empty_passes {F : Finset (Fin (n + n)) → ℝ} {D : Finset (Fin (n + n)) → ℝ} (hD : ∀ S, 0 ≤ D S) (hF : F ≠ 0) (hS : ∀ s i S, orb s i ∈ S → F S = 0) {b : List ℝ} {k : Fin n} {s : Bool}
    (hb : ∀ m : Fin n, b[(m : ℕ)]?.getD 0 = if m = k then 1 else 0) {v : ℝ} (hv : IsSecondOrder n (Matrix.diagonal D) s s b b 0 0 F F v) : v ≠ 0 := by
  obtain ⟨ve, vh, rfl, ⟨⟨x, hx⟩, h2⟩, -, h4⟩ := hv
  have hc : creSum (n := n) s (fun m => b[(m : ℕ)]?.getD 0) = cre ℝ (orb s k) := by
    simp only [creSum, hb, ite_smul, one_smul, zero_smul, Finset.sum_ite_eq', Finset.mem_univ, if_true]
  have hc' : annSum (n := n) s (fun m => b[(m : ℕ)]?.getD 0) = ann ℝ (orb s k) := by
    simp only [annSum, hb, ite_smul, one_smul, zero_smul, Finset.sum_ite_eq', Finset.mem_univ, if_true]
  rw [hc] at hx h2 h4
  rw [hc'] at h2 h4
  have hann : ann ℝ (orb s k) *ᵥ F = 0 := by
    funext T
    change ∑ S, ann ℝ (orb s k) T S * F S = 0
    refine Finset.sum_eq_zero fun S _ => ?_
    rw [ann_apply]
    by_cases hm : orb s k ∈ S
    · rw [hS s k S hm, mul_zero]
    · rw [if_neg hm, zero_mul]
  have hvh : vh = 0 := by
    rw [← h4 0 (by rw [hann, mulVec_zero]), mulVec_zero, dotProduct_zero]
  have hK : (((0 : ℝ) + 0) • (1 : Matrix (Finset (Fin (n + n))) (Finset (Fin (n + n))) ℝ) - Matrix.diagonal D) *ᵥ x = fun S => -(D S * x S) := by
    funext S
    simp [sub_mulVec, mulVec_diagonal, neg_mulVec]
  have hve : ve = -∑ S, D S * x S ^ 2 := by
    rw [← h2 x hx]
    have : F ⬝ᵥ ann ℝ (orb s k) *ᵥ x = (cre ℝ (orb s k) *ᵥ F) ⬝ᵥ x := by
      rw [dotProduct_mulVec, ← mulVec_transpose]; rfl
    rw [this, ← hx, hK, ← Finset.sum_neg_distrib]
    exact Finset.sum_congr rfl fun S _ => by ring
  rw [hvh, add_zero]
  intro h0
  rw [hve, neg_eq_zero] at h0
  have hz := (Finset.sum_eq_zero_iff_of_nonneg fun S _ => mul_nonneg (hD S) (sq_nonneg (x S))).mp h0
  have hcre : cre ℝ (orb s k) *ᵥ F = 0 := by
    rw [← hx, hK]
    funext S
    have := hz S (Finset.mem_univ S)
    rcases mul_eq_zero.mp this with h | h
    · simp [h]
    · simp [pow_eq_zero_iff (two_ne_zero) |>.mp h]
  refine hF ?_
  have := congrArg (fun M => M *ᵥ F) (ann_cre_anticomm (R := ℝ) (orb s k) (orb s k))
  simp only [add_mulVec, ← mulVec_mulVec, hcre, hann, mulVec_zero, add_zero, if_true, one_mulVec] at this
  exact this.symm

theorem apart_state {es : Espace (ℕ × ℕ)} {E : WithTop ℝ} (hb : BuildEspace 64 (inField 1 1 apartArgs) none (.ok (es, E))) {q : ℕ × ℕ} (h1 : q.1 ≤ 2) (h2 : q.2 ≤ 2) {k : ℕ}
    (hk : k < Nat.choose 2 q.1 * Nat.choose 2 q.2) : (q = (0, 0) ∧ stateEnergy es q k = 0) ∨ 1 ≤ stateEnergy es q k := by
  have hes := buildEspace_eigen (inField_valid (hu := 1) (hd := 1) apartArgs_valid) (by simp [inField, apartArgs]) hb
  have hes2 : EigenEspace 2 (inField 1 1 apartArgs).ham es := hes
  obtain ⟨up, dw, -, -, -, -, -, k3⟩ := hes2.toCompleteEspace.at (u := q.1) (d := q.2) h1 h2
  have k4 : k < (sctAt es q).eigvals.length := by
    have : (sctAt es q).eigvals.length = Nat.choose 2 q.1 * Nat.choose 2 q.2 := k3
    omega
  have hm : stateEnergy es q k ∈ (sctAt es q).eigvals := by
    rw [stateEnergy, List.getElem?_eq_getElem k4]
    exact List.getElem_mem k4
  rw [apart_field hb h1 h2] at hm
  obtain ⟨l, hl, he⟩ := List.mem_map.mp hm
  by_cases hq : q = (0, 0)
  · subst hq
    rw [apart_zero] at hl
    simp only [List.mem_singleton] at hl
    subst hl
    exact .inl ⟨rfl, by rw [← he]; simp⟩
  · right
    have : 1 ≤ q.1 + q.2 := by
      by_contra h0
      exact hq (Prod.ext (by omega) (by omega))
    have hr : (1 : ℝ) ≤ (q.1 : ℝ) + q.2 := by exact_mod_cast this
    have : (0 : ℝ) ≤ l := Nat.cast_nonneg l
    rw [← he]
    linarith

/-- Non-vacuity: two empty uncoupled sites, both leads on the first one. A voltage drives a current through the empty ground state. -/
example : ∃ es e0 sd p, BuildEspace 64 (inField 1 1 apartArgs) none (.ok (es, e0)) ∧ OnlyGround 2 es 0 (1 / 2) ∧ NoResonance 2 es 0 ((1 + -1) / 2) ∧ coBuild 0 2 0 es (some (1 / 2)) = .ok sd ∧
    IsDist (coFinalIds sd).length p ∧ IsStationary (coFinalIds sd).length (coRate sd (CoSigma.approximate [[1, 0], [1, 0]] 1 [1, -1])) p ∧
    0 < (1 - -1) * elasticCurrent sd [[1, 0], [1, 0]] 1 [1, -1] p := by
  have hv := inField_valid (hu := 1) (hd := 1) apartArgs_valid
  obtain ⟨⟨⟨es, e0⟩, h⟩, -⟩ := buildEspace_none_ok hv (w := 64) (by simp [inField, apartArgs])
  have hes : EigenEspace 2 (inField 1 1 apartArgs).ham es := buildEspace_eigen hv (by simp [inField, apartArgs]) h
  have hog : OnlyGround 2 es 0 (1 / 2) := by
    intro q k h1 h2 hk hl
    rcases apart_state h h1 h2 hk with h0 | h0
    · exact h0.2
    · rw [sub_zero, abs_lt] at hl
      linarith [hl.2]
  have hnr : NoResonance 2 es 0 ((1 + -1) / 2) := by
    intro q k h1 h2 hk he s
    have hq : q = (0, 0) := by
      rcases apart_state h h1 h2 hk with h0 | h0
      · exact h0.1
      · linarith
    subst hq
    refine ⟨fun m hm hc => ?_, fun qJ hJ => ?_⟩
    · rcases apart_state h (q := shiftUp s (0, 0)) (by cases s <;> simp [shiftUp]) (by cases s <;> simp [shiftUp]) hm with h0 | h0
      · cases s <;> simp [shiftUp] at h0
      · rw [sub_zero] at hc
        linarith
    · cases s <;> simp [shiftUp] at hJ
  have hlow : GroundSector es 0 (0, 0) := (apart_ground_field le_rfl h (by norm_num) (by norm_num)).mpr rfl
  have hreach : CoReach 2 es 0 (0, 0) := ⟨by norm_num, by norm_num, (0, 0), by norm_num, by norm_num, hlow, false, false, rfl⟩
  obtain ⟨sd, hsd, hall, -⟩ := C202_second_law hv (by simp [inField, apartArgs]) h 0 hog one_pos hnr (a0 := [1, 0]) (a1 := [1, 0]) rfl rfl
  obtain ⟨sd', hsd', hst⟩ := stored_lists (by norm_num) (by norm_num) hes 0 hog
  have hsd2 : coBuild 0 2 0 es (some (1 / 2)) = .ok sd := hsd
  obtain rfl : sd' = sd := by
    rw [hsd2] at hsd'
    exact (Except.ok.inj hsd').symm
  -- something is stored
  obtain ⟨sdn, sdc, g0, g1, -, hcut⟩ := C144_cutoff (by norm_num) (by norm_num) hes 0 0 (1 / 2)
  obtain ⟨sdn', g2, -, -, hfull⟩ := C144_elements (by norm_num) (by norm_num) hes 0 0
  obtain rfl : sdn' = sdn := by
    rw [g0] at g2
    exact (Except.ok.inj g2).symm
  obtain rfl : sdc = sd' := by
    rw [hsd2] at g1
    exact (Except.ok.inj g1).symm
  have e00 : stateEnergy es (0, 0) 0 = 0 := by
    rcases apart_state h (q := (0, 0)) (by norm_num) (by norm_num) (k := 0) (by norm_num) with h0 | h0
    · exact h0.2
    · exfalso
      have := apart_field h (q := (0, 0)) (by norm_num) (by norm_num)
      rw [stateEnergy, this, apart_zero] at h0
      norm_num at h0
  obtain ⟨l, hl, hch⟩ := hfull (0, 0) 0 (0, 0) 0 hreach hreach (by norm_num) (by norm_num) (by decide)
  have hl' := (hcut (0, 0) 0 (0, 0) 0 hreach hreach (by norm_num) (by norm_num) l).mpr ⟨hl, by norm_num [e00], by norm_num [e00], by norm_num [e00]⟩
  have hids : ∀ F ∈ coFinalIds sdc, F = stId (0, 0) 0 := by
    intro F hF
    unfold coFinalIds at hF
    rw [mem_uniqueSorted] at hF
    obtain ⟨p, hp, rfl⟩ := List.mem_map.mp hF
    obtain ⟨l, hl⟩ : ∃ l, dictGet sdc p.1 = .ok l := by
      obtain ⟨⟨k, l⟩, hl⟩ := Option.isSome_iff_exists.mp (List.find?_isSome (p := fun x : (TId × TId) × List CoSigma => decide (x.1 = p.1)) (xs := sdc) |>.mpr ⟨p, hp, by simp⟩)
      have hk : k = p.1 := by simpa using List.find?_some hl
      subst hk
      exact ⟨l, dictGet_eq_ok.mpr hl⟩
    obtain ⟨qF, f, q, k, l', e1, -, ⟨a1, a2, a3, a4⟩, -⟩ := hst p.1.1 p.1.2 l hl
    rcases apart_state h a1 a2 a3 with h0 | h0
    · obtain ⟨rfl, -⟩ := h0
      have : f = 0 := by simpa using a3
      rw [e1, this]
    · linarith
  have hpos : 0 < (coFinalIds sdc).length := by
    refine List.length_pos_of_mem (a := stId (0, 0) 0) ?_
    unfold coFinalIds
    rw [mem_uniqueSorted]
    exact List.mem_map.mpr ⟨_, dictGet_mem_of_ok hl', rfl⟩
  obtain ⟨p, hd, hs⟩ := exists_stationary hpos (C55_cotunneling_approximate sdc one_pos [1, -1] [[1, 0], [1, 0]])
  refine ⟨es, e0, sdc, p, h, hog, hnr, hsd2, hd, hs, ?_⟩
  have hz : ((1 : ℝ) + -1) / 2 = 0.5 * (1 + -1) := by norm_num
  have hrev := reversible_of (ham_symm hv) hst (hz ▸ hnr) (a0 := [1, 0]) (a1 := [1, 0]) rfl rfl 1 (-1)
  obtain ⟨i, hi, hpi⟩ : ∃ i, i < (coFinalIds sdc).length ∧ 0 < p i := by
    by_contra hno
    push Not at hno
    have := hd.2
    rw [Finset.sum_eq_zero fun i hi => le_antisymm (hno i (Finset.mem_range.mp hi)) (hd.1 i (Finset.mem_range.mp hi))] at this
    norm_num at this
  refine (hall p hd.1 hs).2.2 i hi hpi ?_
  have hT := transition_value (beta := 1) hrev ⟨i, hi⟩ ⟨i, hi⟩
  have hF : (coFinalIds sdc)[i] = stId (0, 0) 0 := hids _ (List.getElem_mem hi)
  rw [show ((⟨i, hi⟩ : Fin (coFinalIds sdc).length) : ℕ) = i from rfl] at hT
  rw [hT]
  unfold rateOf
  simp only [Fin.getElem_fin, hF, Fin.val_zero, Fin.val_one]
  rw [hrev.symm _ _ 1 0 (by norm_num) (by norm_num), ← sub_mul, factor_01, factor_10]
  have hG : coG 1 (-1 - 1) - coG 1 (1 - -1) ≠ 0 := by
    have h2 := coG_rev (beta := 1) (w := 2) (by norm_num) (by norm_num)
    have h3 := C62_positive (beta := 1) one_pos (z := 2) (by norm_num)
    rw [show (-1 - 1 : ℝ) = -2 by norm_num, show (1 - -1 : ℝ) = 2 by norm_num, h2]
    have h4 : 1 < Real.exp (1 * 2) := Real.one_lt_exp_iff.mpr (by norm_num)
    have h5 : 0 < (Real.exp (1 * 2) - 1) * coG 1 2 := mul_pos (by linarith) h3
    intro h0
    linarith
  refine mul_ne_zero hG ?_
  have hc0 : ∀ s ∈ l, 0 ≤ callValue (0.5 * (1 + -1)) [[1, 0], [1, 0]] 0 1 s := fun s hs => ((hrev.called _ _ l hl' s hs).2 0 1 (by norm_num) (by norm_num)).2
  unfold strength
  rw [hl']
  have hchn : coChannels (0, 0) (0, 0) = [(false, false), (true, true)] := by decide
  rw [hchn] at hch
  cases hch with
  | @cons _ s _ t hs _ =>
    simp only [List.map_cons, List.sum_cons]
    have hq : ((0, 0) : ℕ × ℕ).1 ≤ 2 ∧ ((0, 0) : ℕ × ℕ).2 ≤ 2 ∧ 0 < Nat.choose 2 ((0, 0) : ℕ × ℕ).1 * Nat.choose 2 ((0, 0) : ℕ × ℕ).2 ∧ stateEnergy es (0, 0) 0 = 0 := ⟨by norm_num, by norm_num, by norm_num, e00⟩
    obtain ⟨v, hv1, hv2⟩ := elem_call hs hq (hz ▸ hnr) (A := [[1, 0], [1, 0]]) (e := 0) (j := 1) rfl rfl rfl rfl
    have hval : callValue (0.5 * (1 + -1)) [[1, 0], [1, 0]] 0 1 s = v ^ 2 := by
      unfold callValue
      rw [hv1]
      rfl
    have hham : (inField 1 1 apartArgs).ham = Matrix.diagonal fun S : Finset (Fin (2 + 2)) => (apartE S : ℝ) + fieldE 1 1 S := by
      have := ham_inField (a := apartArgs) (hu := 1) (hd := 1)
      rw [apart_ham] at this
      exact this.trans (Matrix.diagonal_add _ _)
    have hv0 : v ≠ 0 := by
      rw [show (0.5 * (1 + -1) : ℝ) = 0 by norm_num] at hv2
      refine empty_passes (n := 2) (k := 0) (s := false) (b := [1, 0]) (D := fun S => (apartE S : ℝ) + fieldE 1 1 S) (F := stateKet 2 es (0, 0) 0) (fun S => ?_) ?_ ?_ ?_ (hham ▸ hv2)
      · have : ∀ s, (0 : ℝ) ≤ (spinCount s S : ℝ) := fun s => by
          have : (0 : ℤ) ≤ spinCount s S := by cases s <;> simp [spinCount]
          exact_mod_cast this
        have h1 := this false
        have h2 := this true
        have h3 : (0 : ℝ) ≤ apartE S := Nat.cast_nonneg _
        simp only [fieldE]
        linarith
      · intro h0
        have := hes.basis.orth ⟨(0, 0), ⟨0, by decide⟩⟩ ⟨(0, 0), ⟨0, by decide⟩⟩
        have e : esKet 2 es ⟨(0, 0), ⟨0, by decide⟩⟩ = stateKet 2 es (0, 0) 0 := rfl
        rw [e, h0] at this
        simp at this
      · intro s i S hm
        by_contra h0
        have := hes.support ⟨(0, 0), ⟨0, by decide⟩⟩ (S := S) h0
        have hp := spin_pos s i hm
        cases s
        · rw [this.1] at hp; simp at hp
        · rw [this.2] at hp; simp at hp
      · intro m
        fin_cases m <;> simp
    have h1 : 0 < v ^ 2 := by positivity
    have h2 : 0 ≤ (t.map (callValue (0.5 * (1 + -1)) [[1, 0], [1, 0]] 0 1)).sum := List.sum_nonneg fun x hx => by
      obtain ⟨s', hs', rfl⟩ := List.mem_map.mp hx
      exact hc0 s' (List.mem_cons_of_mem _ hs')
    rw [hval]
    exact (by linarith : (0 : ℝ) < _).ne'

end Edpyt
