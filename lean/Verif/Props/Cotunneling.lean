import Verif.Model.Cotunneling
import Verif.Proof.Rates
import Verif.Proof.SqBuild
import Mathlib.Analysis.SpecialFunctions.ExpDeriv
import Verif.Spec.Rates
import Mathlib.Topology.Algebra.InfiniteSum.Order
import Mathlib.Analysis.PSeries
/-!
C55 (cotunnelling), C58, C60, C62: rates of cotunnelling.
-/
namespace Edpyt
open Spec

/-! ### C62 -/

/-- C62: the factor is never negative. -/
theorem coG_nonneg {beta : ℝ} (hb : 0 < beta) (z : ℝ) : 0 ≤ coG beta z := by
  unfold coG
  split
  · norm_num
  split
  · exact le_rfl
  · rcases le_total 0 z with h | h
    · have : 1 ≤ Real.exp (beta * z) := Real.one_le_exp (by positivity)
      exact div_nonneg h (by linarith)
    · have : Real.exp (beta * z) ≤ 1 := Real.exp_le_one_iff.mpr (mul_nonpos_of_nonneg_of_nonpos hb.le h)
      exact div_nonneg_of_nonpos h (by linarith)

/-- C62: as long as the code does not cut the exponential off, the factor is positive, -/
theorem C62_positive {beta : ℝ} (hb : 0 < beta) {z : ℝ} (hz : beta * z ≤ 1000) : 0 < coG beta z := by
  unfold coG
  split
  · norm_num
  · rename_i h1
    rw [if_neg (not_lt.mpr hz)]
    rcases lt_trichotomy z 0 with h | h | h
    · have : Real.exp (beta * z) < 1 := Real.exp_lt_one_iff.mpr (mul_neg_of_pos_of_neg hb h)
      exact div_pos_of_neg_of_neg h (by linarith)
    · subst h; norm_num at h1
    · have : 1 < Real.exp (beta * z) := Real.one_lt_exp_iff.mpr (by positivity)
      exact div_pos h (by linarith)

/-- C62: and it obeys detailed balance wherever the special treatment of small and large arguments does not apply. -/
theorem C62_balance {beta z : ℝ} (h0 : 1e-18 ≤ beta * |z|) (h1 : |beta * z| ≤ 1000) :
    coG beta z = Real.exp (-(beta * z)) * coG beta (-z) := by
  obtain ⟨h2, h3⟩ := abs_le.mp h1
  have hz : beta * z ≠ 0 := by
    intro h
    rcases mul_eq_zero.mp h with h | h <;> (rw [h] at h0; norm_num at h0)
  unfold coG
  rw [abs_neg, if_neg (not_lt.mpr h0), if_neg (not_lt.mpr h0), if_neg (by linarith), if_neg (by linarith), mul_neg]
  have hE := Real.exp_pos (beta * z)
  have hne : Real.exp (beta * z) - 1 ≠ 0 := by
    intro h
    exact hz ((Real.exp_eq_one_iff _).mp (by linarith))
  have hne' : Real.exp (-(beta * z)) - 1 ≠ 0 := by
    intro h
    exact hz (neg_eq_zero.mp ((Real.exp_eq_one_iff _).mp (by linarith)))
  rw [Real.exp_neg] at hne' ⊢
  generalize Real.exp (beta * z) = E at hE hne hne' ⊢
  have h4 : E⁻¹ - 1 = -(E - 1) / E := by field_simp; ring
  rw [h4]
  field_simp

/-- C62 is false at zero: the code returns 1 where the limit is `1/beta`. -/
theorem C62_refuted : ∃ beta : ℝ, 0 < beta ∧ coG beta 0 ≠ 1 / beta ∧
    Filter.Tendsto (fun z => z / (Real.exp (beta * z) - 1)) (nhdsWithin 0 {0}ᶜ) (nhds (1 / beta)) := by
  refine ⟨2, by norm_num, by unfold coG; norm_num, ?_⟩
  have h : HasDerivAt (fun z : ℝ => Real.exp (2 * z)) (Real.exp (2 * 0) * (2 * 1)) 0 := ((hasDerivAt_id 0).const_mul 2).exp
  simp only [mul_zero, Real.exp_zero, mul_one, one_mul] at h
  have h2 := h.tendsto_slope
  have h3 := h2.inv₀ (by norm_num)
  rw [one_div]
  refine h3.congr' ?_
  refine Filter.Eventually.of_forall fun z => ?_
  simp [slope_def_field]

/-- C62 also fails beyond the cut-off: the factor is zero, not positive. -/
theorem C62_cutoff_refuted : ∃ beta z : ℝ, 0 < beta ∧ coG beta z = 0 ∧ 0 < coG beta (-z) := by
  refine ⟨1, 1001, by norm_num, ?_, ?_⟩
  · unfold coG; norm_num
  · exact C62_positive (by norm_num) (by norm_num)

/-! ### C55 -/

/-- The flow from `I` to `F` for one pair of leads, zero if the code skips it. -/
noncomputable def coFlow (sd : SigmaDict) (integ : CoSigma → Except PyErr ℝ) (p : ℕ × ℕ) : ℝ :=
  match (coFinalIds sd)[p.2]?, (coFinalIds sd)[p.1]? with
  | some F, some I => (coGamma sd integ F I).getD 0
  | _, _ => 0

theorem coRateStep_eq (sd : SigmaDict) (integ : CoSigma → Except PyErr ℝ) (W : ℕ → ℕ → ℝ) (p : ℕ × ℕ) :
    coRateStep sd integ W p = if p.1 ≠ p.2 then addFlow W p.2 p.1 (coFlow sd integ p) else W := by
  unfold coRateStep coFlow
  by_cases h : p.1 = p.2
  · simp [h]
  · simp only [ne_eq, h, not_false_eq_true, if_true]
    cases h2 : (coFinalIds sd)[p.2]? with
    | none => simp [addFlow_zero]
    | some F =>
      cases h1 : (coFinalIds sd)[p.1]? with
      | none => simp [addFlow_zero]
      | some I =>
        cases h3 : coGamma sd integ F I with
        | none => simp [addFlow_zero, h3]
        | some γ => simp [h3]

theorem coRate_eq (sd : SigmaDict) (integ : ℕ → ℕ → CoSigma → Except PyErr ℝ) :
    coRate sd integ = (ndindex2 2 2).foldl (fun W l => flows (coFlow sd (integ l.1 l.2)) (ndindex2 (coFinalIds sd).length (coFinalIds sd).length) W)
      fun _ _ => 0 := by
  unfold coRate flows
  have h : ∀ l : ℕ × ℕ, coRateStep sd (integ l.1 l.2) = fun W p => if p.1 ≠ p.2 then addFlow W p.2 p.1 (coFlow sd (integ l.1 l.2) p) else W :=
    fun l => by funext W p; exact coRateStep_eq sd _ W p
  simp only [h]

theorem coRate_off (sd : SigmaDict) (integ : ℕ → ℕ → CoSigma → Except PyErr ℝ) {f i : ℕ} (hf : f < (coFinalIds sd).length)
    (hi : i < (coFinalIds sd).length) (h : f ≠ i) :
    coRate sd integ f i = ((ndindex2 2 2).map fun l => coFlow sd (integ l.1 l.2) (i, f)).sum := by
  rw [coRate_eq]
  have : ∀ (L : List (ℕ × ℕ)) W, L.foldl (fun W l => flows (coFlow sd (integ l.1 l.2)) (ndindex2 (coFinalIds sd).length (coFinalIds sd).length) W) W f i
      = W f i + (L.map fun l => coFlow sd (integ l.1 l.2) (i, f)).sum := by
    intro L
    induction L with
    | nil => simp
    | cons l L ih =>
      intro W
      rw [List.foldl_cons, ih, flows_ndindex_off _ _ hf hi h, List.map_cons, List.sum_cons]
      ring
  rw [this, zero_add]

theorem coRate_diag (sd : SigmaDict) (integ : ℕ → ℕ → CoSigma → Except PyErr ℝ) {i : ℕ} (hi : i < (coFinalIds sd).length) :
    coRate sd integ i i = -∑ f ∈ (Finset.range (coFinalIds sd).length).erase i, ((ndindex2 2 2).map fun l => coFlow sd (integ l.1 l.2) (i, f)).sum := by
  rw [coRate_eq]
  have : ∀ (L : List (ℕ × ℕ)) W, L.foldl (fun W l => flows (coFlow sd (integ l.1 l.2)) (ndindex2 (coFinalIds sd).length (coFinalIds sd).length) W) W i i
      = W i i - ∑ f ∈ (Finset.range (coFinalIds sd).length).erase i, (L.map fun l => coFlow sd (integ l.1 l.2) (i, f)).sum := by
    intro L
    induction L with
    | nil => simp
    | cons l L ih =>
      intro W
      rw [List.foldl_cons, ih, flows_ndindex_diag _ _ hi]
      simp only [List.map_cons, List.sum_cons, Finset.sum_add_distrib]
      ring
  rw [this, zero_sub]

/-- C55 for cotunnelling: whatever the method of integration returns or raises, probability is conserved. -/
theorem C55_cotunneling_conserves (sd : SigmaDict) (integ : ℕ → ℕ → CoSigma → Except PyErr ℝ) {i : ℕ} (hi : i < (coFinalIds sd).length) :
    ∑ f ∈ Finset.range (coFinalIds sd).length, coRate sd integ f i = 0 := by
  rw [← Finset.add_sum_erase _ _ (Finset.mem_range.mpr hi), coRate_diag sd integ hi, neg_add_eq_zero]
  refine Finset.sum_congr rfl fun f hf => ?_
  rw [coRate_off sd integ (Finset.mem_range.mp (Finset.mem_of_mem_erase hf)) hi (Finset.ne_of_mem_erase hf)]

theorem coGamma_nonneg {sd : SigmaDict} {integ : CoSigma → Except PyErr ℝ} (h : ∀ s x, integ s = .ok x → 0 ≤ x) {F I : TId} {γ : ℝ}
    (hγ : coGamma sd integ F I = some γ) : 0 ≤ γ := by
  unfold coGamma at hγ
  cases h1 : dictGet sd (F, I) with
  | error e => simp [h1, bind, Except.bind, Except.toOption] at hγ
  | ok l =>
    have key : ∀ (l : List CoSigma) (a b : ℝ), 0 ≤ a → forM' (fun γ s => do let x ← integ s; pure (γ + x)) l a = .ok b → 0 ≤ b := by
      intro l
      induction l with
      | nil => intro a b ha hb; simp only [forM', Except.ok.injEq] at hb; rwa [← hb]
      | cons s l ih =>
        intro a b ha hb
        rw [forM'] at hb
        cases h2 : integ s with
        | error e => simp [h2, bind, Except.bind] at hb
        | ok x =>
          simp only [h2, bind, Except.bind, pure, Except.pure] at hb
          exact ih _ _ (add_nonneg ha (h s x h2)) hb
    simp only [h1, bind, Except.bind] at hγ
    cases h2 : forM' (fun γ s => do let x ← integ s; pure (γ + x)) l 0 with
    | error e => simp only [bind, Except.bind] at h2; rw [h2] at hγ; simp [Except.toOption] at hγ
    | ok b =>
      have h3 := h2
      simp only [bind, Except.bind] at h3
      rw [h3] at hγ
      simp only [Except.toOption, Option.some.injEq] at hγ
      rw [← hγ]
      exact key l 0 b le_rfl h2

/-- C55 for cotunnelling: a method of integration that never returns negative numbers gives a rate matrix. -/
theorem C55_cotunneling {sd : SigmaDict} {integ : ℕ → ℕ → CoSigma → Except PyErr ℝ} (h : ∀ e i s x, integ e i s = .ok x → 0 ≤ x) :
    IsRateMatrix (coFinalIds sd).length (coRate sd integ) := by
  refine ⟨fun f i hf hi hfi => ?_, fun i hi => C55_cotunneling_conserves sd integ hi⟩
  rw [coRate_off sd integ hf hi hfi]
  refine List.sum_nonneg fun x hx => ?_
  obtain ⟨l, -, rfl⟩ := List.mem_map.mp hx
  unfold coFlow
  split
  · rename_i F I _ _
    cases hg : coGamma sd (integ l.1 l.2) F I with
    | none => simp
    | some γ => simpa using coGamma_nonneg (h l.1 l.2) hg
  · exact le_rfl

theorem call_nonneg {s : CoSigma} {z : ℝ} {A : List (List ℝ)} {e i : ℕ} {x : ℝ} (h : s.call z A e i = .ok x) : 0 ≤ x := by
  unfold CoSigma.call at h
  cases h1 : getItem A (i : ℤ) with
  | error er => simp [h1, bind, Except.bind] at h
  | ok aI =>
    cases h2 : getItem A (e : ℤ) with
    | error er => simp [h1, h2, bind, Except.bind] at h
    | ok aE =>
      simp only [h1, h2, bind, Except.bind] at h
      cases s with
      | e g =>
        cases h3 : g.call z aI aE with
        | error er => simp [h3] at h
        | ok r => simp only [h3, pure, Except.pure, Except.ok.injEq] at h; rw [← h]; positivity
      | h g =>
        cases h3 : g.call z aE aI with
        | error er => simp [h3] at h
        | ok r => simp only [h3, pure, Except.pure, Except.ok.injEq] at h; rw [← h]; positivity
      | eh g g' =>
        cases h3 : g.call z aI aE with
        | error er => simp [h3] at h
        | ok r =>
          cases h4 : g'.call z aE aI with
          | error er => simp [h3, h4] at h
          | ok r' => simp only [h3, h4, pure, Except.pure, Except.ok.injEq] at h; rw [← h]; positivity

/-- C55 for cotunnelling with `approx_integral=True`: always a rate matrix. -/
theorem C55_cotunneling_approximate (sd : SigmaDict) {beta : ℝ} (hb : 0 < beta) (mu : List ℝ) (A : List (List ℝ)) :
    IsRateMatrix (coFinalIds sd).length (coRate sd (CoSigma.approximate A beta mu)) := by
  refine C55_cotunneling fun e i s x h => ?_
  unfold CoSigma.approximate at h
  cases h1 : getItem mu (e : ℤ) with
  | error er => simp [h1, bind, Except.bind] at h
  | ok me =>
    cases h2 : getItem mu (i : ℤ) with
    | error er => simp [h1, h2, bind, Except.bind] at h
    | ok mi =>
      cases h3 : s.call (0.5 * (s.gf2.dE + mu.sum)) A e i with
      | error er => simp [h1, h2, h3, bind, Except.bind] at h
      | ok r =>
        simp only [h1, h2, h3, bind, Except.bind, pure, Except.pure, Except.ok.injEq] at h
        rw [← h]
        exact mul_nonneg (coG_nonneg hb _) (call_nonneg h3)

/-! ### C58 -/

theorem coGamma_neg (sd : SigmaDict) (f g : CoSigma → Except PyErr ℝ) (F I : TId) :
    (coGamma sd (fun s => do let x ← f s; let y ← g s; pure (x - y)) F I).getD 0
      = -(coGamma sd (fun s => do let x ← g s; let y ← f s; pure (x - y)) F I).getD 0 := by
  unfold coGamma
  cases h1 : dictGet sd (F, I) with
  | error e => simp [bind, Except.bind, Except.toOption]
  | ok l =>
    have key : ∀ (l : List CoSigma) (a : ℝ),
        (Except.toOption (forM' (fun γ s => do let x ← (do let x ← f s; let y ← g s; pure (x - y) : Except PyErr ℝ); pure (γ + x)) l a)).map (fun x => -x)
          = Except.toOption (forM' (fun γ s => do let x ← (do let x ← g s; let y ← f s; pure (x - y) : Except PyErr ℝ); pure (γ + x)) l (-a)) := by
      intro l
      induction l with
      | nil => intro a; simp [forM', Except.toOption]
      | cons s l ih =>
        intro a
        rw [forM', forM']
        cases h2 : f s with
        | error e =>
          cases h3 : g s with
          | error e' => simp [bind, Except.bind, Except.toOption]
          | ok y => simp [bind, Except.bind, Except.toOption]
        | ok x =>
          cases h3 : g s with
          | error e' => simp [bind, Except.bind, Except.toOption]
          | ok y =>
            have := ih (a + (x - y))
            simp only [bind, Except.bind, pure, Except.pure] at this ⊢
            rw [this]
            congr 2
            ring
    have := key l 0
    rw [neg_zero] at this
    simp only [bind, Except.bind] at this ⊢
    rw [← this]
    cases Except.toOption (forM' _ l (0 : ℝ)) <;> simp

/-- C58: the transition matrix changes sign when the leads are exchanged, for every dictionary and method of integration. -/
theorem C58_cotunneling (sd : SigmaDict) (integ : ℕ → ℕ → CoSigma → Except PyErr ℝ) (extract inject f i : ℕ) :
    coTransition sd integ extract inject f i = -coTransition sd integ inject extract f i := by
  unfold coTransition
  split
  · exact coGamma_neg ..
  · simp

/-- In particular no current flows between a lead and itself. -/
theorem C58_same_lead (sd : SigmaDict) (integ : ℕ → ℕ → CoSigma → Except PyErr ℝ) (lead f i : ℕ) : coTransition sd integ lead lead f i = 0 := by
  have := C58_cotunneling sd integ lead lead f i
  linarith

/-! ### C60 -/

/-- A sector of `n` orbitals exists. -/
def ValidSector (n : ℕ) (q : ℤ × ℤ) : Prop := 0 ≤ q.1 ∧ q.1 ≤ n ∧ 0 ≤ q.2 ∧ q.2 ≤ n

theorem mem_coActive (ngs : List (ℤ × ℤ)) (q : ℤ × ℤ) :
    q ∈ coActive ngs ↔ ∃ s ∈ ngs, ∃ d ∈ [((0 : ℤ), (0 : ℤ)), (-1, 1), (1, -1)],
      q = (s.1 + d.1, s.2 + d.2) ∨ ∃ e ∈ [((0 : ℤ), (1 : ℤ)), (0, -1), (1, 0), (-1, 0)], q = (s.1 + d.1 + e.1, s.2 + d.2 + e.2) := by
  unfold coActive
  simp only [mem_uniqueSorted, List.mem_append]
  constructor
  · rintro (h | h)
    · obtain ⟨s, hs, h⟩ := List.mem_flatMap.mp h
      obtain ⟨d, hd, rfl⟩ := List.mem_map.mp h
      exact ⟨s, hs, d, hd, .inl rfl⟩
    · obtain ⟨r, hr, h⟩ := List.mem_flatMap.mp h
      rw [mem_uniqueSorted] at hr
      obtain ⟨s, hs, hr⟩ := List.mem_flatMap.mp hr
      obtain ⟨d, hd, rfl⟩ := List.mem_map.mp hr
      obtain ⟨_, -, h⟩ := List.mem_flatMap.mp h
      obtain ⟨e, he, rfl⟩ := List.mem_map.mp h
      exact ⟨s, hs, d, hd, .inr ⟨e, he, rfl⟩⟩
  · rintro ⟨s, hs, d, hd, rfl | ⟨e, he, rfl⟩⟩
    · left
      exact List.mem_flatMap.mpr ⟨s, hs, List.mem_map.mpr ⟨d, hd, rfl⟩⟩
    · right
      have hr : (s.1 + d.1, s.2 + d.2) ∈ ngs.flatMap fun q => [((0 : ℤ), (0 : ℤ)), (-1, 1), (1, -1)].map fun d => (q.1 + d.1, q.2 + d.2) :=
        List.mem_flatMap.mpr ⟨s, hs, List.mem_map.mpr ⟨d, hd, rfl⟩⟩
      refine List.mem_flatMap.mpr ⟨(s.1 + d.1, s.2 + d.2), (mem_uniqueSorted ..).mpr hr, ?_⟩
      refine List.mem_flatMap.mpr ⟨(0, 0), List.mem_filter.mpr ⟨by simp, ?_⟩, List.mem_map.mpr ⟨e, he, rfl⟩⟩
      simpa using hr

theorem getSectorIndex_valid {n : ℕ} {q : ℤ × ℤ} (h : ValidSector n q) :
    getSectorIndex n q.1 q.2 = .ok ((q.1.toNat * (n + 1) + q.2.toNat : ℕ) : ℤ) := by
  obtain ⟨h1, h2, h3, h4⟩ := h
  unfold getSectorIndex
  rw [if_neg (by omega)]
  push_cast
  rw [Int.toNat_of_nonneg h1, Int.toNat_of_nonneg h3]

/-- C60: `get_active_neig` of cotunnelling succeeds exactly when every sector it visits exists; otherwise it raises. -/
theorem C60_iff (n : ℕ) (ngs : List (ℤ × ℤ)) (val : ℕ) :
    ((∀ q ∈ coActive ngs, ValidSector n q) → ∃ neig, coActiveNeig n ngs val = .ok neig) ∧
    ((∃ q ∈ coActive ngs, ¬ ValidSector n q) → coActiveNeig n ngs val = .error .valueError) := by
  unfold coActiveNeig
  constructor
  · intro h
    rw [forM'_ok _ (fun acc q => acc ++ [((q.1.toNat * (n + 1) + q.2.toNat : ℕ) : ℤ)]) _ _
      (fun st q hq => by rw [getSectorIndex_valid (h q hq)]; rfl)]
    have hfold : ∀ (l : List (ℤ × ℤ)) (acc : List ℤ), l.foldl (fun acc q => acc ++ [((q.1.toNat * (n + 1) + q.2.toNat : ℕ) : ℤ)]) acc
        = acc ++ l.map fun q => ((q.1.toNat * (n + 1) + q.2.toNat : ℕ) : ℤ) := by
      intro l
      induction l with
      | nil => simp
      | cons q l ih => intro acc; rw [List.foldl_cons, ih]; simp
    rw [hfold, List.nil_append]
    have key : ∀ (l : List (ℤ × ℤ)) (neig : List ℕ), (∀ q ∈ l, ValidSector n q) → neig.length = (n + 1) * (n + 1) →
        ∃ neig', forM' (fun neig i => setItem neig i val) (l.map fun q => ((q.1.toNat * (n + 1) + q.2.toNat : ℕ) : ℤ)) neig = .ok neig' := by
      intro l
      induction l with
      | nil => intro neig _ _; exact ⟨neig, rfl⟩
      | cons x l ih =>
        intro neig hs hl
        obtain ⟨h1, h2, h3, h4⟩ := hs x (by simp)
        have hlt : x.1.toNat * (n + 1) + x.2.toNat < neig.length := by
          rw [hl]
          calc x.1.toNat * (n + 1) + x.2.toNat < (x.1.toNat + 1) * (n + 1) := by rw [Nat.succ_mul]; omega
            _ ≤ _ := Nat.mul_le_mul_right _ (by omega)
        obtain ⟨neig', e⟩ := ih (neig.set (x.1.toNat * (n + 1) + x.2.toNat) val) (fun q hq => hs q (by simp [hq])) (by simpa using hl)
        exact ⟨neig', by rw [List.map_cons, forM', setItem_natCast _ _ _ hlt]; exact e⟩
    exact key _ _ h (List.length_replicate ..)
  · rintro ⟨q, hq, hv⟩
    have key : ∀ (l : List (ℤ × ℤ)) (acc : List ℤ), q ∈ l →
        forM' (fun acc q => do let i ← getSectorIndex n q.1 q.2; pure (acc ++ [i])) l acc = .error .valueError := by
      intro l
      induction l with
      | nil => intro acc h; simp at h
      | cons x l ih =>
        intro acc h
        rw [forM']
        cases hx : getSectorIndex n x.1 x.2 with
        | error e =>
          have : e = .valueError := by
            unfold getSectorIndex at hx
            split at hx
            · simpa using hx.symm
            · cases hx
          subst this
          rfl
        | ok i =>
          refine ih _ ((List.mem_cons.mp h).resolve_left ?_)
          rintro rfl
          apply hv
          unfold getSectorIndex at hx
          split at hx
          · cases hx
          · unfold ValidSector; omega
    rw [key _ _ hq]
    rfl

/-- C60 is false: for every number of sites, the empty sector as ground state sector makes `get_active_neig` raise. -/
theorem C60_refuted (n : ℕ) : (∀ q ∈ [((0 : ℤ), (0 : ℤ))], ValidSector n q) ∧ (-1, 1) ∈ coActive [(0, 0)] ∧
    ∀ val, coActiveNeig n [(0, 0)] val = .error .valueError := by
  have h : ((-1 : ℤ), (1 : ℤ)) ∈ coActive [(0, 0)] := (mem_coActive _ _).mpr ⟨(0, 0), by simp, (-1, 1), by simp, .inl (by simp)⟩
  refine ⟨by simp [ValidSector], h, fun val => (C60_iff n _ val).2 ⟨_, h, by simp [ValidSector]⟩⟩

/-- C60, partial: ground state sectors at least two electrons away from empty and full spins are safe. -/
theorem C60_partial (n : ℕ) (ngs : List (ℤ × ℤ)) (val : ℕ) (h : ∀ q ∈ ngs, 2 ≤ q.1 ∧ q.1 + 2 ≤ n ∧ 2 ≤ q.2 ∧ q.2 + 2 ≤ n) :
    (∀ q ∈ coActive ngs, ValidSector n q) ∧ ∃ neig, coActiveNeig n ngs val = .ok neig := by
  have hv : ∀ q ∈ coActive ngs, ValidSector n q := by
    intro q hq
    obtain ⟨s, hs, d, hd, hq⟩ := (mem_coActive _ _).mp hq
    obtain ⟨h1, h2, h3, h4⟩ := h s hs
    simp only [List.mem_cons, List.not_mem_nil, or_false] at hd hq
    unfold ValidSector
    rcases hd with rfl | rfl | rfl <;> rcases hq with rfl | ⟨e, rfl | rfl | rfl | rfl, rfl⟩ <;> simp <;> omega
  exact ⟨hv, (C60_iff n ngs val).1 hv⟩

/-- Non-vacuity: half filling of four sites. -/
example : ∃ neig, coActiveNeig 4 [(2, 2)] 2 = .ok neig := (C60_partial 4 [(2, 2)] 2 (by simp)).2

end Edpyt
