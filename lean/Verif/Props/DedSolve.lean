import Verif.Model.DedSolve
import Mathlib.Data.List.Sort
import Mathlib.Algebra.Module.Rat
import Mathlib.Tactic.NormNum
import Mathlib.Tactic.Module
import Mathlib.Tactic.IntervalCases
import Mathlib.Tactic.FinCases
/-!
Theorems about the sampling loops of `edpyt/dedlib.py` and about `edpyt/ded.py`.
-/
namespace Edpyt

namespace Spec

/-- The passes from `t` up to but not including `t'` whose trial is accepted, in order. -/
def acceptedPasses {S : Type} (trial : ℕ → Option S) (t t' : ℕ) : List ℕ := (List.range' t (t' - t)).filter fun s => (trial s).isSome

/-- The samples of a list of passes. -/
def samplesOf {S : Type} (trial : ℕ → Option S) (l : List ℕ) : List S := l.filterMap trial

end Spec

open Spec

variable {S : Type}

theorem samples_accepted (trial : ℕ → Option S) (t t' : ℕ) : samplesOf trial (acceptedPasses trial t t') = (List.range' t (t' - t)).filterMap trial := by
  unfold samplesOf acceptedPasses
  induction List.range' t (t' - t) with
  | nil => rfl
  | cons s l ih =>
    rw [List.filter_cons]
    cases h : trial s with
    | none => simp [h, ih]
    | some x => simp [h, ih]

theorem length_accepted (trial : ℕ → Option S) (t t' : ℕ) : (acceptedPasses trial t t').length = (samplesOf trial (acceptedPasses trial t t')).length := by
  rw [samples_accepted]
  unfold acceptedPasses
  induction List.range' t (t' - t) with
  | nil => rfl
  | cons s l ih =>
    rw [List.filter_cons]
    cases h : trial s with
    | none => simp [h, ih]
    | some x => simp [h, ih]

theorem siamFind_spec [AddCommMonoid S] {trial : ℕ → Option S} {t t' : ℕ} {x : S} (h : SiamFind trial t t' x) :
    t < t' ∧ (List.range' t (t' - t)).filterMap trial = [x] ∧ trial (t' - 1) = some x := by
  induction h with
  | @found t x h => exact ⟨by omega, by simp [h], by simpa using h⟩
  | @again t t' x h _ ih =>
    obtain ⟨h1, h2, h3⟩ := ih
    refine ⟨by omega, ?_, h3⟩
    rw [show t' - t = (t' - (t + 1)) + 1 by omega, List.range'_succ, List.filterMap_cons, h]
    exact h2

theorem siamRun_spec [AddCommMonoid S] {trial : ℕ → Option S} {N t t' : ℕ} {acc acc' : S} (h : SiamRun trial N t acc t' acc') :
    t ≤ t' ∧ ((List.range' t (t' - t)).filterMap trial).length = N ∧ acc' = acc + ((List.range' t (t' - t)).filterMap trial).sum := by
  induction h with
  | done => simp
  | @step N t t' t'' acc acc' x h _ ih =>
    obtain ⟨h1, h2, -⟩ := siamFind_spec h
    obtain ⟨h3, h4, h5⟩ := ih
    have hsplit : List.range' t (t'' - t) = List.range' t (t' - t) ++ List.range' t' (t'' - t') := by
      rw [show t'' - t = (t' - t) + (t'' - t') by omega, ← List.range'_append_1, show t + (t' - t) = t' by omega]
    rw [hsplit, List.filterMap_append, h2]
    refine ⟨by omega, by simp [h4], ?_⟩
    rw [h5]
    simp [add_assoc]

/-- **C86.** For every sequence of trials, number of samples and initial self-energy, when `siam_solve` returns, it has gone through passes up to some `t'`, exactly `N` of them
accepted, and the result is the mean of the accepted samples (plus the initial values over `N`): no sample is lost or counted twice. -/
theorem C86_siam_mean {K : Type} [Field K] [AddCommGroup S] [Module K S] (trial : ℕ → Option S) (N t : ℕ) (start x : S)
    (h : SiamSolve (K := K) trial N t start (.ok x)) :
    0 < N ∧ ∃ t', t ≤ t' ∧ (acceptedPasses trial t t').length = N ∧ x = (N : K)⁻¹ • (start + (samplesOf trial (acceptedPasses trial t t')).sum) := by
  unfold SiamSolve at h
  split_ifs at h with hN
  obtain ⟨t', acc, hr, hx⟩ := h
  obtain ⟨h1, h2, h3⟩ := siamRun_spec hr
  refine ⟨by omega, t', h1, ?_, ?_⟩
  · rw [length_accepted, samples_accepted, h2]
  · rw [samples_accepted, ← h3]
    exact Except.ok.inj hx

/-- **C86.** The loop has no bound: if the condition is never met, `siam_solve` does not return. -/
theorem C86_siam_diverges {K : Type} [Field K] [AddCommGroup S] [Module K S] (trial : ℕ → Option S) (N t : ℕ) (start : S) (hN : 0 < N) (hno : ∀ s, t ≤ s → trial s = none)
    (r : Except PyErr S) : ¬ SiamSolve (K := K) trial N t start r := by
  unfold SiamSolve
  rw [if_neg hN.ne']
  rintro ⟨t', acc, hr, -⟩
  obtain ⟨-, h2, -⟩ := siamRun_spec hr
  rw [List.filterMap_eq_nil_iff.mpr fun s hs => hno s (List.mem_range'_1.mp hs).1] at h2
  simp at h2
  omega

/-- The loop returns if there are enough accepted passes. -/
theorem siamFind_exists [AddCommMonoid S] (trial : ℕ → Option S) : ∀ (k t : ℕ), trial (t + k) ≠ none → ∃ t' x, SiamFind trial t t' x := by
  intro k
  induction k with
  | zero =>
    intro t h
    obtain ⟨x, hx⟩ := Option.ne_none_iff_exists'.mp h
    exact ⟨_, x, .found hx⟩
  | succ k ih =>
    intro t h
    cases hx : trial t with
    | some x => exact ⟨_, x, .found hx⟩
    | none =>
      obtain ⟨t', x, hf⟩ := ih (t + 1) (by rwa [show t + 1 + k = t + (k + 1) by ring])
      exact ⟨t', x, .again hx hf⟩

/-- **C86.** If the condition is met again and again, `siam_solve` returns. -/
theorem C86_siam_returns {K : Type} [Field K] [AddCommGroup S] [Module K S] (trial : ℕ → Option S) (N t : ℕ) (start : S) (hN : 0 < N) (hio : ∀ t, ∃ s, t ≤ s ∧ trial s ≠ none) :
    ∃ x, SiamSolve (K := K) trial N t start (.ok x) := by
  have key : ∀ (N t : ℕ) (acc : S), ∃ t' acc', SiamRun trial N t acc t' acc' := by
    intro N
    induction N with
    | zero => exact fun t acc => ⟨_, _, .done⟩
    | succ N ih =>
      intro t acc
      obtain ⟨s, hs, hne⟩ := hio t
      obtain ⟨t', x, hf⟩ := siamFind_exists trial (s - t) t (by rwa [show t + (s - t) = s by omega])
      obtain ⟨t'', acc', hr⟩ := ih t' (acc + x)
      exact ⟨t'', acc', .step hf hr⟩
  obtain ⟨t', acc, hr⟩ := key N t start
  exact ⟨(N : K)⁻¹ • acc, by unfold SiamSolve; rw [if_neg hN.ne']; exact ⟨t', acc, hr, rfl⟩⟩

/-- **C68, partial.** If the number of ranks divides the number of samples, the distributed average is the plain average: each of the `N` samples that the ranks accept has
the weight `1/N`. -/
theorem C68_partial {K : Type} [Field K] [CharZero K] [AddCommGroup S] [Module K S] (trial : ℕ → Option S) (n N size : ℕ) (hs : 0 < size) (hdvd : size ∣ N) (x : S)
    (h : DedAverage (K := K) trial n N size x) :
    ∃ passes : ℕ → List ℕ, ((List.range size).map fun r => (passes r).length).sum = N ∧ (∀ r < size, ∃ t', passes r = acceptedPasses trial (dedMyStart n N size r / n) t') ∧
      x = (N : K)⁻¹ • ((List.range size).map fun r => (samplesOf trial (passes r)).sum).sum := by
  obtain ⟨part, hp, hx⟩ := h
  obtain ⟨q, rfl⟩ := hdvd
  have hN : ∀ r, dedMyN (size * q) size r = q := fun r => by
    unfold dedMyN
    rw [Nat.mul_div_cancel_left _ hs, Nat.mul_mod_right]
    simp
  have h1 : ∀ r, ∃ l : List ℕ, r < size → 0 < q ∧ l.length = q ∧ (∃ t', l = acceptedPasses trial (dedMyStart n (size * q) size r / n) t') ∧
      part r = (q : K)⁻¹ • (samplesOf trial l).sum := fun r => by
    by_cases hr : r < size
    · have := hp r hr
      rw [hN] at this
      obtain ⟨h0, t', -, h2, h3⟩ := C86_siam_mean trial q _ 0 _ this
      exact ⟨_, fun _ => ⟨h0, h2, ⟨t', rfl⟩, by rw [h3, zero_add]⟩⟩
    · exact ⟨[], fun h => absurd h hr⟩
  choose passes hpass using h1
  refine ⟨passes, ?_, fun r hr => (hpass r hr).2.2.1, ?_⟩
  · rw [show (List.range size).map (fun r => (passes r).length) = (List.range size).map fun _ => q from
      List.map_congr_left fun r hr => (hpass r (List.mem_range.mp hr)).2.1]
    simp
  · have hq : (q : K) ≠ 0 := Nat.cast_ne_zero.mpr (hpass 0 hs).1.ne'
    rw [hx, show (List.range size).map part = ((List.range size).map fun r => (samplesOf trial (passes r)).sum).map fun y => (q : K)⁻¹ • y by
      rw [List.map_map]
      exact List.map_congr_left fun r hr => (hpass r (List.mem_range.mp hr)).2.2.2]
    have hsum : ∀ l : List S, (l.map fun y => (q : K)⁻¹ • y).sum = (q : K)⁻¹ • l.sum := fun l => by
      induction l with
      | nil => simp
      | cons y l ih => simp [ih]
    rw [hsum, smul_smul]
    congr 1
    push_cast
    rw [mul_inv]

/-- Runs in which every pass is accepted. -/
theorem siamRun_all [AddCommMonoid S] (f : ℕ → S) : ∀ (N t : ℕ) (acc : S), SiamRun (fun t => some (f t)) N t acc (t + N) (acc + ((List.range' t N).map f).sum) := by
  intro N
  induction N with
  | zero => intro t acc; simpa using SiamRun.done
  | succ N ih =>
    intro t acc
    have := ih (t + 1) (acc + f t)
    rw [List.range'_succ, List.map_cons, List.sum_cons, show t + (N + 1) = t + 1 + N by ring, ← add_assoc acc]
    exact .step (.found rfl) this

/-- **C68 is false**: for the number of samples of the script, `N = 5`, and two ranks, with every pass accepted, the two samples of
rank 0 weigh 1/4 each, the three of rank 1 weigh 1/6 each. -/
theorem C68_refuted (f : ℕ → ℚ) : DedAverage (K := ℚ) (fun t => some (f t)) 4 5 2 ((f 0 + f 1) / 4 + (f 4 + f 5 + f 6) / 6) ∧
    ∃ f : ℕ → ℚ, (f 0 + f 1) / 4 + (f 4 + f 5 + f 6) / 6 ≠ (f 0 + f 1 + f 4 + f 5 + f 6) / 5 := by
  constructor
  · refine ⟨fun r => if r = 0 then (f 0 + f 1) / 2 else (f 4 + f 5 + f 6) / 3, fun r hr => ?_, ?_⟩
    · interval_cases r
      · unfold SiamSolve
        rw [if_neg (by decide)]
        refine ⟨_, _, siamRun_all f _ _ _, ?_⟩
        simp [dedMyN, dedMyStart, List.range'_succ]
        ring
      · unfold SiamSolve
        rw [if_neg (by decide)]
        refine ⟨_, _, siamRun_all f _ _ _, ?_⟩
        simp [dedMyN, dedMyStart, List.range'_succ]
        ring
    · simp [List.range_succ]
      ring
  · exact ⟨fun t => if t = 0 then 1 else 0, by norm_num⟩

/-- **C68 is false** also in that with more ranks than samples all but the last rank divide by zero. -/
theorem C68_refuted_few {K : Type} [Field K] [AddCommGroup S] [Module K S] (trial : ℕ → Option S) (n N size : ℕ) (h : N < size) (hs : 1 < size) (r : Except PyErr S) :
    SiamSolve (K := K) trial (dedMyN N size 0) (dedMyStart n N size 0 / n) 0 r ↔ r = .error .zeroDivision := by
  have : dedMyN N size 0 = 0 := by
    unfold dedMyN
    rw [Nat.div_eq_of_lt h, if_neg (by omega)]
  unfold SiamSolve
  rw [this, if_pos rfl]

/-- **C87, partial.** If every rank needs at most two passes for each sample, all ranks go through disjoint ranges of passes. -/
theorem C87_partial (n N size : ℕ) (hn : 0 < n) (r r' t t' : ℕ) (hr : r < r') (hr' : r' < size) (ht : t ≤ dedMyStart n N size r / n + 2 * dedMyN N size r)
    (ht' : dedMyStart n N size r' / n ≤ t') : t ≤ t' := by
  have hs : ∀ k, dedMyStart n N size k / n = 2 * (N / size) * k := fun k => by
    unfold dedMyStart
    rw [show 2 * n * (N / size) * k = n * (2 * (N / size) * k) by ring, Nat.mul_div_cancel_left _ hn]
  rw [hs] at ht ht'
  have hN : dedMyN N size r = N / size := by
    unfold dedMyN
    rw [if_neg (by omega), add_zero]
  rw [hN] at ht
  calc t ≤ 2 * (N / size) * r + 2 * (N / size) := ht
    _ = 2 * (N / size) * (r + 1) := by ring
    _ ≤ 2 * (N / size) * r' := Nat.mul_le_mul_left _ hr
    _ ≤ t' := ht'

/-- **C87 is false**: if one pass in three is accepted, with four samples on two ranks the second sample of rank 0 is the first sample of rank 1, so that it is counted
twice. -/
theorem C87_refuted (f : ℕ → ℚ) : DedAverage (K := ℚ) (fun t => if t % 3 = 2 then some (f t) else none) 4 4 2 (1 / 4 * f 2 + 1 / 2 * f 5 + 1 / 4 * f 8) := by
  set trial : ℕ → Option ℚ := fun t => if t % 3 = 2 then some (f t) else none
  have n0 : ∀ t, t % 3 ≠ 2 → trial t = none := fun t h => if_neg h
  have n1 : ∀ t, t % 3 = 2 → trial t = some (f t) := fun t h => if_pos h
  refine ⟨fun r => if r = 0 then (f 2 + f 5) / 2 else (f 5 + f 8) / 2, fun r hr => ?_, ?_⟩
  · interval_cases r
    · unfold SiamSolve
      rw [if_neg (by decide)]
      refine ⟨6, 0 + f 2 + f 5, .step (.again (n0 0 (by decide)) (.again (n0 1 (by decide)) (.found (n1 2 (by decide)))))
        (.step (.again (n0 3 (by decide)) (.again (n0 4 (by decide)) (.found (n1 5 (by decide))))) .done), ?_⟩
      simp [dedMyN]
      ring
    · unfold SiamSolve
      rw [if_neg (by decide)]
      refine ⟨9, 0 + f 5 + f 8, .step (.again (n0 4 (by decide)) (.found (n1 5 (by decide))))
        (.step (.again (n0 6 (by decide)) (.again (n0 7 (by decide)) (.found (n1 8 (by decide))))) .done), ?_⟩
      simp [dedMyN]
      ring
  · simp [List.range_succ]
    ring

/-- What a run of `moam_solve` adds up. -/
theorem moamFind_spec [AddCommMonoid S] {nimp : ℕ} {trial : ℕ → Fin nimp → Option S} {t t' : ℕ} {acc acc' : Fin nimp → S} (h : MoamFind trial t acc t' acc') :
    t < t' ∧ ∀ i, (List.range' t (t' - t)).filterMap (fun s => trial s i) = (trial (t' - 1) i).toList ∧ acc' i = acc i + ((List.range' t (t' - t)).filterMap fun s => trial s i).sum := by
  induction h with
  | @found t acc h =>
    refine ⟨by omega, fun i => ?_⟩
    cases hx : trial t i <;> simp [hx]
  | @again t acc t' acc' h _ ih =>
    obtain ⟨h1, h2⟩ := ih
    refine ⟨by omega, fun i => ?_⟩
    rw [show t' - t = (t' - (t + 1)) + 1 by omega, List.range'_succ, List.filterMap_cons, h i]
    exact h2 i

theorem moamFind_last [AddCommMonoid S] {nimp : ℕ} {trial : ℕ → Fin nimp → Option S} {t t' : ℕ} {acc acc' : Fin nimp → S} (h : MoamFind trial t acc t' acc') :
    ∃ k, trial (t' - 1) k ≠ none := by
  induction h with
  | found h => simpa using h
  | again _ _ ih => exact ih

theorem moamRun_spec [AddCommMonoid S] {nimp : ℕ} {trial : ℕ → Fin nimp → Option S} {N t t' : ℕ} {acc acc' : Fin nimp → S} (h : MoamRun trial N t acc t' acc') :
    t ≤ t' ∧ ∀ i, ((List.range' t (t' - t)).filterMap fun s => trial s i).length ≤ N ∧ acc' i = acc i + ((List.range' t (t' - t)).filterMap fun s => trial s i).sum ∧
      ((∀ s, (∃ k, trial s k ≠ none) → trial s i ≠ none) → ((List.range' t (t' - t)).filterMap fun s => trial s i).length = N) := by
  induction h with
  | done => simp
  | @step N t t' t'' acc acc' acc'' h _ ih =>
    obtain ⟨h1, h2⟩ := moamFind_spec h
    obtain ⟨h3, h4⟩ := ih
    have hsplit : List.range' t (t'' - t) = List.range' t (t' - t) ++ List.range' t' (t'' - t') := by
      rw [show t'' - t = (t' - t) + (t'' - t') by omega, ← List.range'_append_1, show t + (t' - t) = t' by omega]
    refine ⟨by omega, fun i => ?_⟩
    obtain ⟨h5, h6, h7⟩ := h4 i
    obtain ⟨h8, h9⟩ := h2 i
    rw [hsplit, List.filterMap_append]
    refine ⟨?_, ?_, fun hall => ?_⟩
    · rw [List.length_append, h8]
      have : (trial (t' - 1) i).toList.length ≤ 1 := by cases trial (t' - 1) i <;> simp
      omega
    · rw [List.sum_append, h6, h9, add_assoc]
    · rw [List.length_append, h7 hall, h8]
      have hlast := moamFind_last h
      obtain ⟨x, hx⟩ := Option.ne_none_iff_exists'.mp (hall _ hlast)
      rw [hx]
      simp
      omega

/-- **C88, partial.** When `moam_solve` returns, the result of each impurity is `1/N` times the sum of its accepted samples, of which there are at most `N`; it is their mean if every
pass that any impurity accepts is accepted by this impurity too. -/
theorem C88_partial {K : Type} [Field K] [AddCommGroup S] [Module K S] {nimp : ℕ} (U : MoamU) (trial : ℕ → Fin nimp → Option S) (N t : ℕ) (x : Fin nimp → S)
    (h : MoamSolve (K := K) U trial N t (.ok x)) :
    ∃ t', ∀ i, (acceptedPasses (fun s => trial s i) t t').length ≤ N ∧ x i = (N : K)⁻¹ • (samplesOf (fun s => trial s i) (acceptedPasses (fun s => trial s i) t t')).sum ∧
      ((∀ s, (∃ k, trial s k ≠ none) → trial s i ≠ none) → (acceptedPasses (fun s => trial s i) t t').length = N) := by
  unfold MoamSolve at h
  split_ifs at h with hU
  obtain ⟨t', acc, hr, hx⟩ := h
  obtain ⟨-, h2⟩ := moamRun_spec hr
  refine ⟨t', fun i => ?_⟩
  obtain ⟨h3, h4, h5⟩ := h2 i
  rw [length_accepted, samples_accepted]
  refine ⟨h3, ?_, h5⟩
  rw [Except.ok.inj hx]
  change (N : K)⁻¹ • acc i = _
  rw [h4, zero_add]

/-- **C88 is false**: the number of accepted samples is counted for all impurities together. If impurity 1 accepts only the first of two passes with the sample 1, its result is
`1/2` and not its mean 1. -/
theorem C88_refuted : ∃ (trial : ℕ → Fin 2 → Option ℚ) (x : Fin 2 → ℚ), MoamSolve (K := ℚ) .array trial 2 0 (.ok x) ∧ x 0 = 1 ∧ x 1 = 1 / 2 ∧
    ∀ t y, trial t 1 = some y → y = 1 := by
  refine ⟨fun t i => if i = 1 ∧ t ≠ 0 then none else some 1, fun i => if i = 0 then 1 else 1 / 2, ?_, by simp, by simp, ?_⟩
  · unfold MoamSolve
    rw [if_neg (by decide)]
    refine ⟨2, _, .step (.found ⟨0, by simp⟩) (.step (.found ⟨0, by simp⟩) .done), ?_⟩
    congr 1
    funext i
    fin_cases i
    · simp; norm_num
    · simp
  · intro t y h
    simp only at h
    split_ifs at h
    exact (Option.some.inj h).symm

/-- **C89 is false**: with a number as interaction, which is the default, `moam_solve` raises. -/
theorem C89_refuted {K : Type} [Field K] [AddCommGroup S] [Module K S] {nimp : ℕ} (trial : ℕ → Fin nimp → Option S) (N t : ℕ) (r : Except PyErr (Fin nimp → S)) :
    MoamSolve (K := K) .scalar trial N t r ↔ r = .error .nameError := by
  simp [MoamSolve]

/-- **C89, partial.** With an array or a dictionary as interaction it returns if some impurity accepts again and again. -/
theorem C89_partial {K : Type} [Field K] [AddCommGroup S] [Module K S] {nimp : ℕ} (U : MoamU) (hU : U ≠ .scalar) (trial : ℕ → Fin nimp → Option S) (N t : ℕ)
    (hio : ∀ t, ∃ s, t ≤ s ∧ ∃ i, trial s i ≠ none) : ∃ x, MoamSolve (K := K) U trial N t (.ok x) := by
  have find : ∀ (k t : ℕ) (acc : Fin nimp → S), (∃ i, trial (t + k) i ≠ none) → ∃ t' acc', MoamFind trial t acc t' acc' := by
    intro k
    induction k with
    | zero => exact fun t acc h => ⟨_, _, .found h⟩
    | succ k ih =>
      intro t acc h
      by_cases hx : ∃ i, trial t i ≠ none
      · exact ⟨_, _, .found hx⟩
      · obtain ⟨t', acc', hf⟩ := ih (t + 1) acc (by rwa [show t + 1 + k = t + (k + 1) by ring])
        exact ⟨t', acc', .again (by simpa using hx) hf⟩
  have key : ∀ (N t : ℕ) (acc : Fin nimp → S), ∃ t' acc', MoamRun trial N t acc t' acc' := by
    intro N
    induction N with
    | zero => exact fun t acc => ⟨_, _, .done⟩
    | succ N ih =>
      intro t acc
      obtain ⟨s, hs, hne⟩ := hio t
      obtain ⟨t', acc', hf⟩ := find (s - t) t acc (by rwa [show t + (s - t) = s by omega])
      obtain ⟨t'', acc'', hr⟩ := ih t' acc'
      exact ⟨t'', acc'', .step hf hr⟩
  obtain ⟨t', acc, hr⟩ := key N t fun _ => 0
  exact ⟨fun i => (N : K)⁻¹ • acc i, by unfold MoamSolve; rw [if_neg hU]; exact ⟨t', acc, hr, rfl⟩⟩

/-- Non-vacuity of `C86_siam_mean`, `C86_siam_returns`: every second pass is accepted. -/
example : ∃ x, SiamSolve (K := ℚ) (fun t => if t % 2 = 1 then some (t : ℚ) else none) 3 0 0 (.ok x) :=
  C86_siam_returns _ 3 0 0 (by norm_num) fun t => ⟨2 * t + 1, by omega, by
    have : (2 * t + 1) % 2 = 1 := by omega
    simp [this]⟩

/-- Non-vacuity of `C68_partial`: four samples on two ranks. -/
example : ∃ x, DedAverage (K := ℚ) (fun t => some (t : ℚ)) 4 4 2 x := by
  choose f hf using fun r => C86_siam_returns (K := ℚ) (fun t => some (t : ℚ)) 2 (dedMyStart 4 4 2 r / 4) 0 (by norm_num) fun t => ⟨t, le_rfl, by simp⟩
  refine ⟨_, f, fun r hr => ?_, rfl⟩
  have := hf r
  interval_cases r <;> exact this

end Edpyt
