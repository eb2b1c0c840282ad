import Verif.Model.DedDev
import Verif.Props.DedSolve
import Verif.Props.DedPass
/-!
# C134, C135: the solvers of the development module
-/
namespace Edpyt
open Spec

variable {S : Type} {K : Type} [Field K]

theorem filterMap_pair (f : ℕ → Option S) [AddCommGroup S] (l : List ℕ) :
    (l.filterMap fun s => (f s).map fun x => (x, (1 : ℕ))).sum = ((l.filterMap f).sum, (l.filterMap f).length) := by
  induction l with
  | nil => rfl
  | cons a l ih =>
    rw [List.filterMap_cons, List.filterMap_cons]
    cases h : f a with
    | none => simpa using ih
    | some x =>
      simp only [Option.map_some, List.sum_cons, ih, List.length_cons, Prod.mk_add_mk]
      rw [add_comm 1]

/-- **C134** When `ded_solve_multi` returns, the result of each impurity is the mean of exactly the samples that this impurity accepted, and zero if it accepted none: it has gone through passes
up to some `t'`, and the accepted passes of every impurity between `t` and `t'` count once. -/
theorem C134_multi_mean [AddCommGroup S] [Module K S] {nimp : ℕ} (U : MoamU) (s : Sigma0Arg) (trial : ℕ → Fin nimp → Option S) (N t : ℕ) (x : Fin nimp → S)
    (h : DevMultiSolve (K := K) U s trial N t (.ok x)) :
    ∃ t', t ≤ t' ∧ ∀ i,
      (acceptedPasses (fun s => trial s i) t t' = [] → x i = 0) ∧
      (acceptedPasses (fun s => trial s i) t t' ≠ [] →
        x i = ((acceptedPasses (fun s => trial s i) t t').length : K)⁻¹ • (samplesOf (fun s => trial s i) (acceptedPasses (fun s => trial s i) t t')).sum) := by
  unfold DevMultiSolve at h
  split at h
  · cases h.2
  · obtain ⟨t', acc, hr, hx⟩ := h
    obtain ⟨h1, h2⟩ := moamRun_spec hr
    refine ⟨t', h1, fun i => ?_⟩
    obtain ⟨-, h4, -⟩ := h2 i
    rw [filterMap_pair (fun s => trial s i), Prod.mk_add_mk, zero_add, zero_add] at h4
    have hxi : x i = ((max ((List.range' t (t' - t)).filterMap fun s => trial s i).length 1 : ℕ) : K)⁻¹ • ((List.range' t (t' - t)).filterMap fun s => trial s i).sum := by
      rw [Except.ok.inj hx]
      change ((max (acc i).2 1 : ℕ) : K)⁻¹ • (acc i).1 = _
      rw [h4]
    have hl := length_accepted (fun s => trial s i) t t'
    rw [samples_accepted] at hl
    refine ⟨fun h0 => ?_, fun h0 => ?_⟩
    · rw [h0, List.length_nil] at hl
      rw [hxi, List.length_eq_zero_iff.mp hl.symm, List.sum_nil, smul_zero]
    · have hpos : 1 ≤ (acceptedPasses (fun s => trial s i) t t').length := List.length_pos_iff.mpr h0
      rw [hxi, samples_accepted, ← hl, max_eq_left hpos]

/-- The passes go on until one is accepted `N` times: some impurity accepts at least one sample in each of `N` passes. -/
theorem C134_multi_passes [AddCommGroup S] {nimp : ℕ} {trial : ℕ → Fin nimp → Option S} {N t t' : ℕ} {acc acc' : Fin nimp → S} (h : MoamRun trial N t acc t' acc') :
    ((List.range' t (t' - t)).filter fun s => decide (∃ i, trial s i ≠ none)).length = N := by
  classical
  induction h with
  | done => simp
  | @step N t t' t'' acc acc' acc'' h hl ih =>
    have h1 := (moamFind_spec h).1
    have h2 := (moamRun_spec hl).1
    have hsplit : List.range' t (t'' - t) = List.range' t (t' - t) ++ List.range' t' (t'' - t') := by
      rw [show t'' - t = (t' - t) + (t'' - t') by omega, ← List.range'_append_1, show t + (t' - t) = t' by omega]
    have h3 : ((List.range' t (t' - t)).filter fun s => decide (∃ i, trial s i ≠ none)).length = 1 := by
      clear hl ih hsplit h2
      induction h with
      | @found t acc h => simp [h]
      | @again t acc t' acc' h hf ih =>
        have h4 := (moamFind_spec hf).1
        rw [show t' - t = (t' - (t + 1)) + 1 by omega, List.range'_succ, List.filter_cons, if_neg (by simp [h])]
        exact ih h4
    rw [hsplit, List.filter_append, List.length_append, h3, ih, add_comm]

/-- Non-vacuity: the trials of `C88_refuted`, where impurity 1 accepts only the first of two passes; its result is its mean 1. -/
example : DevMultiSolve (K := ℚ) .array .given (fun t (i : Fin 2) => if i = 1 ∧ t ≠ 0 then none else some (1 : ℚ)) 2 0 (.ok fun _ => 1) := by
  unfold DevMultiSolve
  refine ⟨2, _, .step (.found ⟨0, by simp⟩) (.step (.found ⟨0, by simp⟩) .done), ?_⟩
  congr 1
  funext i
  fin_cases i
  · simp; norm_num
  · simp

/-- **C135** (refuted) With the default `sigma0` `ded_solve_multi` never returns, for any type of interaction (`moam_solve` has the same lines), and with a number as interaction (the default) not even with a
given `sigma0`. -/
theorem C135_refuted_multi [AddCommGroup S] [Module K S] {nimp : ℕ} (U : MoamU) (s : Sigma0Arg) (hs : s = .default ∨ U = .scalar) (trial : ℕ → Fin nimp → Option S) (N t : ℕ) (x : Fin nimp → S) :
    ¬ DevMultiSolve (K := K) U s trial N t (.ok x) := by
  unfold DevMultiSolve
  rcases hs with rfl | rfl
  · cases U <;> simp [multiArgsError]
  · cases s <;> simp [multiArgsError]

/-- **C135** (refuted) `ded_solve` of the development module never returns: whatever follows the first occupation, every run ends with an exception, and with a `TypeError` if the first
diagonalisation succeeds. -/
theorem C135_refuted {R : Type} (fsolve : (ℝ → ℝ) → ℝ → ℝ) (w n : ℕ) (neig : List ℕ) (poles : List ℝ) (rest : ℝ → Except PyErr R → Prop) (N : ℕ) (x : R) :
    ¬ DevDedSolve fsolve w n neig poles rest N (.ok x) := by
  unfold DevDedSolve
  split_ifs with hN
  · simp [DetR]
  · rintro (⟨hv, -, h⟩ | ⟨e, -, h⟩)
    swap
    · cases h
    obtain ⟨p0, -, h⟩ | ⟨e, -, h⟩ := h
    swap
    · cases h
    obtain ⟨s, -, h⟩ | ⟨e, -, h⟩ := h
    swap
    · cases h
    obtain ⟨o, ho, -⟩ | ⟨e, -, h⟩ := h
    swap
    · cases h
    unfold devOccupation DetR at ho
    split at ho <;> cases ho

/-- **C135** (partial) With a given `sigma0` and an array or dictionary as interaction `ded_solve_multi` returns if infinitely many passes are accepted. -/
theorem C135_multi_partial [AddCommGroup S] [Module K S] {nimp : ℕ} (U : MoamU) (hU : U ≠ .scalar) (trial : ℕ → Fin nimp → Option S) (N t : ℕ) (hio : ∀ t, ∃ s, t ≤ s ∧ ∃ i, trial s i ≠ none) :
    ∃ x, DevMultiSolve (K := K) U .given trial N t (.ok x) := by
  have hfind : ∀ (k t : ℕ) (acc : Fin nimp → S × ℕ), (∃ i, trial (t + k) i ≠ none) → ∃ t' acc', MoamFind (fun t i => (trial t i).map fun x => (x, (1 : ℕ))) t acc t' acc' := by
    intro k
    induction k with
    | zero =>
      rintro t acc ⟨i, hi⟩
      exact ⟨_, _, .found ⟨i, by simpa using hi⟩⟩
    | succ k ih =>
      rintro t acc ⟨i, hi⟩
      by_cases h : ∃ i, trial t i ≠ none
      · obtain ⟨j, hj⟩ := h
        exact ⟨_, _, .found ⟨j, by simpa using hj⟩⟩
      · push Not at h
        obtain ⟨t', acc', hf⟩ := ih (t + 1) acc ⟨i, by rwa [show t + 1 + k = t + (k + 1) by ring]⟩
        exact ⟨t', acc', .again (fun i => by rw [h i]; rfl) hf⟩
  have hrun : ∀ (N t : ℕ) (acc : Fin nimp → S × ℕ), ∃ t' acc', MoamRun (fun t i => (trial t i).map fun x => (x, (1 : ℕ))) N t acc t' acc' := by
    intro N
    induction N with
    | zero => exact fun t acc => ⟨_, _, .done⟩
    | succ N ih =>
      intro t acc
      obtain ⟨s, hs, hi⟩ := hio t
      obtain ⟨t', acc', hf⟩ := hfind (s - t) t acc (by rwa [show t + (s - t) = s by omega])
      obtain ⟨t'', acc'', hr⟩ := ih t' acc'
      exact ⟨t'', acc'', .step hf hr⟩
  obtain ⟨t', acc, hr⟩ := hrun N t fun _ => (0, 0)
  refine ⟨fun i => ((max (acc i).2 1 : ℕ) : K)⁻¹ • (acc i).1, ?_⟩
  have he : multiArgsError U .given = none := by cases U <;> first | rfl | exact absurd rfl hU
  unfold DevMultiSolve
  rw [he]
  exact ⟨t', acc, hr, rfl⟩

/-- Non-vacuity: the first diagonalisation of `ded_solve` succeeds for the poles `-1` and `1`, and the call ends with the `TypeError`. -/
example : ∃ neig, DevDedSolve (R := ℝ) (fun _ _ => 0) 32 2 neig [-1, 1] (fun _ _ => True) 7 (.error .typeError) := by
  have hB : BathDiag 2 (fun _ _ => 0) := fun _ _ _ _ _ _ _ => rfl
  obtain ⟨H1, hb1, hm1, -⟩ := buildSiam_entries' (U := 0) (V := fun _ _ => 0) (g := gfimpFit (fun _ _ => 0) [-1, 1]) (n := 1) (by simp [gfimpFit]) (by simp [gfimpFit]) hB
  have ha := siamArgs_valid (nb := 1) (V := setCorner (fun _ _ => 0) 0) le_rfl (by norm_num) hm1
  obtain ⟨⟨⟨es, E⟩, hx⟩, -⟩ := buildEspace_none_ok (w := 32) ha (by simp [siamArgs])
  obtain ⟨p, hp, f, -⟩ := espace_ground ha (by simp [siamArgs]) hx
  obtain ⟨l, hl⟩ := buildEspace_none_some hx
  refine ⟨l, ?_⟩
  unfold DevDedSolve devBuildSiam
  rw [if_neg (by norm_num), bindR_ok hb1]
  refine Or.inl ⟨_, hl, ?_⟩
  dsimp only
  rw [bindR_ok f]
  refine Or.inr ⟨.typeError, ?_, rfl⟩
  cases es with
  | nil => cases hp
  | cons a l => rfl

end Edpyt
