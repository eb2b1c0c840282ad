import Verif.Model.DedLoop
import Mathlib.Tactic.Linarith
import Mathlib.Tactic.NormNum
/-!
C161: the ranks of the script `edpyt/ded.py` and their self-consistency loop.
-/
namespace Edpyt

/-! ## Specification -/

/-- The values of `sigma0` of a single process without a test of convergence: each is the one before it plus its residual. -/
noncomputable def Spec.sigmaSeq (U : ℝ) (resid : (ℕ → ℝ) → ℝ) : ℕ → ℝ
  | 0 => U / 2
  | k + 1 => Spec.sigmaSeq U resid k + resid fun _ => Spec.sigmaSeq U resid k

/-- The residual of iteration `k`. -/
noncomputable def Spec.residSeq (U : ℝ) (resid : (ℕ → ℝ) → ℝ) (k : ℕ) : ℝ := resid fun _ => Spec.sigmaSeq U resid k

open Spec
variable {size maxIt : ℕ} {U tol : ℝ} {resid : (ℕ → ℝ) → ℝ}

/-- The state of the ranks after `k` iterations. -/
noncomputable def dedAfter (U tol : ℝ) (resid : (ℕ → ℝ) → ℝ) : ℕ → ℕ → DedRank
  | 0 => dedStart U tol
  | k + 1 => dedBody resid (dedAfter U tol resid k)

theorem dedAfter_eq (k r : ℕ) : dedAfter U tol resid k r = ⟨k, if r = 0 then (match k with | 0 => tol + 1 | j + 1 => residSeq U resid j) else tol + 1, sigmaSeq U resid k⟩ := by
  induction k generalizing r with
  | zero => simp [dedAfter, dedStart, sigmaSeq]
  | succ k ih =>
    have e : (fun r => (dedAfter U tol resid k r).sigma0) = fun _ => sigmaSeq U resid k := funext fun r => by rw [ih]
    simp only [dedAfter, dedBody, e]
    rw [ih]
    by_cases hr : r = 0
    · simp [hr, sigmaSeq, residSeq]
    · simp [hr, sigmaSeq]

theorem goesOn_zero (k : ℕ) : (dedAfter U tol resid k 0).goesOn maxIt tol ↔ k < maxIt ∧ (∀ j, k = j + 1 → tol < |residSeq U resid j|) ∧ (k = 0 → tol < |tol + 1|) := by
  rw [dedAfter_eq]
  unfold DedRank.goesOn
  cases k with
  | zero => simp
  | succ j => simp

theorem goesOn_ne {k r : ℕ} (hr : r ≠ 0) (ht : 0 ≤ tol) : (dedAfter U tol resid k r).goesOn maxIt tol ↔ k < maxIt := by
  rw [dedAfter_eq]
  unfold DedRank.goesOn
  rw [if_neg hr, abs_of_nonneg (by linarith)]
  simp

theorem DedLoop.unique {rs : ℕ → DedRank} {e e' : DedEnd} (hs : 0 < size) (h : DedLoop size maxIt tol resid rs e) (h' : DedLoop size maxIt tol resid rs e') : e = e' := by
  induction h generalizing e' with
  | left h =>
    cases h' with
    | left => rfl
    | body h1 => exact absurd (h1 0 hs) (h 0 hs)
    | hangs h1 => obtain ⟨r, hr, hg⟩ := h1; exact absurd hg (h r hr)
  | body h _ ih =>
    cases h' with
    | left h1 => exact absurd (h 0 hs) (h1 0 hs)
    | body _ h2 => exact ih h2
    | hangs _ h2 => obtain ⟨r, hr, hg⟩ := h2; exact absurd (h r hr) hg
  | hangs h1 h2 =>
    obtain ⟨r, hr, hg⟩ := h1
    obtain ⟨r', hr', hg'⟩ := h2
    cases h' with
    | left h => exact absurd hg (h r hr)
    | body h => exact absurd (h r' hr') hg'
    | hangs => rfl

/-- Going on for `m` iterations in which no rank stops. -/
theorem DedLoop.skip {e : DedEnd} : ∀ (m : ℕ), (∀ k < m, ∀ r < size, (dedAfter U tol resid k r).goesOn maxIt tol) → DedLoop size maxIt tol resid (dedAfter U tol resid m) e →
    DedLoop size maxIt tol resid (dedStart U tol) e
  | 0, _, h => h
  | m + 1, hg, h => DedLoop.skip m (fun k hk => hg k (by omega)) (.body (hg m (by omega)) h)

/-- **C161 is false**: with two or more ranks, if the residual of an iteration other than the last is within the tolerance, the script hangs: rank 0 leaves the loop, the others
go on. -/
theorem C161_refuted (hs : 2 ≤ size) (ht : 0 ≤ tol) {k : ℕ} (hk : k + 1 < maxIt) (hc : |residSeq U resid k| ≤ tol) {e : DedEnd} (h : DedLoop size maxIt tol resid (dedStart U tol) e) : e = .hangs := by
  classical
  have hex : ∃ j, |residSeq U resid j| ≤ tol := ⟨k, hc⟩
  have hm := Nat.find_spec hex
  have hmk : Nat.find hex ≤ k := Nat.find_min' hex hc
  have hmin : ∀ j < Nat.find hex, tol < |residSeq U resid j| := fun j hj => not_le.mp (Nat.find_min hex hj)
  generalize Nat.find hex = m at hm hmk hmin
  refine h.unique (by omega) (DedLoop.skip (m + 1) (fun j hj r _ => ?_) (.hangs ⟨1, by omega, ?_⟩ ⟨0, by omega, ?_⟩))
  · by_cases hr : r = 0
    · subst hr
      rw [goesOn_zero]
      exact ⟨by omega, fun i hi => hmin i (by omega), fun _ => by rw [abs_of_nonneg (by linarith)]; linarith⟩
    · rw [goesOn_ne hr ht]; omega
  · rw [goesOn_ne one_ne_zero ht]; omega
  · rw [goesOn_zero]
    rintro ⟨-, h2, -⟩
    exact absurd (h2 m rfl) (not_lt.mpr hm)

/-- **C161, partial.** If no residual but that of the last iteration is within the tolerance, every rank leaves the loop after `max_it` iterations, all with the same `sigma0`. -/
theorem C161_partial (hs : 0 < size) (ht : 0 ≤ tol) (hc : ∀ k, k + 1 < maxIt → tol < |residSeq U resid k|) :
    ∃ rs, (∀ e, DedLoop size maxIt tol resid (dedStart U tol) e ↔ e = .left rs) ∧ ∀ r, (rs r).it = maxIt ∧ (rs r).sigma0 = sigmaSeq U resid maxIt := by
  have h : DedLoop size maxIt tol resid (dedStart U tol) (.left (dedAfter U tol resid maxIt)) := by
    refine DedLoop.skip maxIt (fun j hj r _ => ?_) (.left fun r _ => ?_)
    · by_cases hr : r = 0
      · subst hr
        rw [goesOn_zero]
        exact ⟨hj, fun i hi => hc i (by omega), fun _ => by rw [abs_of_nonneg (by linarith)]; linarith⟩
      · rw [goesOn_ne hr ht]; exact hj
    · rw [dedAfter_eq]
      exact fun hg => lt_irrefl _ hg.1
  exact ⟨_, fun e => ⟨fun he => he.unique hs h, fun he => he ▸ h⟩, fun r => by rw [dedAfter_eq]; exact ⟨rfl, rfl⟩⟩

/-- **C161** (one process) Alone, rank 0 always leaves the loop: after the first iteration whose residual is within the tolerance, or after `max_it`. The `sigma0` at the end
is the one of that iteration plus its residual. -/
theorem C161_serial (ht : 0 ≤ tol) : ∃ m ≤ maxIt, ∃ rs, (∀ e, DedLoop 1 maxIt tol resid (dedStart U tol) e ↔ e = .left rs) ∧ (rs 0).it = m ∧ (rs 0).sigma0 = sigmaSeq U resid m ∧
    (∀ k, k + 1 < m → tol < |residSeq U resid k|) ∧ (m < maxIt → ∃ k, m = k + 1 ∧ |residSeq U resid k| ≤ tol) := by
  classical
  by_cases hall : ∀ k, k + 1 < maxIt → tol < |residSeq U resid k|
  · obtain ⟨rs, h1, h2⟩ := C161_partial (size := 1) one_pos ht hall
    exact ⟨maxIt, le_rfl, rs, h1, (h2 0).1, (h2 0).2, hall, fun h => absurd h (lt_irrefl _)⟩
  · push Not at hall
    obtain ⟨k, hk, hc⟩ := hall
    have hex : ∃ j, |residSeq U resid j| ≤ tol := ⟨k, hc⟩
    have hm := Nat.find_spec hex
    have hmk : Nat.find hex ≤ k := Nat.find_min' hex hc
    have hmin : ∀ j < Nat.find hex, tol < |residSeq U resid j| := fun j hj => not_le.mp (Nat.find_min hex hj)
    generalize Nat.find hex = m at hm hmk hmin
    have h : DedLoop 1 maxIt tol resid (dedStart U tol) (.left (dedAfter U tol resid (m + 1))) := by
      refine DedLoop.skip (m + 1) (fun j hj r hr => ?_) (.left fun r hr => ?_)
      · obtain rfl : r = 0 := by omega
        rw [goesOn_zero]
        exact ⟨by omega, fun i hi => hmin i (by omega), fun _ => by rw [abs_of_nonneg (by linarith)]; linarith⟩
      · obtain rfl : r = 0 := by omega
        rw [goesOn_zero]
        rintro ⟨-, h2, -⟩
        exact absurd (h2 m rfl) (not_lt.mpr hm)
    refine ⟨m + 1, by omega, _, fun e => ⟨fun he => he.unique one_pos h, fun he => he ▸ h⟩, by rw [dedAfter_eq], by rw [dedAfter_eq], fun j hj => hmin j (by omega), fun _ => ⟨m, rfl, hm⟩⟩

/-- The hypotheses of `C161_refuted` are met by the numbers of the script (`max_it = 2`, `tol = 1e-3`) and a residual that is at once zero, as at half filling. -/
example : DedLoop 2 2 (1 / 1000) (fun _ => 0) (dedStart 3 (1 / 1000)) .hangs ∧ |residSeq 3 (fun _ => 0) 0| ≤ (1 / 1000 : ℝ) := by
  refine ⟨.body (fun r _ => ?_) (.hangs ⟨1, by norm_num, ?_⟩ ⟨0, by norm_num, ?_⟩), by norm_num [residSeq]⟩
  all_goals norm_num [DedRank.goesOn, dedStart, dedBody, abs_of_pos]

/-- The hypotheses of `C161_partial` are met: a residual `1 - sigma0 / 4` that stays above the tolerance. -/
example : ∀ k, k + 1 < 2 → (1 / 1000 : ℝ) < |residSeq 3 (fun s => 1 - s 0 / 4) k| := by
  intro k hk
  obtain rfl : k = 0 := by omega
  norm_num [residSeq, sigmaSeq, abs_of_pos]

end Edpyt
