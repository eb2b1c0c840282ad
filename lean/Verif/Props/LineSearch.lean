import Verif.Model.LineSearch
import Mathlib.Tactic.Linarith
import Mathlib.Tactic.Positivity
import Mathlib.Tactic.Ring
import Mathlib.Tactic.FieldSimp
import Mathlib.Tactic.NormNum
/-!
Theorems about the minimiser of `edpyt_backend`.
-/
namespace Edpyt

variable {K : Type} [Field K] [LinearOrder K] [IsStrictOrderedRing K]

/-- A bracket: `b` strictly between `a` and `c`, values as stored, `b` not above `a`. -/
structure HalfBrak (f : K → K) (s : Brak K) : Prop where
  fa : s.fa = f s.ax
  fb : s.fb = f s.bx
  fc : s.fc = f s.cx
  le : s.fb ≤ s.fa
  between : 0 < (s.bx - s.ax) * (s.cx - s.bx)

theorem gold_pos : (0 : K) < gold := by unfold gold; positivity

theorem beyond_pos {a b c t : K} (h : 0 < (b - a) * (c - b)) (ht : 0 < t) : 0 < (c - b) * (c + t * (c - b) - c) := by
  have hne : c - b ≠ 0 := by rintro h0; rw [h0, mul_zero] at h; exact lt_irrefl _ h
  have : 0 < (c - b) * (c - b) := mul_self_pos.mpr hne
  nlinarith

theorem mnInit_ok (f : K → K) {ax bx : K} (h : ax ≠ bx) : HalfBrak f (mnInit f ax bx) ∧ (mnInit f ax bx).fb ≤ f ax ∧ (mnInit f ax bx).fb ≤ f bx := by
  have g := gold_pos (K := K)
  have h1 : 0 < (bx - ax) * (bx - ax) := mul_self_pos.mpr (sub_ne_zero.mpr h.symm)
  unfold mnInit
  by_cases hc : f bx > f ax
  · simp only [hc, if_true]
    refine ⟨⟨rfl, rfl, rfl, hc.le, ?_⟩, le_rfl, hc.le⟩
    simp only
    nlinarith
  · simp only [hc, if_false]
    refine ⟨⟨rfl, rfl, rfl, not_lt.mp hc, ?_⟩, not_lt.mp hc, le_rfl⟩
    simp only
    nlinarith

/-- Signs along a line. -/
theorem between_trans {a b c u : K} (h : 0 < (b - a) * (c - b)) (hu : 0 < (b - u) * (u - c)) : 0 < (u - b) * (c - u) ∧ 0 < (b - a) * (u - b) := by
  refine ⟨by nlinarith, ?_⟩
  have h1 : 0 < (u - b) * (c - u) := by nlinarith
  rcases lt_trichotomy 0 (c - b) with hcb | hcb | hcb
  · have hub : 0 < u - b := by
      by_contra hn
      have : u - b ≤ 0 := not_lt.mp hn
      have : 0 < c - u := by linarith
      nlinarith
    have : 0 < b - a := by
      by_contra hn
      nlinarith [not_lt.mp hn]
    positivity
  · rw [← hcb, mul_zero] at h
    exact absurd h (lt_irrefl _)
  · have hub : u - b < 0 := by
      by_contra hn
      have : 0 ≤ u - b := not_lt.mp hn
      have : c - u < 0 := by linarith
      nlinarith
    have : b - a < 0 := by
      by_contra hn
      nlinarith [not_lt.mp hn]
    exact mul_pos_of_neg_of_neg this hub

theorem beyond_trans {b c u t : K} (hcb : c - b ≠ 0) (ht : 0 < t) (hu : 0 < (c - u) * (u - (b + (1 + t) * (c - b)))) : 0 < (c - b) * (u - c) := by
  rcases lt_or_gt_of_ne hcb with h | h
  · have h1 : u - c < 0 := by
      by_contra hn
      have h2 : 0 ≤ u - c := not_lt.mp hn
      have h3 : t * (c - b) < 0 := mul_neg_of_pos_of_neg ht h
      have h4 : 0 ≤ u - (b + (1 + t) * (c - b)) := by linarith
      exact absurd hu (not_lt.mpr (mul_nonpos_of_nonpos_of_nonneg (by linarith) h4))
    exact mul_pos_of_neg_of_neg h h1
  · have h1 : 0 < u - c := by
      by_contra hn
      have h2 : u - c ≤ 0 := not_lt.mp hn
      have h3 : 0 < t * (c - b) := mul_pos ht h
      have h4 : u - (b + (1 + t) * (c - b)) ≤ 0 := by linarith
      exact absurd hu (not_lt.mpr (mul_nonpos_of_nonneg_of_nonpos (by linarith) h4))
    positivity

theorem mnStep_ok (f : K → K) {s s' : Brak K} {done : Bool} (hs : HalfBrak f s) (hlt : s.fb > s.fc) (h : mnStep f s = (s', done)) :
    HalfBrak f s' ∧ s'.fb ≤ s.fb ∧ (done = true → s'.fb ≤ s'.fc) := by
  have g := gold_pos (K := K)
  have hcb : s.cx - s.bx ≠ 0 := by
    intro h0
    have := hs.between
    rw [h0, mul_zero] at this
    exact lt_irrefl _ this
  have hcb2 : 0 < (s.cx - s.bx) * (s.cx - s.bx) := mul_self_pos.mpr hcb
  have hgo : HalfBrak f ⟨s.bx, s.cx, s.cx + gold * (s.cx - s.bx), s.fb, s.fc, f (s.cx + gold * (s.cx - s.bx))⟩ :=
    ⟨hs.fb, hs.fc, rfl, hlt.le, beyond_pos hs.between g⟩
  unfold mnStep at h
  simp only at h
  set u := s.bx - ((s.bx - s.cx) * ((s.bx - s.cx) * (s.fb - s.fa)) - (s.bx - s.ax) * ((s.bx - s.ax) * (s.fb - s.fc))) /
    (2 * cSign (cMax |(s.bx - s.cx) * (s.fb - s.fa) - (s.bx - s.ax) * (s.fb - s.fc)| (1 / 10 ^ 20))
      ((s.bx - s.cx) * (s.fb - s.fa) - (s.bx - s.ax) * (s.fb - s.fc)))
  split_ifs at h with h1 h2 h3 h4 h5 h6 <;> (obtain ⟨rfl, rfl⟩ := Prod.mk.inj h)
  · obtain ⟨b1, b2⟩ := between_trans hs.between h1
    exact ⟨⟨hs.fb, rfl, hs.fc, (h2.trans hlt).le, b1⟩, (h2.trans hlt).le, fun _ => h2.le⟩
  · obtain ⟨b1, b2⟩ := between_trans hs.between h1
    exact ⟨⟨hs.fa, hs.fb, rfl, hs.le, b2⟩, le_rfl, fun _ => h3.le⟩
  · exact ⟨hgo, hlt.le, by simp⟩
  · have h7 : 0 < (s.cx - s.bx) * (u - s.cx) := beyond_trans (t := 99) hcb (by norm_num) (by norm_num at h4 ⊢; exact h4)
    exact ⟨⟨hs.fc, rfl, rfl, h5.le, beyond_pos h7 g⟩, (h5.trans hlt).le, by simp⟩
  · have h7 : 0 < (s.cx - s.bx) * (u - s.cx) := beyond_trans (t := 99) hcb (by norm_num) (by norm_num at h4 ⊢; exact h4)
    exact ⟨⟨hs.fb, hs.fc, rfl, hlt.le, h7⟩, hlt.le, by simp⟩
  · refine ⟨⟨hs.fb, hs.fc, rfl, hlt.le, ?_⟩, hlt.le, by simp⟩
    simp only
    nlinarith
  · exact ⟨hgo, hlt.le, by simp⟩

theorem mnLoop_ok (f : K → K) {s s' : Brak K} (h : MnLoop f s s') (hs : HalfBrak f s) : HalfBrak f s' ∧ s'.fb ≤ s.fb ∧ s'.fb ≤ s'.fc := by
  induction h with
  | stop h => exact ⟨hs, le_rfl, not_lt.mp h⟩
  | ret h h1 =>
    obtain ⟨a, b, c⟩ := mnStep_ok f hs h h1
    exact ⟨a, b, c rfl⟩
  | again h h1 _ ih =>
    obtain ⟨a, b, -⟩ := mnStep_ok f hs h h1
    obtain ⟨a', b', c'⟩ := ih a
    exact ⟨a', b'.trans b, c'⟩

/-- **C67.** For every function and every two different start points, if `mnbrak` returns, the middle point lies strictly between the outer
ones, the stored values are the function's values, the middle value is not above the outer ones and not above the values at the two
start points. -/
theorem C67_mnbrak (f : K → K) {ax bx : K} (h : ax ≠ bx) {s : Brak K} (hs : Mnbrak f ax bx s) :
    ((s.ax < s.bx ∧ s.bx < s.cx) ∨ (s.cx < s.bx ∧ s.bx < s.ax)) ∧ s.fa = f s.ax ∧ s.fb = f s.bx ∧ s.fc = f s.cx ∧
      f s.bx ≤ f s.ax ∧ f s.bx ≤ f s.cx ∧ f s.bx ≤ f ax ∧ f s.bx ≤ f bx := by
  obtain ⟨i1, i2, i3⟩ := mnInit_ok f h
  obtain ⟨a, b, c⟩ := mnLoop_ok f hs i1
  refine ⟨?_, a.fa, a.fb, a.fc, ?_, ?_, ?_, ?_⟩
  · rcases pos_and_pos_or_neg_and_neg_of_mul_pos a.between with ⟨h1, h2⟩ | ⟨h1, h2⟩
    · exact Or.inl ⟨by linarith, by linarith⟩
    · exact Or.inr ⟨by linarith, by linarith⟩
  · rw [← a.fa, ← a.fb]; exact a.le
  · rw [← a.fc, ← a.fb]; exact c
  · rw [← a.fb]; exact b.trans i2
  · rw [← a.fb]; exact b.trans i3

theorem dbUpdate_fx (f : K → K) {s : DbSt K} (hs : s.fx = f s.x) (u du : K) : (dbUpdate s u (f u) du).fx = f (dbUpdate s u (f u) du).x ∧ (dbUpdate s u (f u) du).fx ≤ s.fx := by
  unfold dbUpdate
  simp only
  split_ifs with h1 h2 h2 <;> first | exact ⟨rfl, h1⟩ | exact ⟨hs, le_rfl⟩

theorem dbLoop_le (f df : K → K) (tol : K) : ∀ (i : ℕ) (s : DbSt K), s.fx = f s.x → ∀ r, dbLoop f df tol i s = .ok r → r.2 = f r.1 ∧ r.2 ≤ s.fx := by
  intro i
  induction i with
  | zero => intro s _ r h; cases h
  | succ i ih =>
    intro s hs r h
    unfold dbLoop at h
    have key : ∀ q, dbStep f df tol s = q → (∀ x, q = .inl x → x = (s.x, s.fx)) ∧ ∀ s', q = .inr s' → s'.fx = f s'.x ∧ s'.fx ≤ s.fx := by
      intro q hq
      unfold dbStep at hq
      simp only at hq
      split_ifs at hq <;> subst hq
      · exact ⟨by rintro x ⟨⟩; rfl, by rintro s' ⟨⟩⟩
      · refine ⟨by rintro x ⟨⟩, ?_⟩
        rintro s' ⟨⟩
        exact dbUpdate_fx f (by simpa using hs) _ _
      · exact ⟨by rintro x ⟨⟩; rfl, by rintro s' ⟨⟩⟩
      · refine ⟨by rintro x ⟨⟩, ?_⟩
        rintro s' ⟨⟩
        exact dbUpdate_fx f (by simpa using hs) _ _
    cases hq : dbStep f df tol s with
    | inl x =>
      rw [hq] at h
      obtain rfl : x = r := by simpa using h
      rw [(key _ hq).1 x rfl]
      exact ⟨hs, le_rfl⟩
    | inr s' =>
      rw [hq] at h
      obtain ⟨h1, h2⟩ := (key _ hq).2 s' rfl
      obtain ⟨h3, h4⟩ := ih s' h1 r h
      exact ⟨h3, h4.trans h2⟩

/-- **C67.** For every function, every supposed derivative and every bracket, if `dbrent` returns, the value is the function at `xmin` and
not above the value at the middle point. -/
theorem C67_dbrent (junk : K) (f df : K → K) (ax bx cx tol : K) {r : K × K} (h : dbrent junk ax bx cx f df tol = .ok r) : r.2 = f r.1 ∧ r.2 ≤ f bx :=
  dbLoop_le f df tol 2000 _ rfl r h

/-- `dbrent` does not read its uninitialised variable. -/
theorem C67_dbrent_junk (j1 j2 : K) (f df : K → K) (ax bx cx tol : K) (htol : 0 ≤ tol) :
    dbrent j1 ax bx cx f df tol = dbrent j2 ax bx cx f df tol := by
  unfold dbrent dbLoop
  have : dbStep f df tol (dbInit j1 f df ax bx cx) = dbStep f df tol (dbInit j2 f df ax bx cx) := by
    have hz : ¬ |(0 : K)| > tol * |bx| + zeps := by
      rw [abs_zero, gt_iff_lt, not_lt]
      unfold zeps
      positivity
    unfold dbStep
    simp only [dbInit, dbMove, hz, if_false]
    rfl
  rw [this]

variable {n : ℕ}

/-- **C67.** For every objective and every supposed gradient, if `dlinmin` returns, its value is the objective at the new point and not above the
objective at the old one; the new point lies on the search line. -/
theorem C67_dlinmin (junk : K) (func : (Fin n → K) → K) (dfunc : (Fin n → K) → Fin n → K) (p xi : Fin n → K) {p' xi' : Fin n → K} {fret : K}
    (h : Dlinmin junk func dfunc p xi (.ok (p', xi', fret))) : fret = func p' ∧ fret ≤ func p ∧ ∃ t, ∀ j, p' j = p j + t * xi j := by
  obtain ⟨s, hs, hr⟩ := h
  cases hd : dbrent junk s.ax s.bx s.cx (f1dim func p xi) (df1dim dfunc p xi) (2 / 10 ^ 4) with
  | error e => rw [hd] at hr; cases hr
  | ok m =>
    rw [hd] at hr
    simp only [Except.map, Except.ok.injEq, Prod.mk.injEq] at hr
    obtain ⟨rfl, rfl, rfl⟩ := hr
    obtain ⟨h1, h2⟩ := C67_dbrent _ _ _ _ _ _ _ hd
    have h3 := C67_mnbrak (f1dim func p xi) (zero_ne_one) hs
    refine ⟨?_, ?_, m.1, fun j => by ring⟩
    · rw [h1]
      unfold f1dim
      congr 1
      funext j
      ring
    · refine h2.trans (h3.2.2.2.2.2.2.1.trans (le_of_eq ?_))
      simp [f1dim]

theorem frLoop_le (junk : K) (func : (Fin n → K) → K) (dfunc : (Fin n → K) → Fin n → K) {left : ℕ} {s : FrSt K n} {r : Except PyErr ((Fin n → K) × ℕ × K)}
    (h : FrLoop junk func dfunc left s r) (hl : left ≤ 2000) : s.fp = func s.p → ∀ p its fret, r = .ok (p, its, fret) → fret = func p ∧ fret ≤ s.fp ∧ 1 ≤ its ∧ its ≤ 2000 := by
  induction h with
  | exhausted => intro _ p its fret h; cases h
  | fail _ => intro _ p its fret h; cases h
  | conv h1 _ =>
    intro hs p its fret h
    obtain ⟨rfl, rfl, rfl⟩ : _ ∧ _ ∧ _ := by simpa using h
    obtain ⟨a, b, -⟩ := C67_dlinmin _ _ _ _ _ h1
    exact ⟨a, hs ▸ b, by omega, by omega⟩
  | zero h1 _ _ =>
    intro hs p its fret h
    obtain ⟨rfl, rfl, rfl⟩ : _ ∧ _ ∧ _ := by simpa using h
    obtain ⟨a, b, -⟩ := C67_dlinmin _ _ _ _ _ h1
    exact ⟨a, hs ▸ b, by omega, by omega⟩
  | again h1 _ h2 _ ih =>
    intro hs p its fret h
    obtain ⟨a, b, -⟩ := C67_dlinmin _ _ _ _ _ h1
    unfold frNext at h2
    simp only at h2
    split_ifs at h2
    cases h2
    obtain ⟨c, d, e, f⟩ := ih (by omega) a p its fret h
    exact ⟨c, d.trans (hs ▸ b), e, f⟩

/-- **C67.** For every objective, supposed gradient and start, if `frprmn` returns, the value is the objective at the returned point and not
above the start value, and the number of iterations is between one and two thousand. -/
theorem C67_frprmn (junk : K) (func : (Fin n → K) → K) (dfunc : (Fin n → K) → Fin n → K) (ftol : K) (p0 : Fin n → K) {p : Fin n → K} {its : ℕ} {fret : K}
    (h : Frprmn junk func dfunc ftol p0 (.ok (p, its, fret))) : fret = func p ∧ func p ≤ func p0 ∧ 1 ≤ its ∧ its ≤ 2000 := by
  obtain ⟨a, b, c, d⟩ := frLoop_le junk func dfunc h le_rfl rfl p its fret rfl
  exact ⟨a, a ▸ b, c, d⟩

/-- Non-vacuity: the bracket of a parabola. -/
example : Mnbrak (fun t : ℚ => (t - 9 / 10) ^ 2) 0 1 (mnInit (fun t : ℚ => (t - 9 / 10) ^ 2) 0 1) := MnLoop.stop (by norm_num [mnInit, gold])

/-- A function with one minimum `m`: it falls before `m` and rises after it. -/
structure Spec.Unimodal (f : K → K) (m : K) : Prop where
  falls : ∀ s t, s < t → t ≤ m → f t < f s
  rises : ∀ s t, m ≤ s → s < t → f s < f t

open Spec

/-- **C80 (partial).** The bookkeeping of `dbrent` keeps the minimum of a function with one minimum within the bracket, unless the new point lies to the
left of the best point and is worse. The full claim is about all new points; it is false. -/
theorem C80_partial {f : K → K} {m : K} (hf : Unimodal f m) {s : DbSt K} (hs : s.fx = f s.x) {u du : K} (hu : u ≠ s.x) (hm : s.a ≤ m ∧ m ≤ s.b)
    (hc : ¬ (u < s.x ∧ f s.x < f u)) : (dbUpdate s u (f u) du).a ≤ m ∧ m ≤ (dbUpdate s u (f u) du).b := by
  unfold dbUpdate
  simp only
  by_cases h1 : f u ≤ s.fx
  · rw [if_pos h1]
    rw [hs] at h1
    by_cases h2 : u ≥ s.x
    · simp only [h2, if_true]
      refine ⟨?_, hm.2⟩
      by_contra hn
      exact absurd (hf.rises s.x u (not_le.mp hn).le (lt_of_le_of_ne h2 (Ne.symm hu))) (not_lt.mpr h1)
    · simp only [h2, if_false]
      refine ⟨hm.1, ?_⟩
      by_contra hn
      exact absurd (hf.falls u s.x (not_le.mp h2) (not_le.mp hn).le) (not_lt.mpr h1)
  · rw [if_neg h1]
    rw [hs] at h1
    have h2 : ¬ u < s.x := fun h => hc ⟨h, not_le.mp h1⟩
    have h3 : s.a ≤ m ∧ m ≤ u := by
      refine ⟨hm.1, ?_⟩
      by_contra hn
      exact absurd (hf.falls s.x u (lt_of_le_of_ne (not_lt.mp h2) (Ne.symm hu)) (not_le.mp hn).le) (not_lt.mpr (not_le.mp h1).le)
    simp only [h2, if_false]
    split_ifs <;> exact h3

/-- **C80 is false**: in the remaining case the lower end of the bracket is moved to the best point instead of the new point, and the minimum is lost
whenever it lies between the two. -/
theorem C80_refuted_step {f : K → K} {m : K} {s : DbSt K} (hs : s.fx = f s.x) {u du : K} (hc : u < s.x ∧ f s.x < f u) (hm : m < s.x) :
    m < (dbUpdate s u (f u) du).a := by
  unfold dbUpdate
  have h1 : ¬ f u ≤ s.fx := by rw [hs]; exact not_le.mpr hc.2
  simp only [if_neg h1, hc.1, if_true]
  split_ifs <;> exact hm

/-- **C80 is false** for complete line searches: on the parabola `(t - 9/10)²`, with its exact derivative, the search from 0 along 1 stops at `1`,
where the derivative is `1/5`; its tolerance is `2·10⁻⁴`. -/
theorem C80_refuted (junk : ℚ) : Dlinmin (n := 1) junk (fun p => (p 0 - 9 / 10) ^ 2) (fun p _ => 2 * (p 0 - 9 / 10)) (fun _ => 0) (fun _ => 1)
    (.ok (fun _ => 1, fun _ => 1, 1 / 100)) := by
  have hf : f1dim (n := 1) (fun p : Fin 1 → ℚ => (p 0 - 9 / 10) ^ 2) (fun _ => 0) (fun _ => 1) = fun t => (t - 9 / 10) ^ 2 := by
    funext t; simp [f1dim]
  have hd : df1dim (n := 1) (fun (p : Fin 1 → ℚ) _ => 2 * (p 0 - 9 / 10)) (fun _ => 0) (fun _ => 1) = fun t => 2 * (t - 9 / 10) := by
    funext t; simp [df1dim]
  refine ⟨mnInit (fun t : ℚ => (t - 9 / 10) ^ 2) 0 1, ?_, ?_⟩
  · rw [hf]
    exact MnLoop.stop (by norm_num [mnInit, gold])
  · rw [hf, hd, C67_dbrent_junk junk 0 _ _ _ _ _ _ (by norm_num)]
    have : dbrent 0 (mnInit (fun t : ℚ => (t - 9 / 10) ^ 2) 0 1).ax (mnInit (fun t : ℚ => (t - 9 / 10) ^ 2) 0 1).bx (mnInit (fun t : ℚ => (t - 9 / 10) ^ 2) 0 1).cx
        (fun t : ℚ => (t - 9 / 10) ^ 2) (fun t => 2 * (t - 9 / 10)) (2 / 10 ^ 4) = .ok (1, 1 / 100) := by
      decide +kernel
    rw [this]
    simp [Except.map]

end Edpyt
