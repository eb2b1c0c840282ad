import Verif.Model.Lanczos
import Verif.Proof.Py
import Mathlib.Tactic.Linarith
/-!
Control flow of the Lanczos driver.
-/
namespace Edpyt

variable {K V : Type} {step : V → V → K × K × V × V} {tiny : K → Bool} {eg : List K → List K → K} {close : K → Option K → Bool}
  {maxn ND : ℕ}

/-- Buffers of full length and a counter inside them. -/
structure LancOk (maxn : ℕ) (st : LancSt K V) : Prop where
  alen : st.a.length = maxn
  blen : st.b.length = maxn
  lt : st.n + 1 ≤ maxn

/-- What a pass of the inner loop does. -/
inductive PassEnd (step : V → V → K × K × V × V) (tiny : K → Bool) (maxn : ℕ) (k : ℕ) (st : LancSt K V) : Except PyErr (LancSt K V) → Prop
  | full {st'} : LancOk maxn st' → st'.converged = st.converged → st'.n = st.n + k → PassEnd step tiny maxn k st (.ok st')
  | stop {st'} : LancOk maxn st' → st'.converged = true → st.n ≤ st'.n → 1 ≤ st'.n → PassEnd step tiny maxn k st (.ok st')
  | zero : st.n = 0 → PassEnd step tiny maxn k st (.error .zeroNorm)

theorem slPass_end : ∀ (k : ℕ) (st : LancSt K V), LancOk maxn st → PassEnd step tiny maxn k st (slPass step tiny maxn k st) := by
  intro k
  induction k with
  | zero => intro st h; exact .full h rfl rfl
  | succ k ih =>
    intro st h
    have hlt := h.lt
    simp only [slPass]
    rw [setItem_natCast _ _ _ (by rw [h.alen]; omega), setItem_natCast _ _ _ (by rw [h.blen]; omega)]
    simp only [bind, Except.bind, pure, Except.pure]
    by_cases hc : (tiny (step st.v st.l).2.1 || decide ((st.n : ℤ) ≥ (maxn : ℤ) - 1)) = true
    · rw [if_pos hc]
      by_cases h0 : st.n = 0
      · rw [if_pos h0]; exact .zero h0
      · rw [if_neg h0]
        exact .stop ⟨by simp [h.alen], by simp [h.blen], h.lt⟩ rfl le_rfl (by simp only; omega)
    · rw [if_neg hc]
      have hn : st.n + 1 + 1 ≤ maxn := by
        simp only [Bool.or_eq_true, decide_eq_true_eq, not_or] at hc
        omega
      have := ih ⟨st.n + 1, st.a.set st.n (step st.v st.l).1, st.b.set st.n (step st.v st.l).2.1, (step st.v st.l).2.2.1,
        (step st.v st.l).2.2.2, st.converged⟩ ⟨by simp [h.alen], by simp [h.blen], hn⟩
      generalize slPass step tiny maxn k _ = r at this
      cases this with
      | full h1 h2 h3 => exact .full h1 h2 (by rw [h3]; simp only; omega)
      | stop h1 h2 h3 h4 => exact .stop h1 h2 (by simp only at h3; omega) h4
      | zero h1 => simp at h1

/-- The loop terminates: every state has an outcome. -/
theorem slLoop_total (hND : 1 ≤ ND) : ∀ (j : ℕ) (st : LancSt K V) (egs : Option K), maxn - st.n = j → LancOk maxn st →
    ∃ r, SlLoop step tiny eg close maxn ND st egs r := by
  intro j
  induction j using Nat.strong_induction_on with
  | _ j ih =>
    intro st egs hj h
    by_cases hconv : st.converged = true
    · exact ⟨_, .done hconv⟩
    have hconv : st.converged = false := by simpa using hconv
    have hp := slPass_end (step := step) (tiny := tiny) ND st h
    generalize hr : slPass step tiny maxn ND st = r at hp
    cases hp with
    | zero h0 => exact ⟨_, .raised hconv hr⟩
    | full h1 h2 h3 =>
      rename_i st'
      by_cases hn1 : st'.n = 1
      · exact ⟨_, .one hconv hr hn1⟩
      · by_cases hc : close (eg (st'.a.take st'.n) ((st'.b.take st'.n).drop 1)) egs = true
        · refine ⟨.ok { st' with converged := true }, .again hconv hr hn1 ?_⟩
          rw [if_pos hc, if_pos hc]
          exact .done rfl
        · obtain ⟨r, h4⟩ := ih (maxn - st'.n) (by have := h.lt; omega) st' (some (eg (st'.a.take st'.n) ((st'.b.take st'.n).drop 1))) rfl h1
          refine ⟨r, .again hconv hr hn1 ?_⟩
          rwa [if_neg hc, if_neg hc]
    | stop h1 h2 h3 h4 =>
      rename_i st'
      by_cases hn1 : st'.n = 1
      · exact ⟨_, .one hconv hr hn1⟩
      · by_cases hc : close (eg (st'.a.take st'.n) ((st'.b.take st'.n).drop 1)) egs = true
        · refine ⟨.ok { st' with converged := true }, .again hconv hr hn1 ?_⟩
          rw [if_pos hc, if_pos hc]
          exact .done rfl
        · refine ⟨.ok st', .again hconv hr hn1 ?_⟩
          rw [if_neg hc, if_neg hc]
          exact .done h2

/-- … and only one. -/
theorem slLoop_det {st : LancSt K V} {egs : Option K} {r r' : Except PyErr (LancSt K V)}
    (h : SlLoop step tiny eg close maxn ND st egs r) (h' : SlLoop step tiny eg close maxn ND st egs r') : r = r' := by
  induction h with
  | done h1 =>
    cases h' with
    | done _ => rfl
    | raised h2 _ => rw [h1] at h2; cases h2
    | one h2 _ _ => rw [h1] at h2; cases h2
    | again h2 _ _ _ => rw [h1] at h2; cases h2
  | raised h1 hp =>
    cases h' with
    | done h2 => rw [h1] at h2; cases h2
    | raised h2 hp' => rw [hp] at hp'; injection hp' with e; rw [e]
    | one h2 hp' _ => rw [hp] at hp'; cases hp'
    | again h2 hp' _ _ => rw [hp] at hp'; cases hp'
  | one h1 hp hn =>
    cases h' with
    | done h2 => rw [h1] at h2; cases h2
    | raised h2 hp' => rw [hp] at hp'; cases hp'
    | one h2 hp' _ => rw [hp] at hp'; injection hp' with e; rw [e]
    | again h2 hp' hn' _ => rw [hp] at hp'; injection hp' with e; subst e; exact absurd hn hn'
  | again h1 hp hn _ ih =>
    cases h' with
    | done h2 => rw [h1] at h2; cases h2
    | raised h2 hp' => rw [hp] at hp'; cases hp'
    | one h2 hp' hn' => rw [hp] at hp'; injection hp' with e; subst e; exact absurd hn' hn
    | again h2 hp' hn' hr => rw [hp] at hp'; injection hp' with e; subst e; exact ih hr

/-- The outcome of the loop. -/
theorem slLoop_out (hND : 1 ≤ ND) {st : LancSt K V} {egs : Option K} {r : Except PyErr (LancSt K V)}
    (h : SlLoop step tiny eg close maxn ND st egs r) (hok : LancOk maxn st) (h0 : st.converged = true → 1 ≤ st.n) :
    r = .error .zeroNorm ∨ ∃ st', r = .ok st' ∧ LancOk maxn st' ∧ 1 ≤ st'.n := by
  induction h with
  | done h1 => exact .inr ⟨_, rfl, hok, h0 h1⟩
  | @raised st egs e h1 hp =>
    have := slPass_end (step := step) (tiny := tiny) ND st hok
    rw [hp] at this
    cases this; exact .inl rfl
  | @one st egs st' h1 hp hn =>
    have := slPass_end (step := step) (tiny := tiny) ND st hok
    rw [hp] at this
    have h2 : LancOk maxn st' := by cases this with
      | full h _ _ => exact h
      | stop h _ _ _ => exact h
    exact .inr ⟨_, rfl, ⟨h2.alen, h2.blen, h2.lt⟩, by simp only; omega⟩
  | @again st egs st' r h1 hp hn _ ih =>
    have := slPass_end (step := step) (tiny := tiny) ND st hok
    rw [hp] at this
    have h2 : LancOk maxn st' ∧ 1 ≤ st'.n := by cases this with
      | full h _ h3 => exact ⟨h, by omega⟩
      | stop h _ _ h3 => exact ⟨h, h3⟩
    apply ih
    · split_ifs
      · exact ⟨h2.1.alen, h2.1.blen, h2.1.lt⟩
      · exact h2.1
    · intro _; split_ifs <;> exact h2.2

/-- A pass makes at most `maxn - n` steps. -/
theorem slPass_count {cnt : V → ℕ} (hcnt : ∀ v l, cnt (step v l).2.2.2 = cnt v + 1) :
    ∀ (k : ℕ) (st st' : LancSt K V), LancOk maxn st → slPass step tiny maxn k st = .ok st' →
      cnt st'.v + st.n ≤ cnt st.v + st'.n + 1 ∧ (st'.converged = st.converged → st'.converged = false → cnt st'.v + st.n = cnt st.v + st'.n) := by
  intro k
  induction k with
  | zero => intro st st' _ h; simp only [slPass] at h; injection h with h; subst h; exact ⟨by omega, fun _ _ => rfl⟩
  | succ k ih =>
    intro st st' hok h
    have hlt := hok.lt
    simp only [slPass] at h
    rw [setItem_natCast _ _ _ (by rw [hok.alen]; omega), setItem_natCast _ _ _ (by rw [hok.blen]; omega)] at h
    simp only [bind, Except.bind, pure, Except.pure] at h
    by_cases hc : (tiny (step st.v st.l).2.1 || decide ((st.n : ℤ) ≥ (maxn : ℤ) - 1)) = true
    · rw [if_pos hc] at h
      by_cases h0 : st.n = 0
      · rw [if_pos h0] at h; cases h
      · rw [if_neg h0] at h
        injection h with h; subst h
        simp only [hcnt]
        exact ⟨by omega, fun _ h => by cases h⟩
    · rw [if_neg hc] at h
      have hn : st.n + 1 + 1 ≤ maxn := by
        simp only [Bool.or_eq_true, decide_eq_true_eq, not_or] at hc
        omega
      have := ih _ _ ⟨by simp [hok.alen], by simp [hok.blen], hn⟩ h
      simp only [hcnt] at this
      exact ⟨by omega, fun h1 h2 => by have := this.2 h1 h2; omega⟩

theorem slLoop_count {cnt : V → ℕ} (hcnt : ∀ v l, cnt (step v l).2.2.2 = cnt v + 1) {st : LancSt K V} {egs : Option K}
    {r : Except PyErr (LancSt K V)} (h : SlLoop step tiny eg close maxn ND st egs r) (hok : LancOk maxn st) (c0 : ℕ)
    (h1 : cnt st.v ≤ c0 + st.n + 1) (h2 : st.converged = false → cnt st.v ≤ c0 + st.n) {st' : LancSt K V} (hr : r = .ok st') :
    cnt st'.v ≤ c0 + maxn := by
  induction h with
  | done _ => injection hr with hr; subst hr; have := hok.lt; omega
  | raised _ _ => cases hr
  | @one st egs st'' hf hp hn =>
    injection hr with hr; subst hr
    have hc := (slPass_count hcnt ND _ _ hok hp).1
    have he := slPass_end (step := step) (tiny := tiny) ND st hok
    rw [hp] at he
    have := h2 hf
    have hlt : st''.n + 1 ≤ maxn := by cases he with
      | full h _ _ => exact h.lt
      | stop h _ _ _ => exact h.lt
    simp only; omega
  | @again st egs st'' r hf hp hn _ ih =>
    have hc := slPass_count hcnt ND _ _ hok hp
    have he := slPass_end (step := step) (tiny := tiny) ND st hok
    rw [hp] at he
    have h3 := h2 hf
    have hk : LancOk maxn st'' := by cases he with
      | full h _ _ => exact h
      | stop h _ _ _ => exact h
    apply ih
    · split_ifs
      · exact ⟨hk.alen, hk.blen, hk.lt⟩
      · exact hk
    · split_ifs <;> (try simp only) <;> omega
    · split_ifs
      · intro h; cases h
      · intro h; have := hc.2 (by rw [h, hf]) h; omega
    · exact hr

/-- The start vector is the only reason to raise. -/
theorem slPass_noerr (hmaxn : 2 ≤ maxn) (k : ℕ) (st : LancSt K V) (hok : LancOk maxn st)
    (h0 : st.n = 0 → tiny (step st.v st.l).2.1 = false) (e : PyErr) : slPass step tiny maxn k st ≠ .error e := by
  intro h
  have he := slPass_end (step := step) (tiny := tiny) k st hok
  rw [h] at he
  cases he with
  | zero hn =>
    cases k with
    | zero => simp [slPass] at h
    | succ k =>
      have hlt := hok.lt
      simp only [slPass] at h
      rw [setItem_natCast _ _ _ (by rw [hok.alen]; omega), setItem_natCast _ _ _ (by rw [hok.blen]; omega)] at h
      simp only [bind, Except.bind, pure, Except.pure] at h
      rw [if_neg (by simp [h0 hn]; omega)] at h
      have he := slPass_end (maxn := maxn) (step := step) (tiny := tiny) k ⟨st.n + 1, st.a.set st.n (step st.v st.l).1, st.b.set st.n (step st.v st.l).2.1,
        (step st.v st.l).2.2.1, (step st.v st.l).2.2.2, st.converged⟩ ⟨by simp [hok.alen], by simp [hok.blen], by simp only; omega⟩
      rw [h] at he
      cases he with
      | zero hn => simp at hn

theorem slLoop_noerr (hmaxn : 2 ≤ maxn) (hND : 1 ≤ ND) {st : LancSt K V} {egs : Option K} {r : Except PyErr (LancSt K V)}
    (h : SlLoop step tiny eg close maxn ND st egs r) (hok : LancOk maxn st) (h0 : st.n = 0 → tiny (step st.v st.l).2.1 = false)
    (e : PyErr) : r ≠ .error e := by
  induction h with
  | done _ => simp
  | @raised st egs e' _ hp => exact absurd hp (slPass_noerr hmaxn ND st hok h0 e')
  | one _ _ _ => simp
  | @again st egs st' r hf hp hn _ ih =>
    have := slPass_end (step := step) (tiny := tiny) ND st hok
    rw [hp] at this
    have h2 : LancOk maxn st' ∧ 1 ≤ st'.n := by cases this with
      | full h _ h3 => exact ⟨h, by omega⟩
      | stop h _ _ h3 => exact ⟨h, h3⟩
    apply ih
    · split_ifs
      · exact ⟨h2.1.alen, h2.1.blen, h2.1.lt⟩
      · exact h2.1
    · intro h; split_ifs at h <;> (try simp only at h) <;> omega

end Edpyt
