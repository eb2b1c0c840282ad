import Verif.Model.Py
import Mathlib.Data.List.Basic
import Mathlib.Tactic.Ring
import Mathlib.Algebra.BigOperators.Group.Finset.Basic
import Mathlib.Algebra.BigOperators.Intervals
/-!
Lemmas about sequence access and loops.
-/
namespace Edpyt

theorem setItem_natCast {α : Type*} (l : List α) (k : ℕ) (v : α) (h : k < l.length) :
    setItem l k v = .ok (l.set k v) := by
  unfold setItem pyIndex
  rw [if_pos (by omega), if_pos (by exact_mod_cast h)]; simp

theorem setItem_natCast_oob {α : Type*} (l : List α) (k : ℕ) (v : α) (h : l.length ≤ k) :
    setItem l k v = .error .indexError := by
  unfold setItem pyIndex
  rw [if_pos (by omega), if_neg (by push_cast; omega)]

theorem getItem_natCast {α : Type*} (l : List α) (k : ℕ) (h : k < l.length) :
    getItem l k = .ok l[k] := by
  unfold getItem pyIndex
  rw [if_pos (by omega), if_pos (by exact_mod_cast h)]; simp [h]

theorem getItem_natCast_oob {α : Type*} (l : List α) (k : ℕ) (h : l.length ≤ k) :
    getItem l k = .error .indexError := by
  unfold getItem pyIndex
  rw [if_pos (by omega), if_neg (by push_cast; omega)]

theorem forM'_append {α σ : Type*} (body : σ → α → Except PyErr σ) (xs ys : List α) (st : σ) :
    forM' body (xs ++ ys) st = match forM' body xs st with
      | .ok st' => forM' body ys st'
      | .error e => .error e := by
  induction xs generalizing st with
  | nil => rfl
  | cons x xs ih =>
    simp only [List.cons_append, forM']
    cases body st x with
    | ok st' => exact ih st'
    | error e => rfl

/-- A loop whose bodies do not raise is a fold. -/
theorem forM'_ok {α σ : Type*} (body : σ → α → Except PyErr σ) (f : σ → α → σ) (xs : List α) (st : σ)
    (h : ∀ st, ∀ x ∈ xs, body st x = .ok (f st x)) : forM' body xs st = .ok (xs.foldl f st) := by
  induction xs generalizing st with
  | nil => rfl
  | cons x xs ih =>
    simp only [forM', h st x (by simp), List.foldl_cons]
    exact ih _ fun st y hy => h st y (by simp [hy])

/-- Filling an array position by position. -/
theorem forM'_fill {α β : Type*} (body : List β → α → Except PyErr (List β)) (f : α → β) (junk : β) (xs : List α)
    (pre : List β)
    (h : ∀ k (hk : k < xs.length), ∀ l : List β, l.length = pre.length + xs.length →
      body l xs[k] = setItem l ((pre.length + k : ℕ) : ℤ) (f xs[k])) :
    forM' body xs (pre ++ List.replicate xs.length junk) = .ok (pre ++ xs.map f) := by
  induction xs generalizing pre with
  | nil => simp [forM']
  | cons x xs ih =>
    simp only [forM']
    have h0 := h 0 (by simp) (pre ++ List.replicate (x :: xs).length junk) (by simp)
    simp only [List.getElem_cons_zero, Nat.add_zero] at h0
    rw [h0, setItem_natCast _ _ _ (by simp)]
    have e : (pre ++ List.replicate (x :: xs).length junk).set pre.length (f x)
        = (pre ++ [f x]) ++ List.replicate xs.length junk := by
      rw [List.set_append_right _ _ (le_refl _)]
      simp [List.replicate_succ]
    rw [e]
    have := ih (pre ++ [f x]) (by
      intro k hk l hl
      have := h (k + 1) (by simp; omega) l (by simp at hl ⊢; omega)
      simp only [List.getElem_cons_succ] at this
      rw [this]
      simp; congr 1; ring)
    simpa using this

theorem length_ndindex2 (a b : ℕ) : (ndindex2 a b).length = a * b := by
  simp [ndindex2, List.length_flatMap]

theorem getElem_ndindex2 (a b k : ℕ) (h : k < (ndindex2 a b).length) :
    (ndindex2 a b)[k] = (k / b, k % b) := by
  induction a generalizing k with
  | zero => simp [ndindex2] at h
  | succ a ih =>
    have e : ndindex2 (a + 1) b = ndindex2 a b ++ (List.range b).map fun j => (a, j) := by
      simp [ndindex2, List.range_succ]
    have hlen := length_ndindex2 a b
    rw [length_ndindex2] at h
    simp only [e]
    by_cases hk : k < a * b
    · rw [List.getElem_append_left (by rw [hlen]; exact hk)]
      exact ih k _
    · rw [List.getElem_append_right (by rw [hlen]; omega)]
      simp only [List.getElem_map, List.getElem_range, hlen]
      have hb : k - a * b < b := by rw [add_mul] at h; omega
      have e2 : k = (k - a * b) + b * a := by rw [mul_comm b]; omega
      have hb0 : 0 < b := by omega
      refine Prod.ext ?_ ?_
      · simp only
        conv_rhs => rw [e2, Nat.add_mul_div_left _ _ hb0, Nat.div_eq_of_lt hb]
        simp
      · simp only
        conv_rhs => rw [e2, Nat.add_mul_mod_self_left, Nat.mod_eq_of_lt hb]

theorem ndindex2_succ (a b : ℕ) :
    ndindex2 (a + 1) b = ndindex2 a b ++ (List.range b).map fun j => (a, j) := by
  simp [ndindex2, List.range_succ]

theorem sum_ndindex2 {R : Type*} [AddCommMonoid R] (a b : ℕ) (f : ℕ × ℕ → R) :
    ((ndindex2 a b).map f).sum = ∑ i ∈ Finset.range a, ∑ j ∈ Finset.range b, f (i, j) := by
  induction a with
  | zero => simp [ndindex2]
  | succ a ih =>
    rw [ndindex2_succ, List.map_append, List.sum_append, ih, Finset.sum_range_succ, List.map_map]
    rfl

/-- Invariant rule for `for k in range(s, s + m)`. -/
theorem forM'_range'_inv {σ : Type*} (body : σ → ℕ → Except PyErr σ) (P : ℕ → σ → Prop) :
    ∀ (m s : ℕ) (st : σ), P s st → (∀ k st, s ≤ k → k < s + m → P k st → ∃ st', body st k = .ok st' ∧ P (k + 1) st') →
      ∃ st', forM' body (List.range' s m) st = .ok st' ∧ P (s + m) st' := by
  intro m
  induction m with
  | zero => intro s st h _; exact ⟨st, rfl, h⟩
  | succ m ih =>
    intro s st h hstep
    obtain ⟨st1, h1, h2⟩ := hstep s st le_rfl (by omega) h
    obtain ⟨st2, h3, h4⟩ := ih (s + 1) st1 h2 fun k st hk1 hk2 => hstep k st (by omega) (by omega)
    refine ⟨st2, ?_, by rw [show s + (m + 1) = s + 1 + m by omega]; exact h4⟩
    rw [List.range'_succ, forM', h1]
    exact h3

/-- Invariant rule for `for k in range(n)`. -/
theorem forM'_range_inv {σ : Type*} (body : σ → ℕ → Except PyErr σ) (P : ℕ → σ → Prop) (n : ℕ) (st : σ) (h0 : P 0 st)
    (hstep : ∀ k st, k < n → P k st → ∃ st', body st k = .ok st' ∧ P (k + 1) st') :
    ∃ st', forM' body (List.range n) st = .ok st' ∧ P n st' := by
  rw [List.range_eq_range']
  obtain ⟨st', h1, h2⟩ := forM'_range'_inv body P n 0 st h0 fun k st _ hk => hstep k st (by omega)
  exact ⟨st', h1, by simpa using h2⟩

end Edpyt
