import Verif.Props.LineSearch
import Mathlib.LinearAlgebra.Matrix.DotProduct
import Mathlib.LinearAlgebra.Matrix.Symmetric
import Mathlib.LinearAlgebra.Matrix.Notation
import Mathlib.LinearAlgebra.Dimension.Constructions
import Mathlib.LinearAlgebra.FiniteDimensional.Basic
import Mathlib.Tactic.LinearCombination
/-!
C189: the search directions of the compiled minimiser are conjugate.
-/
namespace Edpyt
open Spec Matrix

variable {K : Type} [Field K] [LinearOrder K] [IsStrictOrderedRing K] {n : ℕ}

/-- The start of `frprmn` at `p`. -/
def frStart (func : (Fin n → K) → K) (dfunc : (Fin n → K) → Fin n → K) (p : Fin n → K) : FrSt K n :=
  ⟨p, fun j => -dfunc p j, fun j => -dfunc p j, fun j => -dfunc p j, func p⟩

/-- A pass of the loop of `frprmn` from `s` to `s'` whose line search ends at a point where the slope along the line vanishes. -/
def ExactPass (junk : K) (func : (Fin n → K) → K) (dfunc : (Fin n → K) → Fin n → K) (s s' : FrSt K n) : Prop :=
  ∃ p xi fret, Dlinmin junk func dfunc s.p s.xi (.ok (p, xi, fret)) ∧ frNext dfunc s p fret = some s' ∧ ∑ j, dfunc p j * s.xi j = 0

/-- Along its new direction, after such a pass, the function falls: the slope is minus the square of the gradient. -/
theorem C189_descent {junk : K} {func : (Fin n → K) → K} {dfunc : (Fin n → K) → Fin n → K} {s s' : FrSt K n} (hx : s.xi = s.h)
    (h : ExactPass junk func dfunc s s') : s'.xi = s'.h ∧ ∑ j, dfunc s'.p j * s'.xi j = -∑ j, dfunc s'.p j ^ 2 := by
  obtain ⟨p, xi, fret, -, h2, h3⟩ := h
  unfold frNext at h2
  simp only at h2
  split_ifs at h2
  cases h2
  refine ⟨rfl, ?_⟩
  simp only [mul_add, Finset.sum_add_distrib]
  have : ∀ c : K, ∑ j, dfunc p j * (c * s.h j) = c * ∑ j, dfunc p j * s.h j := fun c => by
    rw [Finset.mul_sum]; exact Finset.sum_congr rfl fun j _ => by ring
  rw [this, ← hx, h3, mul_zero, add_zero, ← Finset.sum_neg_distrib]
  exact Finset.sum_congr rfl fun j _ => by ring

theorem exactPass_parts {junk : K} {func : (Fin n → K) → K} {dfunc : (Fin n → K) → Fin n → K} {s s' : FrSt K n} (hx : s.xi = s.h)
    (h : ExactPass junk func dfunc s s') :
    ∃ t : K, s'.p = s.p + t • s.h ∧ s'.g = -dfunc s'.p ∧ s'.xi = s'.h ∧ s.g ⬝ᵥ s.g ≠ 0 ∧ s'.g ⬝ᵥ s.h = 0 ∧
      s'.h = s'.g + ((s'.g ⬝ᵥ s'.g - s.g ⬝ᵥ s'.g) / (s.g ⬝ᵥ s.g)) • s.h := by
  obtain ⟨p, xi, fret, ⟨b, -, h1⟩, h2, h3⟩ := h
  unfold frNext at h2
  simp only at h2
  split_ifs at h2 with hg
  cases h2
  cases hd : dbrent junk b.ax b.bx b.cx (f1dim func s.p s.xi) (df1dim dfunc s.p s.xi) (2 / 10 ^ 4) with
  | error e => rw [hd] at h1; simp [Except.map] at h1
  | ok m =>
    rw [hd] at h1
    simp only [Except.map, Except.ok.injEq, Prod.mk.injEq] at h1
    refine ⟨m.1, ?_, rfl, rfl, hg, ?_, ?_⟩
    · rw [h1.1, ← hx]; funext j; simp [mul_comm]
    · rw [← hx, dotProduct]
      simp only [neg_mul, Finset.sum_neg_distrib, h3, neg_zero]
    · funext j
      simp only [Pi.add_apply, Pi.smul_apply, smul_eq_mul, dotProduct]
      congr 2
      congr 1
      rw [← Finset.sum_sub_distrib]
      exact Finset.sum_congr rfl fun k _ => by ring

/-- What a run of exact passes knows of the vectors so far. -/
structure ConjInv (A : Matrix (Fin n) (Fin n) K) (s : ℕ → FrSt K n) (k : ℕ) : Prop where
  gg : ∀ i < k, (s k).g ⬝ᵥ (s i).g = 0
  gh : ∀ i < k, (s k).g ⬝ᵥ (s i).h = 0
  hAh : ∀ i < k, (s k).h ⬝ᵥ A *ᵥ (s i).h = 0
  diag : (s k).g ⬝ᵥ (s k).h = (s k).g ⬝ᵥ (s k).g

/-- `m` passes of `frprmn` with exact line searches, starting at `p`. -/
structure ExactRun (junk : K) (func : (Fin n → K) → K) (dfunc : (Fin n → K) → Fin n → K) (p : Fin n → K) (m : ℕ) (s : ℕ → FrSt K n) : Prop where
  start : s 0 = frStart func dfunc p
  pass : ∀ k < m, ExactPass junk func dfunc (s k) (s (k + 1))

section
variable {A : Matrix (Fin n) (Fin n) K} {b : Fin n → K} {junk : K} {func : (Fin n → K) → K} {p : Fin n → K} {m : ℕ} {s : ℕ → FrSt K n}

theorem ExactRun.xi (hr : ExactRun junk func (fun p => A *ᵥ p - b) p m s) : ∀ k ≤ m, (s k).xi = (s k).h := by
  intro k
  induction k with
  | zero => intro _; rw [hr.start]; rfl
  | succ k ih =>
    intro hk
    obtain ⟨t, -, -, e, -⟩ := exactPass_parts (ih (by omega)) (hr.pass k (by omega))
    exact e

theorem ExactRun.grad (hr : ExactRun junk func (fun p => A *ᵥ p - b) p m s) : ∀ k ≤ m, (s k).g = b - A *ᵥ (s k).p := by
  intro k hk
  cases k with
  | zero => rw [hr.start]; funext j; simp [frStart]
  | succ k =>
    obtain ⟨t, -, e, -⟩ := exactPass_parts (hr.xi k (by omega)) (hr.pass k (by omega))
    rw [e]; simp

theorem ExactRun.step (hr : ExactRun junk func (fun p => A *ᵥ p - b) p m s) {k : ℕ} (hk : k < m) :
    ∃ t : K, (s (k + 1)).g = (s k).g - t • (A *ᵥ (s k).h) ∧ (s k).g ⬝ᵥ (s k).g ≠ 0 ∧ (s (k + 1)).g ⬝ᵥ (s k).h = 0 ∧
      (s (k + 1)).h = (s (k + 1)).g + (((s (k + 1)).g ⬝ᵥ (s (k + 1)).g - (s k).g ⬝ᵥ (s (k + 1)).g) / ((s k).g ⬝ᵥ (s k).g)) • (s k).h := by
  obtain ⟨t, e1, -, -, e3, e4, e5⟩ := exactPass_parts (hr.xi k hk.le) (hr.pass k hk)
  refine ⟨t, ?_, e3, e4, e5⟩
  rw [hr.grad (k + 1) hk, hr.grad k hk.le, e1, mulVec_add, mulVec_smul]
  abel

/-- The gradients are combinations of the directions. -/
theorem ExactRun.g_dot (hr : ExactRun junk func (fun p => A *ᵥ p - b) p m s) {x : Fin n → K} : ∀ i ≤ m, (∀ j ≤ i, x ⬝ᵥ (s j).h = 0) → x ⬝ᵥ (s i).g = 0 := by
  intro i hi hx
  cases i with
  | zero =>
    have : (s 0).g = (s 0).h := by rw [hr.start]; rfl
    rw [this]; exact hx 0 le_rfl
  | succ i =>
    obtain ⟨t, -, -, -, e⟩ := hr.step (k := i) (by omega)
    have h1 := hx (i + 1) le_rfl
    rw [e, dotProduct_add, dotProduct_smul, hx i (by omega), smul_zero, add_zero] at h1
    exact h1

theorem ExactRun.inv (hA : A.IsSymm) (hr : ExactRun junk func (fun p => A *ᵥ p - b) p m s) : ∀ k ≤ m, ∀ i ≤ k, ConjInv A s i := by
  have symm : ∀ x y : Fin n → K, x ⬝ᵥ A *ᵥ y = y ⬝ᵥ A *ᵥ x := fun x y => by
    rw [dotProduct_mulVec, ← mulVec_transpose, hA.eq, dotProduct_comm]
  intro k
  induction k with
  | zero =>
    intro _ i hi
    obtain rfl : i = 0 := by omega
    refine ⟨by simp, by simp, by simp, ?_⟩
    rw [hr.start]; rfl
  | succ k ih =>
    intro hk i hi
    rcases Nat.lt_or_ge i (k + 1) with h | h
    · exact ih (by omega) i (by omega)
    obtain rfl : i = k + 1 := by omega
    have I := ih (by omega) k le_rfl
    obtain ⟨t, e1, e2, e3, e4⟩ := hr.step (k := k) (by omega)
    -- the step length
    have ht : (s k).g ⬝ᵥ (s k).g = t * ((s k).h ⬝ᵥ A *ᵥ (s k).h) := by
      rw [e1, sub_dotProduct, I.diag, smul_dotProduct, smul_eq_mul, dotProduct_comm (A *ᵥ (s k).h), sub_eq_zero] at e3
      exact e3
    have gh : ∀ i < k + 1, (s (k + 1)).g ⬝ᵥ (s i).h = 0 := by
      intro i hi
      rcases Nat.lt_succ_iff_lt_or_eq.mp hi with hi | rfl
      · rw [e1, sub_dotProduct, smul_dotProduct, I.gh i hi, dotProduct_comm (A *ᵥ (s k).h), symm, I.hAh i hi, smul_zero, sub_zero]
      · exact e3
    have gg : ∀ i < k + 1, (s (k + 1)).g ⬝ᵥ (s i).g = 0 := fun i hi => hr.g_dot i (by omega) fun j hj => gh j (by omega)
    have hγ : (s k).g ⬝ᵥ (s (k + 1)).g = 0 := by rw [dotProduct_comm]; exact gg k (by omega)
    rw [hγ, sub_zero] at e4
    refine ⟨gg, gh, fun i hi => ?_, ?_⟩
    · -- conjugacy
      obtain ⟨ti, f1, f2, f3, -⟩ := hr.step (k := i) (by omega)
      have J := ih (by omega) i (by omega)
      have hti : (s i).g ⬝ᵥ (s i).g = ti * ((s i).h ⬝ᵥ A *ᵥ (s i).h) := by
        rw [f1, sub_dotProduct, J.diag, smul_dotProduct, smul_eq_mul, dotProduct_comm (A *ᵥ (s i).h), sub_eq_zero] at f3
        exact f3
      have hti0 : ti ≠ 0 := by rintro rfl; rw [zero_mul] at hti; exact f2 hti
      have key : ti * ((s (k + 1)).g ⬝ᵥ A *ᵥ (s i).h) = (s (k + 1)).g ⬝ᵥ (s i).g - (s (k + 1)).g ⬝ᵥ (s (i + 1)).g := by
        rw [f1, dotProduct_sub, dotProduct_smul, smul_eq_mul]; ring
      rw [gg i hi, zero_sub] at key
      rw [e4, add_dotProduct, smul_dotProduct, smul_eq_mul]
      rcases Nat.lt_succ_iff_lt_or_eq.mp hi with hi' | rfl
      · rw [I.hAh i hi', mul_zero, add_zero]
        rw [gg (i + 1) (by omega), neg_zero] at key
        exact (mul_eq_zero.mp key).resolve_left hti0
      · have hx : (s i).h ⬝ᵥ A *ᵥ (s i).h = (s i).g ⬝ᵥ (s i).g / ti := by rw [hti]; field_simp
        have hy : (s (i + 1)).g ⬝ᵥ A *ᵥ (s i).h = -((s (i + 1)).g ⬝ᵥ (s (i + 1)).g) / ti := by rw [← key]; field_simp
        rw [hx, hy]
        field_simp
        ring
    · rw [e4, dotProduct_add, dotProduct_smul, gh k (by omega), smul_zero, add_zero]

/-- **C189.** On a quadratic function with symmetric matrix `A`, passes with exact line searches give gradients that are orthogonal to each other and
to all earlier directions, and directions conjugate with respect to `A`. -/
theorem C189_conjugate (hA : A.IsSymm) (hr : ExactRun junk func (fun p => A *ᵥ p - b) p m s) {i k : ℕ} (hi : i < k) (hk : k ≤ m) :
    (A *ᵥ (s k).p - b) ⬝ᵥ (A *ᵥ (s i).p - b) = 0 ∧ (A *ᵥ (s k).p - b) ⬝ᵥ (s i).xi = 0 ∧ (s k).xi ⬝ᵥ A *ᵥ (s i).xi = 0 := by
  have I := hr.inv hA k hk k le_rfl
  have e : ∀ j ≤ m, A *ᵥ (s j).p - b = -(s j).g := fun j hj => by rw [hr.grad j hj]; abel
  rw [e k hk, e i (by omega), hr.xi i (by omega), hr.xi k hk, neg_dotProduct_neg, neg_dotProduct]
  exact ⟨I.gg i hi, by rw [I.gh i hi, neg_zero], I.hAh i hi⟩

theorem card_of_orthogonal {v : Fin m → Fin n → K} (h0 : ∀ i, v i ⬝ᵥ v i ≠ 0) (ho : ∀ i j, i ≠ j → v i ⬝ᵥ v j = 0) : m ≤ n := by
  have hl : LinearIndependent K v := by
    rw [Fintype.linearIndependent_iff]
    intro c hc i
    have h1 : v i ⬝ᵥ ∑ j, c j • v j = c i * (v i ⬝ᵥ v i) := by
      rw [dotProduct_sum, Finset.sum_eq_single i]
      · rw [dotProduct_smul, smul_eq_mul]
      · intro j _ hj; rw [dotProduct_smul, ho i j hj.symm, smul_zero]
      · simp
    rw [hc, dotProduct_zero] at h1
    exact (mul_eq_zero.mp h1.symm).resolve_right (h0 i)
  have := hl.fintype_card_le_finrank
  simpa using this

/-- **C189.** There are at most `n` such passes, and after `n` of them the gradient is zero. -/
theorem C189_finite (hA : A.IsSymm) (hr : ExactRun junk func (fun p => A *ᵥ p - b) p m s) : m ≤ n ∧ (m = n → A *ᵥ (s n).p = b) := by
  have hne : ∀ k < m, (s k).g ⬝ᵥ (s k).g ≠ 0 := fun k hk => (hr.step hk).choose_spec.2.1
  have ho : ∀ i j, i ≤ m → j ≤ m → i ≠ j → (s i).g ⬝ᵥ (s j).g = 0 := by
    intro i j hi hj hij
    rcases Nat.lt_or_gt_of_ne hij with h | h
    · rw [dotProduct_comm]; exact (hr.inv hA j hj j le_rfl).gg i h
    · exact (hr.inv hA i hi i le_rfl).gg j h
  refine ⟨card_of_orthogonal (v := fun k : Fin m => (s k).g) (fun i => hne i i.2) fun i j hij => ho i j i.2.le j.2.le fun h => hij (Fin.ext h), ?_⟩
  rintro rfl
  have hg : (s m).g ⬝ᵥ (s m).g = 0 := by
    by_contra hc
    have := card_of_orthogonal (v := fun k : Fin (m + 1) => (s k).g) (fun i => by
      rcases Nat.lt_succ_iff_lt_or_eq.mp i.2 with h | h
      · exact hne i h
      · rw [h]; exact hc) fun i j hij => ho i j (by omega) (by omega) fun h => hij (Fin.ext h)
    omega
  rw [dotProduct_self_eq_zero, hr.grad m le_rfl, sub_eq_zero] at hg
  exact hg.symm

/-- **C189.** If moreover the quadratic function is convex, the point after `n` passes is its minimum. -/
theorem C189_minimum (hA : A.IsSymm) (hpos : ∀ x : Fin n → K, 0 ≤ x ⬝ᵥ A *ᵥ x) {c : K} (hf : ∀ x, func x = 1 / 2 * (x ⬝ᵥ A *ᵥ x) - b ⬝ᵥ x + c)
    (hr : ExactRun junk func (fun p => A *ᵥ p - b) p n s) (q : Fin n → K) : func (s n).p ≤ func q := by
  have hg := (C189_finite hA hr).2 rfl
  have h1 := hpos (q - (s n).p)
  rw [mulVec_sub, sub_dotProduct, dotProduct_sub, dotProduct_sub] at h1
  have h2 : (s n).p ⬝ᵥ A *ᵥ q = q ⬝ᵥ A *ᵥ (s n).p := by rw [dotProduct_mulVec, ← mulVec_transpose, hA.eq, dotProduct_comm]
  rw [hf, hf]
  rw [h2, hg] at h1
  rw [hg, dotProduct_comm b, dotProduct_comm b]
  linarith

end

/-! ## Example -/

/-- A convex function of two variables. -/
def cgFunc (p : Fin 2 → ℚ) : ℚ := 1 / 2 * (p 0 ^ 2 + 2 * p 0 * p 1 + 2 * p 1 ^ 2) - p 0

def cgMat : Matrix (Fin 2) (Fin 2) ℚ := !![1, 1; 1, 2]

/-- A line search along which the minimum is at distance one finds it. -/
theorem cgLine (junk c : ℚ) {p xi : Fin 2 → ℚ} (hc : c = 0 ∨ c = -1 / 2) (hf : f1dim cgFunc p xi = fun t => c - t + t ^ 2 / 2)
    (hd : df1dim (fun p => cgMat *ᵥ p - ![1, 0]) p xi = fun t => t - 1) :
    Dlinmin junk cgFunc (fun p => cgMat *ᵥ p - ![1, 0]) p xi (.ok (p + xi, xi, c - 1 / 2)) := by
  refine ⟨mnInit (fun t : ℚ => c - t + t ^ 2 / 2) 0 1, ?_, ?_⟩
  · rw [hf]
    rcases hc with rfl | rfl <;> exact MnLoop.stop (by norm_num [mnInit, gold])
  · rw [hf, hd, C67_dbrent_junk junk 0 _ _ _ _ _ _ (by norm_num)]
    have : dbrent 0 (mnInit (fun t : ℚ => c - t + t ^ 2 / 2) 0 1).ax (mnInit (fun t : ℚ => c - t + t ^ 2 / 2) 0 1).bx (mnInit (fun t : ℚ => c - t + t ^ 2 / 2) 0 1).cx
        (fun t : ℚ => c - t + t ^ 2 / 2) (fun t => t - 1) (2 / 10 ^ 4) = .ok (1, c - 1 / 2) := by
      rcases hc with rfl | rfl <;> decide +kernel
    rw [this]
    simp only [Except.map, mul_one]
    rfl

/-- Two exact passes from the origin: the minimum is `(2, -1)`. -/
example (junk : ℚ) : ∃ s : ℕ → FrSt ℚ 2, ExactRun junk cgFunc (fun p => cgMat *ᵥ p - ![1, 0]) ![0, 0] 2 s ∧ (s 2).p = ![2, -1] := by
  refine ⟨fun k => if k = 0 then ⟨![0, 0], ![1, 0], ![1, 0], ![1, 0], 0⟩ else if k = 1 then ⟨![1, 0], ![1, -1], ![0, -1], ![1, -1], -1 / 2⟩
    else ⟨![2, -1], ![0, 0], ![0, 0], ![0, 0], -1⟩, ⟨?_, fun k hk => ?_⟩, by simp⟩
  · have h1 : (fun j => -((cgMat *ᵥ ![0, 0] - ![1, 0] : Fin 2 → ℚ) j)) = ![1, 0] := by funext j; fin_cases j <;> simp [cgMat]
    have h2 : cgFunc ![0, 0] = 0 := by simp [cgFunc]
    simp only [if_true, frStart, h1, h2]
  · obtain rfl | rfl : k = 0 ∨ k = 1 := by omega
    · refine ⟨_, _, _, cgLine junk 0 (.inl rfl) ?_ ?_, ?_, ?_⟩
      · funext t; simp [f1dim, cgFunc]; ring
      · funext t; simp [df1dim, cgMat, Fin.sum_univ_two, mulVec, dotProduct]
      · have e : (![0, 0] + ![1, 0] : Fin 2 → ℚ) = ![1, 0] := by funext j; fin_cases j <;> simp
        have e2 : cgMat *ᵥ ![1, 0] - ![1, 0] = ![0, 1] := by funext j; fin_cases j <;> simp [cgMat]
        simp only [if_true, frNext, e, e2]
        norm_num [Fin.sum_univ_two]
        refine ⟨?_, ?_, ?_⟩ <;> funext j <;> fin_cases j <;> simp
      · simp [cgMat, Fin.sum_univ_two]
    · refine ⟨_, _, _, cgLine junk (-1 / 2) (.inr rfl) ?_ ?_, ?_, ?_⟩
      · funext t; simp [f1dim, cgFunc]; ring
      · funext t; simp [df1dim, cgMat, Fin.sum_univ_two, mulVec, dotProduct]; ring
      · have e : (![1, 0] + ![1, -1] : Fin 2 → ℚ) = ![2, -1] := by funext j; fin_cases j <;> norm_num
        have e2 : cgMat *ᵥ ![2, -1] - ![1, 0] = ![0, 0] := by funext j; fin_cases j <;> norm_num [cgMat]
        simp only [if_true, frNext, e, e2]
        norm_num [Fin.sum_univ_two]
        refine ⟨?_, ?_, ?_⟩ <;> funext j <;> fin_cases j <;> norm_num [cgMat]
      · norm_num [cgMat, Fin.sum_univ_two]

end Edpyt
