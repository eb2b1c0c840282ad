import Verif.Model.BandLanczos
import Verif.Proof.Py
import Mathlib.LinearAlgebra.Matrix.Symmetric
import Mathlib.Tactic.Ring
import Mathlib.Tactic.Linarith
/-!
Helper lemmas for `build_bd_tridiag`.
-/
namespace Edpyt
open Matrix

variable {ι : Type} [Fintype ι]

/-- What remains of `x` after projecting out `V 0 … V (n-1)`. -/
def bdRes (V : ℕ → ι → ℝ) (n : ℕ) (x : ι → ℝ) : ι → ℝ := x - ∑ i ∈ Finset.range n, (V i ⬝ᵥ x) • V i

/-- The vectors that are projected: first `phi0`, then `H V 0, H V 1, …`. -/
def bdSrc (H : Matrix ι ι ℝ) (phi0 : List (ι → ℝ)) (V : ℕ → ι → ℝ) (q : ℕ) : ι → ℝ :=
  if q < phi0.length then phi0[q]?.getD 0 else H *ᵥ V (q - phi0.length)

def bdON (V : ℕ → ι → ℝ) (n : ℕ) : Prop := ∀ i < n, ∀ j < n, V i ⬝ᵥ V j = if i = j then 1 else 0

theorem bdRes_succ (V : ℕ → ι → ℝ) (n : ℕ) (x : ι → ℝ) : bdRes V (n + 1) x = bdRes V n x - (V n ⬝ᵥ x) • V n := by
  unfold bdRes; rw [Finset.sum_range_succ]; abel

theorem bdRes_congr {V W : ℕ → ι → ℝ} {n : ℕ} (h : ∀ i < n, V i = W i) (x : ι → ℝ) : bdRes V n x = bdRes W n x := by
  unfold bdRes
  congr 1
  exact Finset.sum_congr rfl fun i hi => by rw [h i (Finset.mem_range.mp hi)]

theorem bdRes_dot {V : ℕ → ι → ℝ} {n : ℕ} (h : bdON V n) {i : ℕ} (hi : i < n) (x : ι → ℝ) : V i ⬝ᵥ bdRes V n x = 0 := by
  unfold bdRes
  rw [dotProduct_sub, dotProduct_sum, Finset.sum_eq_single i]
  · rw [dotProduct_smul, h i hi i hi, if_pos rfl]; simp
  · intro j hj hne
    rw [dotProduct_smul, h i hi j (Finset.mem_range.mp hj), if_neg (Ne.symm hne)]; simp
  · intro hn; exact absurd (Finset.mem_range.mpr hi) hn

theorem dot_bdRes {V : ℕ → ι → ℝ} {n : ℕ} {u : ι → ℝ} (h : ∀ i < n, u ⬝ᵥ V i = 0) (x : ι → ℝ) : u ⬝ᵥ bdRes V n x = u ⬝ᵥ x := by
  unfold bdRes
  rw [dotProduct_sub, dotProduct_sum, Finset.sum_eq_zero]
  · simp
  · intro j hj
    rw [dotProduct_smul, h j (Finset.mem_range.mp hj)]; simp

theorem bdON_succ {V : ℕ → ι → ℝ} {n : ℕ} (h : bdON V n) (h1 : V n ⬝ᵥ V n = 1) (h2 : ∀ i < n, V n ⬝ᵥ V i = 0) : bdON V (n + 1) := by
  intro i hi j hj
  rcases Nat.lt_succ_iff_lt_or_eq.mp hi with hi | rfl <;> rcases Nat.lt_succ_iff_lt_or_eq.mp hj with hj | rfl
  · exact h i hi j hj
  · rw [dotProduct_comm, h2 i hi, if_neg (by omega)]
  · rw [h2 j hj, if_neg (by omega)]
  · rw [h1, if_pos rfl]

/-- Projecting out one more direction does not increase the norm. -/
theorem bdRes_norm {V : ℕ → ι → ℝ} {n : ℕ} (h1 : V n ⬝ᵥ V n = 1) (h2 : ∀ i < n, V n ⬝ᵥ V i = 0) (x : ι → ℝ) :
    bdRes V (n + 1) x ⬝ᵥ bdRes V (n + 1) x ≤ bdRes V n x ⬝ᵥ bdRes V n x := by
  rw [bdRes_succ, sub_dotProduct, dotProduct_sub, dotProduct_sub, smul_dotProduct, smul_dotProduct, dotProduct_smul, dotProduct_smul, h1, dotProduct_comm (bdRes V n x) (V n), dot_bdRes h2]
  simp only [smul_eq_mul]
  nlinarith [sq_nonneg (V n ⬝ᵥ x)]

theorem bd_symm {H : Matrix ι ι ℝ} (hH : H.IsSymm) (x y : ι → ℝ) : x ⬝ᵥ H *ᵥ y = y ⬝ᵥ H *ᵥ x := by
  rw [dotProduct_mulVec, ← mulVec_transpose, hH.eq, dotProduct_comm]

/-! ### The array -/

theorem bdSet_nat {maxn : ℕ} (T : BdMat) {i j : ℕ} (hi : i < maxn) (hj : j < maxn) (x : ℝ) :
    bdSet maxn T i j x = .ok fun i' j' => if i' = i ∧ j' = j then x else T i' j' := by
  unfold bdSet
  rw [show pyIndex maxn (i : ℤ) = .ok i by unfold pyIndex; rw [if_pos (by omega), if_pos (by omega)]; simp,
    show pyIndex maxn (j : ℤ) = .ok j by unfold pyIndex; rw [if_pos (by omega), if_pos (by omega)]; simp]
  rfl

theorem bdGet_nat {maxn : ℕ} (T : BdMat) {i j : ℕ} (hi : i < maxn) (hj : j < maxn) : bdGet maxn T i j = .ok (T i j) := by
  unfold bdGet
  rw [show pyIndex maxn (i : ℤ) = .ok i by unfold pyIndex; rw [if_pos (by omega), if_pos (by omega)]; simp,
    show pyIndex maxn (j : ℤ) = .ok j by unfold pyIndex; rw [if_pos (by omega), if_pos (by omega)]; simp]
  rfl

/-- The column that `k - Lc` addresses. -/
def bdCol (maxn k Lc : ℕ) : ℕ := if Lc ≤ k then k - Lc else maxn + k - Lc

theorem bdCol_index {maxn k Lc : ℕ} (hL : Lc ≤ maxn) (hk : k < maxn + Lc) (hk' : k < Lc → k < maxn) : pyIndex maxn ((k : ℤ) - Lc) = .ok (bdCol maxn k Lc) := by
  unfold pyIndex bdCol
  by_cases h : Lc ≤ k
  · rw [if_pos (by omega), if_pos (by omega), if_pos h]; congr 1; omega
  · rw [if_neg (by omega), if_pos (by omega), if_neg h]; congr 1; omega

theorem bdSet_col {maxn : ℕ} (T : BdMat) {i k Lc : ℕ} (hi : i < maxn) (hL : Lc ≤ maxn) (hk : k < maxn + Lc) (hk' : k < Lc → k < maxn) (x : ℝ) :
    bdSet maxn T i ((k : ℤ) - Lc) x = .ok fun i' j' => if i' = i ∧ j' = bdCol maxn k Lc then x else T i' j' := by
  unfold bdSet
  rw [show pyIndex maxn (i : ℤ) = .ok i by unfold pyIndex; rw [if_pos (by omega), if_pos (by omega)]; simp, bdCol_index hL hk hk']
  rfl

theorem bdGet_col {maxn : ℕ} (T : BdMat) {i k Lc : ℕ} (hi : i < maxn) (hL : Lc ≤ maxn) (hk : k < maxn + Lc) (hk' : k < Lc → k < maxn) :
    bdGet maxn T i ((k : ℤ) - Lc) = .ok (T i (bdCol maxn k Lc)) := by
  unfold bdGet
  rw [show pyIndex maxn (i : ℤ) = .ok i by unfold pyIndex; rw [if_pos (by omega), if_pos (by omega)]; simp, bdCol_index hL hk hk']
  rfl

theorem getItem_nat {α : Type*} {l : List α} {k : ℕ} {x : α} (h : l[k]? = some x) : getItem l (k : ℤ) = .ok x := by
  have hk : k < l.length := by
    by_contra hc
    rw [List.getElem?_eq_none (by omega)] at h
    cases h
  unfold getItem pyIndex
  rw [if_pos (by omega), if_pos (by omega)]
  simp [h]

theorem setItem_nat {α : Type*} {l : List α} {k : ℕ} (hk : k < l.length) (x : α) : setItem l (k : ℤ) x = .ok (l.set k x) := by
  unfold setItem pyIndex
  rw [if_pos (by omega), if_pos (by omega)]
  simp

/-- The part of the array that the wrapped writes never touch: the lower triangle and the columns below `maxn - L`. -/
def bdClean (maxn L i j : ℕ) : Prop := j ≤ i ∨ j + L < maxn

/-- On the clean part, `T` is `M` where `S` holds and zero elsewhere. -/
def bdHolds (maxn L : ℕ) (M : ℕ → ℕ → ℝ) (T : BdMat) (S : ℕ → ℕ → Prop) : Prop :=
  ∀ i j, bdClean maxn L i j → (S i j → T i j = M i j) ∧ (¬ S i j → T i j = 0)

theorem bdHolds.set {maxn L : ℕ} {M : ℕ → ℕ → ℝ} {T : BdMat} {S S' : ℕ → ℕ → Prop} (h : bdHolds maxn L M T S) {i j : ℕ} {x : ℝ} (hx : bdClean maxn L i j → x = M i j)
    (hS : ∀ i' j', bdClean maxn L i' j' → (S' i' j' ↔ S i' j' ∨ (i' = i ∧ j' = j))) : bdHolds maxn L M (fun i' j' => if i' = i ∧ j' = j then x else T i' j') S' := by
  intro i' j' hc
  rw [hS i' j' hc]
  by_cases he : i' = i ∧ j' = j
  · obtain ⟨rfl, rfl⟩ := he
    simp [hx hc]
  · simp only [if_neg he]
    exact ⟨fun h' => (h i' j' hc).1 (h'.resolve_right he), fun h' => (h i' j' hc).2 fun hs => h' (Or.inl hs)⟩

theorem forM'_prefix_inv {α σ : Type*} (body : σ → α → Except PyErr σ) (P : List α → σ → Prop) (xs : List α) (pre : List α) (st : σ) (h0 : P pre st)
    (hstep : ∀ p x st, p ++ [x] <+: pre ++ xs → P p st → ∃ st', body st x = .ok st' ∧ P (p ++ [x]) st') : ∃ st', forM' body xs st = .ok st' ∧ P (pre ++ xs) st' := by
  induction xs generalizing pre st with
  | nil => exact ⟨st, rfl, by simpa using h0⟩
  | cons x xs ih =>
    obtain ⟨st1, h1, h2⟩ := hstep pre x st ⟨xs, by simp⟩ h0
    obtain ⟨st2, h3, h4⟩ := ih (pre ++ [x]) st1 h2 (by simpa using hstep)
    refine ⟨st2, ?_, by simpa using h4⟩
    rw [forM', h1]
    exact h3

/-! ### The invariant -/

/-- Loop invariant of `build_bd_tridiag`; `V` are all Lanczos vectors so far. -/
structure BdInv (c : BdCfg) (H : Matrix ι ι ℝ) (phi0 : List (ι → ℝ)) (st : BdSt ι) (V : ℕ → ι → ℝ) : Prop where
  on : bdON V st.n
  lc : st.Lc ≤ phi0.length
  pos : st.converged = false → 0 < st.Lc
  klen : st.converged = false → st.vk.length = st.Lc
  cand : st.converged = false → ∀ j < st.Lc, st.vk[j]? = some (bdRes V st.n (bdSrc H phi0 V (phi0.length + st.n - st.Lc + j)))
  llen : st.converged = false → st.vl.length = min st.n st.Lc
  prev : st.converged = false → ∀ j < min st.n st.Lc, st.vl[j]? = some (V (st.n - min st.n st.Lc + j))
  vd : st.vd = st.I.map V
  nd : st.I.Nodup
  old : ∀ k ∈ st.I, k + st.Lc < st.n
  small : ∀ q, q + st.Lc < phi0.length + st.n → bdRes V st.n (bdSrc H phi0 V q) ⬝ᵥ bdRes V st.n (bdSrc H phi0 V q) < c.delta ^ 2
  zero : ∀ k, k + st.Lc < st.n → k ∉ st.I → bdRes V st.n (H *ᵥ V k) = 0
  mat : bdHolds c.maxn phi0.length (fun i j => V i ⬝ᵥ H *ᵥ V j) st.T fun i j => i < st.n ∧ j < st.n
  conv : st.converged = true → st.Lc = 0 ∨ ∃ e p, c.close e p = true

theorem BdInv.init (c : BdCfg) (H : Matrix ι ι ℝ) {phi0 : List (ι → ℝ)} (h : phi0 ≠ []) : BdInv c H phi0 (bdInit phi0) (fun _ => 0) := by
  refine ⟨fun i hi => absurd hi (Nat.not_lt_zero _), le_rfl, fun _ => List.length_pos_iff.mpr h, fun _ => rfl, fun _ j hj => ?_, fun _ => ?_, fun _ j hj => ?_, rfl, List.nodup_nil,
    fun k hk => by simp [bdInit] at hk, fun q hq => ?_, fun k hk => ?_, fun i j _ => ⟨fun h => ?_, fun _ => rfl⟩, fun h => by simp [bdInit] at h⟩
  · simp only [bdInit] at hj ⊢
    unfold bdRes bdSrc
    rw [if_pos (by omega)]
    simp [List.getElem?_eq_getElem hj]
  · simp [bdInit]
  · simp [bdInit] at hj
  · simp only [bdInit] at hq; omega
  · simp only [bdInit] at hk; omega
  · simp [bdInit] at h

theorem bdSrc_congr {H : Matrix ι ι ℝ} {phi0 : List (ι → ℝ)} {V W : ℕ → ι → ℝ} {q n : ℕ} (h : ∀ i < n, V i = W i) (hq : q < phi0.length + n) : bdSrc H phi0 V q = bdSrc H phi0 W q := by
  unfold bdSrc
  split_ifs with hc
  · rfl
  · rw [h _ (by omega)]

theorem bdSrc_H (H : Matrix ι ι ℝ) (phi0 : List (ι → ℝ)) (V : ℕ → ι → ℝ) (k : ℕ) : bdSrc H phi0 V (phi0.length + k) = H *ᵥ V k := by
  unfold bdSrc
  rw [if_neg (by omega)]
  congr 2; omega

/-- A pass that deflates. -/
theorem BdInv.deflate {c : BdCfg} {H : Matrix ι ι ℝ} {phi0 : List (ι → ℝ)} {st : BdSt ι} {V : ℕ → ι → ℝ} (h : BdInv c H phi0 st V) (hc : st.converged = false) {v : ι → ℝ}
    (hv : st.vk[0]? = some v) (hb : |Real.sqrt (v ⬝ᵥ v)| < c.delta) :
    ∃ st', bdStep c (H *ᵥ ·) st = .ok st' ∧ BdInv c H phi0 st' V ∧ st'.n = st.n ∧ st'.Lc + 1 = st.Lc ∧ (st'.Lc = 0 → st'.converged = true) := by
  have hp := h.pos hc
  have hve : v = bdRes V st.n (bdSrc H phi0 V (phi0.length + st.n - st.Lc)) := by
    have := h.cand hc 0 hp
    rw [hv] at this
    simpa using this
  have hsm : v ⬝ᵥ v < c.delta ^ 2 := by
    rw [abs_of_nonneg (Real.sqrt_nonneg _)] at hb
    exact (Real.sqrt_lt' (lt_of_le_of_lt (Real.sqrt_nonneg _) hb)).mp hb
  -- the new lists of deflated vectors
  have hI : ∃ I vd, bdRecord st = .ok { st with I := I, vd := vd } ∧ vd = I.map V ∧ I.Nodup ∧ (∀ k ∈ I, k + st.Lc < st.n + 1) ∧
        ∀ k, k + st.Lc < st.n + 1 → k ∉ I → k + st.Lc < st.n ∧ k ∉ st.I := by
    by_cases hn : st.Lc ≤ st.n
    · have hu := h.prev hc 0 (by omega)
      rw [min_eq_right hn, Nat.add_zero] at hu
      refine ⟨st.I ++ [st.n - st.Lc], st.vd ++ [V (st.n - st.Lc)], ?_, by simp [h.vd], ?_, ?_, ?_⟩
      · unfold bdRecord
        rw [if_pos hn, show (0 : ℤ) = ((0 : ℕ) : ℤ) from rfl, getItem_nat hu]; rfl
      · refine List.nodup_append'.mpr ⟨h.nd, by simp, ?_⟩
        intro k hk hk'
        have := h.old k hk
        simp at hk'
        omega
      · intro k hk
        rcases List.mem_append.mp hk with hk | hk
        · have := h.old k hk; omega
        · simp at hk; omega
      · intro k hk hk'
        simp only [List.mem_append, List.mem_singleton, not_or] at hk'
        exact ⟨by omega, hk'.1⟩
    · refine ⟨st.I, st.vd, by unfold bdRecord; rw [if_neg hn]; rfl, h.vd, h.nd, fun k hk => by have := h.old k hk; omega, fun k hk hk' => ⟨by omega, hk'⟩⟩
  obtain ⟨I, vd, e1, hvd, hnd, hold, hzero⟩ := hI
  have hsmall : ∀ q, q + (st.Lc - 1) < phi0.length + st.n → bdRes V st.n (bdSrc H phi0 V q) ⬝ᵥ bdRes V st.n (bdSrc H phi0 V q) < c.delta ^ 2 := by
    intro q hq
    by_cases hq' : q + st.Lc < phi0.length + st.n
    · exact h.small q hq'
    · have : q = phi0.length + st.n - st.Lc := by have := h.lc; omega
      rw [this, ← hve]; exact hsm
  have hstep : bdStep c (H *ᵥ ·) st = if st.Lc - 1 = 0 then .ok { st with I := I, vd := vd, Lc := st.Lc - 1, converged := true }
      else .ok { st with I := I, vd := vd, Lc := st.Lc - 1, vk := st.vk.tail, vl := if st.Lc - 1 < st.vl.length then st.vl.tail else st.vl } := by
    unfold bdStep
    rw [show (0 : ℤ) = ((0 : ℕ) : ℤ) from rfl, getItem_nat hv]
    simp only [bind, Except.bind]
    rw [if_pos hb, e1]
    rfl
  by_cases h1 : st.Lc - 1 = 0
  · rw [if_pos h1] at hstep
    refine ⟨_, hstep, ⟨h.on, by have := h.lc; simp only; omega, by simp, by simp, by simp, by simp, by simp, hvd, hnd, fun k hk => ?_, hsmall, fun k hk hk' => ?_, h.mat, fun _ => .inl h1⟩, rfl, by simp only; omega, fun _ => rfl⟩
    · have := hold k hk; simp only; omega
    · simp only at hk
      obtain ⟨a, b⟩ := hzero k (by omega) hk'
      exact h.zero k a b
  · rw [if_neg h1] at hstep
    refine ⟨_, hstep, ⟨h.on, by have := h.lc; simp only; omega, fun _ => by simp only; omega, fun _ => ?_, fun _ j hj => ?_, fun _ => ?_, fun _ j hj => ?_, hvd, hnd, fun k hk => ?_, hsmall, fun k hk hk' => ?_, h.mat, fun h' => by simp [hc] at h'⟩,
      rfl, by simp only; omega, fun h0 => absurd h0 h1⟩
    · simp [h.klen hc]
    · simp only at hj ⊢
      rw [List.getElem?_tail, h.cand hc (j + 1) (by omega)]
      congr 3
      have := h.lc
      omega
    · have := h.llen hc
      simp only
      split_ifs with hl
      · rw [List.length_tail, this]; omega
      · omega
    · have hl := h.llen hc
      simp only at hj ⊢
      split_ifs with hs
      · rw [List.getElem?_tail, h.prev hc (j + 1) (by omega)]
        congr 2; omega
      · rw [h.prev hc j (by omega)]
        congr 2; omega
    · have := hold k hk; simp only; omega
    · simp only at hk
      obtain ⟨a, b⟩ := hzero k (by omega) hk'
      exact h.zero k a b

/-! ### A pass that adds a Lanczos vector -/

theorem bdHolds.setCol {maxn L n Lc k : ℕ} {M : ℕ → ℕ → ℝ} {T : BdMat} {S S' : ℕ → ℕ → Prop} (h : bdHolds maxn L M T S) (hL : Lc ≤ L) (hn : n + Lc < maxn) {x : ℝ}
    (hx : Lc ≤ k → x = M n (k - Lc)) (hS : ∀ i' j', S' i' j' ↔ S i' j' ∨ (i' = n ∧ j' + Lc = k)) :
    bdHolds maxn L M (fun i' j' => if i' = n ∧ j' = bdCol maxn k Lc then x else T i' j') S' := by
  by_cases hk : Lc ≤ k
  · have e : bdCol maxn k Lc = k - Lc := by unfold bdCol; rw [if_pos hk]
    rw [e]
    exact h.set (fun _ => hx hk) fun i' j' _ => by rw [hS]; constructor <;> rintro (h | ⟨h1, h2⟩) <;> [left; right; left; right] <;> first | exact h | exact ⟨h1, by omega⟩
  · intro i' j' hc
    have e : bdCol maxn k Lc = maxn + k - Lc := by unfold bdCol; rw [if_neg hk]
    have hne : ¬ (i' = n ∧ j' = bdCol maxn k Lc) := by
      rintro ⟨rfl, rfl⟩
      rw [e] at hc
      unfold bdClean at hc
      omega
    simp only [if_neg hne]
    rw [hS]
    refine ⟨fun h' => (h i' j' hc).1 (h'.resolve_right (by omega)), fun h' => (h i' j' hc).2 fun hs => h' (Or.inl hs)⟩

theorem bdNext_loop {maxn L n Lc : ℕ} {M : ℕ → ℕ → ℝ} {T : BdMat} {S : ℕ → ℕ → Prop} (hT : bdHolds maxn L M T S) (hL : Lc ≤ L) (hn : n + Lc < maxn) {v : ι → ℝ} {vk : List (ι → ℝ)}
    {x : ℕ → ι → ℝ} (hlen : vk.length = Lc - 1) (hx : ∀ j < Lc - 1, vk[j]? = some (x j)) (hM : ∀ k0 < Lc - 1, Lc ≤ n + 1 + k0 → v ⬝ᵥ x k0 = M n (n + 1 + k0 - Lc)) :
    ∃ T' vk', forM' (bdNext maxn n Lc v) (List.range (Lc - 1)) (T, vk) = .ok (T', vk') ∧ vk'.length = Lc - 1 ∧ (∀ j < Lc - 1, vk'[j]? = some (x j - (v ⬝ᵥ x j) • v)) ∧
      bdHolds maxn L M T' fun i j => S i j ∨ (i = n ∧ n < j + Lc ∧ j + Lc < n + Lc) := by
  obtain ⟨⟨T', vk'⟩, h1, h2, h3, h4⟩ := forM'_range_inv (bdNext maxn n Lc v) (fun m st => st.2.length = Lc - 1 ∧
      (∀ j < Lc - 1, st.2[j]? = some (if j < m then x j - (v ⬝ᵥ x j) • v else x j)) ∧ bdHolds maxn L M st.1 fun i j => S i j ∨ (i = n ∧ n < j + Lc ∧ j + Lc < n + 1 + m))
    (Lc - 1) (T, vk) ⟨hlen, by simpa using hx, by
      intro i j hc
      refine ⟨fun h => (hT i j hc).1 (h.resolve_right (by omega)), fun h => (hT i j hc).2 fun hs => h (Or.inl hs)⟩⟩ (by
    rintro m ⟨T1, vk1⟩ hm ⟨k1, k2, k3⟩
    simp only at k1 k2 k3
    have hu := k2 m hm
    rw [if_neg (lt_irrefl _)] at hu
    refine ⟨_, by
      simp only [bdNext, bind, Except.bind]
      rw [getItem_nat hu]
      simp only
      rw [bdSet_col T1 (by omega) (by omega) (by omega) (by omega)]
      simp only
      rw [bdGet_col _ (by omega) (by omega) (by omega) (by omega)]
      simp only [and_self, if_true]
      rw [setItem_nat (by omega)]
      rfl, ?_, fun j hj => ?_, ?_⟩
    · simp [k1]
    · simp only
      rw [List.getElem?_set]
      by_cases hjm : m = j
      · subst hjm
        rw [if_pos rfl, if_pos (by omega), if_pos (by omega)]
      · rw [if_neg hjm, k2 j hj]
        by_cases hlt : j < m
        · rw [if_pos hlt, if_pos (by omega)]
        · rw [if_neg hlt, if_neg (by omega)]
    · refine k3.setCol hL hn (fun hk => hM m hm hk) fun i' j' => ?_
      constructor
      · rintro (h | ⟨h1, h2, h3⟩)
        · exact .inl (.inl h)
        · by_cases he : j' + Lc = n + 1 + m
          · exact .inr ⟨h1, he⟩
          · exact .inl (.inr ⟨h1, h2, by omega⟩)
      · rintro ((h | ⟨h1, h2, h3⟩) | ⟨h1, h2⟩)
        · exact .inl h
        · exact .inr ⟨h1, h2, by omega⟩
        · exact .inr ⟨h1, by omega, by omega⟩)
  simp only at h2 h3 h4
  refine ⟨T', vk', h1, h2, fun j hj => by rw [h3 j hj, if_pos hj], fun i j hc => ?_⟩
  obtain ⟨g1, g2⟩ := h4 i j hc
  refine ⟨fun h => g1 ?_, fun h => g2 ?_⟩
  · rcases h with h | ⟨h1, h2, h3⟩
    · exact .inl h
    · exact .inr ⟨h1, h2, by omega⟩
  · rintro (h' | ⟨h1, h2, h3⟩)
    · exact h (.inl h')
    · exact h (.inr ⟨h1, h2, by omega⟩)

theorem bdPrev_loop {maxn L n Lc : ℕ} {M : ℕ → ℕ → ℝ} (hMs : ∀ i j, M i j = M j i) {T : BdMat} {S : ℕ → ℕ → Prop} (hT : bdHolds maxn L M T S) (hn : n + Lc < maxn)
    {vl : List (ι → ℝ)} {V : ℕ → ι → ℝ} (hvl : ∀ k0 < n - (n - Lc), vl[k0]? = some (V (n - Lc + k0))) (hS : ∀ j < n, n ≤ j + Lc → S n j) (w : ι → ℝ) :
    ∃ T', forM' (bdPrev maxn n Lc vl) (List.range (n - (n - Lc))) (T, w) = .ok (T', w - ∑ k ∈ Finset.range (n - (n - Lc)), M (n - Lc + k) n • V (n - Lc + k)) ∧
      bdHolds maxn L M T' fun i j => S i j ∨ (j = n ∧ i < n ∧ n ≤ i + Lc) := by
  obtain ⟨⟨T', w'⟩, h1, h2, h3⟩ := forM'_range_inv (bdPrev maxn n Lc vl) (fun m st => st.2 = w - ∑ k ∈ Finset.range m, M (n - Lc + k) n • V (n - Lc + k) ∧
      bdHolds maxn L M st.1 fun i j => S i j ∨ (j = n ∧ i < n ∧ n - Lc ≤ i ∧ i < n - Lc + m))
    (n - (n - Lc)) (T, w) ⟨by simp, by
      intro i j hc
      refine ⟨fun h => (hT i j hc).1 (h.resolve_right (by omega)), fun h => (hT i j hc).2 fun hs => h (Or.inl hs)⟩⟩ (by
    rintro m ⟨T1, w1⟩ hm ⟨k1, k2⟩
    simp only at k1 k2
    subst k1
    have ht : T1 n (n - Lc + m) = M (n - Lc + m) n := by
      rw [(k2 n (n - Lc + m) (.inl (by omega))).1 (.inl (hS _ (by omega) (by omega))), hMs]
    refine ⟨_, by
      simp only [bdPrev, bind, Except.bind]
      rw [bdGet_nat _ (by omega) (by omega)]
      simp only
      rw [bdSet_nat T1 (by omega) (by omega)]
      simp only
      rw [bdGet_nat _ (by omega) (by omega), getItem_nat (hvl m hm)]
      simp only [and_self, if_true, ht]
      rfl, ?_, ?_⟩
    · simp only
      rw [Finset.sum_range_succ, sub_sub]
    · refine k2.set (fun _ => rfl) fun i' j' _ => ?_
      constructor
      · rintro (h | ⟨h1, h2, h3, h4⟩)
        · exact .inl (.inl h)
        · by_cases he : i' = n - Lc + m
          · exact .inr ⟨he, h1⟩
          · exact .inl (.inr ⟨h1, h2, h3, by omega⟩)
      · rintro ((h | ⟨h1, h2, h3, h4⟩) | ⟨h1, h2⟩)
        · exact .inl h
        · exact .inr ⟨h1, h2, h3, by omega⟩
        · exact .inr ⟨h2, by omega, by omega, by omega⟩)
  simp only at h2 h3
  refine ⟨T', by rw [h1, h2], fun i j hc => ?_⟩
  obtain ⟨g1, g2⟩ := h3 i j hc
  refine ⟨fun h => g1 ?_, fun h => g2 ?_⟩
  · rcases h with h | ⟨h1, h2, h3⟩
    · exact .inl h
    · exact .inr ⟨h1, h2, by omega, by omega⟩
  · rintro (h' | ⟨h1, h2, h3, h4⟩)
    · exact h (.inl h')
    · exact h (.inr ⟨h1, h2, by omega⟩)

theorem bdDefl_loop {maxn L n : ℕ} {M : ℕ → ℕ → ℝ} {T : BdMat} {S : ℕ → ℕ → Prop} (hT : bdHolds maxn L M T S) (hn : n < maxn) {I : List ℕ} (hI : ∀ k ∈ I, k < n) (hnd : I.Nodup)
    {V : ℕ → ι → ℝ} (hon : ∀ i ∈ I, ∀ j ∈ I, i ≠ j → V i ⬝ᵥ V j = 0) {w : ι → ℝ} (hw : ∀ k ∈ I, V k ⬝ᵥ w = M k n) :
    ∃ T', forM' (bdDefl maxn n I (I.map V)) (List.range I.length) (T, w) = .ok (T', w - (I.map fun k => M k n • V k).sum) ∧ (∀ k ∈ I, T' k n = M k n) ∧
      bdHolds maxn L M T' fun i j => S i j ∨ (j = n ∧ i ∈ I) := by
  obtain ⟨⟨T', w'⟩, h1, h2, h3, h4⟩ := forM'_range_inv (bdDefl maxn n I (I.map V)) (fun m st => st.2 = w - ((I.take m).map fun k => M k n • V k).sum ∧ (∀ k ∈ I.take m, st.1 k n = M k n) ∧
      bdHolds maxn L M st.1 fun i j => S i j ∨ (j = n ∧ i ∈ I.take m)) I.length (T, w) ⟨by simp, by simp, by simpa using hT⟩ (by
    rintro m ⟨T1, w1⟩ hm ⟨k1, k2, k3⟩
    simp only at k1 k2 k3
    subst k1
    have hk : I[m]? = some I[m] := List.getElem?_eq_getElem hm
    have hv : (I.map V)[m]? = some (V I[m]) := by rw [List.getElem?_map, hk]; rfl
    have htk : I.take (m + 1) = I.take m ++ [I[m]] := by rw [List.take_add_one, hk]; rfl
    have hmem : I[m] ∈ I := List.getElem_mem hm
    have hnot : I[m] ∉ I.take m := by
      intro hmm
      have := List.Nodup.sublist (List.take_sublist (m + 1) I) hnd
      rw [htk, List.nodup_append'] at this
      exact this.2.2 hmm (by simp)
    have hdot : V I[m] ⬝ᵥ (w - ((I.take m).map fun k => M k n • V k).sum) = M I[m] n := by
      rw [dotProduct_sub, hw _ hmem]
      have : ∀ l : List ℕ, (∀ k ∈ l, k ∈ I ∧ I[m] ≠ k) → V I[m] ⬝ᵥ (l.map fun k => M k n • V k).sum = 0 := by
        intro l
        induction l with
        | nil => intro _; simp
        | cons a l ih =>
          intro hl
          rw [List.map_cons, List.sum_cons, dotProduct_add, dotProduct_smul, hon _ hmem a (hl a (by simp)).1 (hl a (by simp)).2, ih fun k hk => hl k (by simp [hk])]
          simp
      rw [this _ fun k hk => ⟨List.mem_of_mem_take hk, fun he => hnot (he ▸ hk)⟩, sub_zero]
    refine ⟨_, by
      simp only [bdDefl, bind, Except.bind]
      rw [getItem_nat hk, getItem_nat hv]
      simp only
      rw [bdSet_nat T1 (by have := hI _ hmem; omega) hn]
      simp only
      rw [bdGet_nat _ (by have := hI _ hmem; omega) hn]
      simp only [and_self, if_true, hdot]
      rfl, ?_, ?_, ?_⟩
    · simp only
      rw [htk, List.map_append, List.sum_append, sub_sub]
      simp
    · intro k hk'
      simp only
      by_cases he : k = I[m]
      · rw [if_pos ⟨he, trivial⟩, he]
      · rw [if_neg fun h => he h.1]
        rw [htk] at hk'
        rcases List.mem_append.mp hk' with hk' | hk'
        · exact k2 k hk'
        · simp at hk'; exact absurd hk' he
    · refine k3.set (fun _ => rfl) fun i' j' _ => ?_
      rw [htk]
      simp only [List.mem_append, List.mem_singleton]
      tauto)
  simp only at h2 h3 h4
  rw [List.take_length] at h2 h3 h4
  exact ⟨T', by rw [h1, h2], h3, h4⟩

theorem bdSym_loop {maxn L n : ℕ} {M : ℕ → ℕ → ℝ} (hMs : ∀ i j, M i j = M j i) {T : BdMat} {S : ℕ → ℕ → Prop} (hT : bdHolds maxn L M T S) (hn : n < maxn) {I : List ℕ}
    (hI : ∀ k ∈ I, k < n) (hTI : ∀ k ∈ I, T k n = M k n) : ∃ T', forM' (bdSym maxn n) I T = .ok T' ∧ bdHolds maxn L M T' fun i j => S i j ∨ (i = n ∧ j ∈ I) := by
  obtain ⟨T', h1, h2, h3⟩ := forM'_prefix_inv (bdSym maxn n) (fun p T' => (∀ k ∈ I, T' k n = M k n) ∧ bdHolds maxn L M T' fun i j => S i j ∨ (i = n ∧ j ∈ p)) I [] T ⟨hTI, by simpa using hT⟩ (by
    rintro p x T1 hp ⟨k1, k2⟩
    have hx : x ∈ I := hp.subset (by simp)
    have := hI x hx
    refine ⟨_, by
      simp only [bdSym, bind, Except.bind]
      rw [bdGet_nat _ (by omega) hn]
      simp only
      exact bdSet_nat T1 hn (by omega) _, fun k hk => ?_, ?_⟩
    · have := hI k hk
      rw [if_neg (by omega), k1 k hk]
    · refine k2.set (fun _ => by rw [k1 x hx, hMs]) fun i' j' _ => ?_
      simp only [List.mem_append, List.mem_singleton]
      tauto)
  exact ⟨T', h1, by simpa using h3⟩

theorem BdInv.grow {c : BdCfg} {H : Matrix ι ι ℝ} (hH : H.IsSymm) (hd : 0 < c.delta) {phi0 : List (ι → ℝ)} {st : BdSt ι} {V : ℕ → ι → ℝ} (h : BdInv c H phi0 st V)
    (hc : st.converged = false) (hn : st.n + st.Lc < c.maxn) {v : ι → ℝ} (hv : st.vk[0]? = some v) (hb : ¬ |Real.sqrt (v ⬝ᵥ v)| < c.delta) :
    ∃ st' V', bdGrow c (H *ᵥ ·) st (Real.sqrt (v ⬝ᵥ v)) v = .ok st' ∧ BdInv c H phi0 st' V' ∧ st'.n = st.n + 1 ∧ st'.Lc = st.Lc ∧ st'.converged = false := by
  have hp := h.pos hc
  have hlc := h.lc
  have hve : v = bdRes V st.n (bdSrc H phi0 V (phi0.length + st.n - st.Lc)) := by
    have := h.cand hc 0 hp
    rw [hv] at this
    simpa using this
  set b := Real.sqrt (v ⬝ᵥ v) with hbdef
  have hb0 : 0 < b := by
    rw [abs_of_nonneg (Real.sqrt_nonneg _), not_lt] at hb
    exact lt_of_lt_of_le hd hb
  have hbb : v ⬝ᵥ v = b * b := (Real.mul_self_sqrt (Real.sqrt_pos.mp hb0).le).symm
  set v' := (1 / b) • v with hv'
  have hvb : v = b • v' := by rw [hv', smul_smul, mul_one_div_cancel hb0.ne', one_smul]
  have hv1 : v' ⬝ᵥ v' = 1 := by
    rw [hv', smul_dotProduct, dotProduct_smul, hbb]
    simp only [smul_eq_mul]
    field_simp
  have hv0 : ∀ i < st.n, v' ⬝ᵥ V i = 0 := fun i hi => by
    rw [hv', smul_dotProduct, dotProduct_comm, hve, bdRes_dot h.on hi]; simp
  have hvv : v' ⬝ᵥ v = b := by
    rw [hvb, dotProduct_smul, hv1]; simp
  let V' : ℕ → ι → ℝ := fun i => if i = st.n then v' else V i
  have hVn : V' st.n = v' := if_pos rfl
  have hVi : ∀ i < st.n, V' i = V i := fun i hi => if_neg (by omega)
  let M : ℕ → ℕ → ℝ := fun i j => V' i ⬝ᵥ H *ᵥ V' j
  have hMs : ∀ i j, M i j = M j i := fun i j => bd_symm hH _ _
  have hres : ∀ x, bdRes V' (st.n + 1) x = bdRes V st.n x - (v' ⬝ᵥ bdRes V st.n x) • v' := fun x => by
    rw [bdRes_succ, hVn, bdRes_congr (W := V) hVi, dot_bdRes hv0]
  have hsrc : ∀ q < phi0.length + st.n, bdSrc H phi0 V' q = bdSrc H phi0 V q := fun q hq => bdSrc_congr hVi hq
  have hT0 : bdHolds c.maxn phi0.length M st.T fun i j => i < st.n ∧ j < st.n := by
    intro i j hcl
    refine ⟨fun hs => ?_, (h.mat i j hcl).2⟩
    rw [(h.mat i j hcl).1 hs]
    simp only [M]
    rw [hVi i hs.1, hVi j hs.2]
  have hvM : ∀ j < st.n, v' ⬝ᵥ bdRes V st.n (H *ᵥ V j) = M st.n j := fun j hj => by
    rw [dot_bdRes hv0]
    simp only [M]
    rw [hVn, hVi j hj]
  have hsH : ∀ j, st.Lc ≤ st.n + j → bdSrc H phi0 V (phi0.length + st.n - st.Lc + j) = H *ᵥ V (st.n + j - st.Lc) := fun j hj => by
    rw [← bdSrc_H H phi0 V]; congr 1; omega
  have hT1 : bdHolds c.maxn phi0.length M (fun i' j' => if i' = st.n ∧ j' = bdCol c.maxn st.n st.Lc then b else st.T i' j')
      fun i j => (i < st.n ∧ j < st.n) ∨ (i = st.n ∧ j + st.Lc = st.n) := by
    refine hT0.setCol hlc hn (fun hk => ?_) fun _ _ => Iff.rfl
    rw [← hvM _ (by omega), ← hvv]
    congr 1
    rw [hve]
    have := hsH 0 (by omega)
    simp only [Nat.add_zero] at this
    rw [this]
  have hklen := h.klen hc
  obtain ⟨T2, vk2, e2, l2, x2, hT2⟩ := bdNext_loop (v := v') (vk := st.vk.tail) (x := fun j => bdRes V st.n (bdSrc H phi0 V (phi0.length + st.n - st.Lc + (j + 1)))) hT1 hlc hn (by simp [hklen])
    (fun j hj => by rw [List.getElem?_tail, h.cand hc (j + 1) (by omega)]) (fun k0 hk0 hk => by
      rw [hsH _ (by omega), hvM _ (by omega)]
      congr 1; omega)
  obtain ⟨T3, e3, hT3⟩ := bdPrev_loop (vl := st.vl) (V := V) (M := M) hMs hT2 hn (fun k0 hk0 => by
      rw [h.prev hc k0 (by omega)]; congr 2; omega) (fun j hj hj' => by
      by_cases he : j + st.Lc = st.n
      · exact .inl (.inr ⟨rfl, he⟩)
      · exact .inr ⟨rfl, by omega, by omega⟩) (H *ᵥ v')
  have hIn : ∀ k ∈ st.I, k < st.n := fun k hk => by have := h.old k hk; omega
  have hw3 : ∀ k, k + st.Lc < st.n → V k ⬝ᵥ (H *ᵥ v' - ∑ k ∈ Finset.range (st.n - (st.n - st.Lc)), M (st.n - st.Lc + k) st.n • V (st.n - st.Lc + k)) = M k st.n := by
    intro k hk
    rw [dotProduct_sub, dotProduct_sum, Finset.sum_eq_zero]
    · simp only [M]; rw [hVn, hVi k (by omega), sub_zero]
    · intro i hi
      have := Finset.mem_range.mp hi
      rw [dotProduct_smul, h.on k (by omega) _ (by omega), if_neg (by omega)]; simp
  obtain ⟨T4, e4, hI4, hT4⟩ := bdDefl_loop (V := V) hT3 (by omega) hIn h.nd (fun i hi j hj hij => by rw [h.on i (hIn i hi) j (hIn j hj), if_neg hij]) fun k hk => hw3 k (h.old k hk)
  set w4 := (H *ᵥ v' - ∑ k ∈ Finset.range (st.n - (st.n - st.Lc)), M (st.n - st.Lc + k) st.n • V (st.n - st.Lc + k)) - (st.I.map fun k => M k st.n • V k).sum with hw4
  have hM0 : ∀ k, k + st.Lc < st.n → k ∉ st.I → M st.n k = 0 := fun k hk hk' => by
    rw [← hvM k (by omega), h.zero k hk hk', dotProduct_zero]
  have hw4' : w4 = bdRes V st.n (H *ᵥ v') := by
    rw [hw4]
    unfold bdRes
    rw [sub_sub, add_comm]
    congr 1
    have e := Finset.sum_range_add (fun i => (V i ⬝ᵥ H *ᵥ v') • V i) (st.n - st.Lc) (st.n - (st.n - st.Lc))
    rw [show st.n - st.Lc + (st.n - (st.n - st.Lc)) = st.n by omega] at e
    rw [e]
    have eM : ∀ i < st.n, M i st.n = V i ⬝ᵥ H *ᵥ v' := fun i hi => by simp only [M]; rw [hVn, hVi i hi]
    congr 1
    · rw [← List.sum_toFinset _ h.nd]
      rw [← Finset.sum_subset (s₁ := st.I.toFinset) (s₂ := Finset.range (st.n - st.Lc))]
      · refine Finset.sum_congr rfl fun k hk => ?_
        rw [eM k (hIn k (List.mem_toFinset.mp hk))]
      · intro k hk
        have := h.old k (List.mem_toFinset.mp hk)
        exact Finset.mem_range.mpr (by omega)
      · intro k hk hk'
        have hk := Finset.mem_range.mp hk
        rw [← eM k (by omega), hMs, hM0 k (by omega) fun hI => hk' (List.mem_toFinset.mpr hI), zero_smul]
    · refine Finset.sum_congr rfl fun k hk => ?_
      have := Finset.mem_range.mp hk
      rw [eM _ (by omega)]
  have ht : v' ⬝ᵥ w4 = M st.n st.n := by
    rw [hw4', dot_bdRes hv0]
    simp only [M]; rw [hVn]
  have hT5 : bdHolds c.maxn phi0.length M (fun i' j' => if i' = st.n ∧ j' = st.n then v' ⬝ᵥ w4 else T4 i' j') _ := hT4.set (fun _ => ht) fun _ _ _ => Iff.rfl
  obtain ⟨T6, e6, hT6⟩ := bdSym_loop hMs hT5 (by omega) hIn fun k hk => by
    have := hIn k hk
    rw [if_neg (by omega), hI4 k hk]
  have hstep : bdGrow c (H *ᵥ ·) st b v = .ok { st with T := T6, vk := vk2 ++ [w4 - (v' ⬝ᵥ w4) • v'], vl := (if st.vl.length = st.Lc then st.vl.tail else st.vl) ++ [v'], n := st.n + 1 } := by
    unfold bdGrow
    rw [bdSet_col _ (by omega) (by omega) (by omega) (by omega)]
    simp only [bind, Except.bind]
    rw [← hv', e2]
    simp only
    rw [e3]
    simp only
    rw [h.vd, e4]
    simp only
    rw [bdSet_nat _ (by omega) (by omega)]
    simp only
    rw [bdGet_nat _ (by omega) (by omega)]
    simp only [and_self, if_true]
    rw [e6]
    rfl
  have hv0' : ∀ i < st.n, V' st.n ⬝ᵥ V' i = 0 := fun i hi => by rw [hVn, hVi i hi, hv0 i hi]
  have hon' : bdON V' st.n := fun i hi j hj => by rw [hVi i hi, hVi j hj]; exact h.on i hi j hj
  have hllen := h.llen hc
  have hvzero : bdRes V' (st.n + 1) (bdSrc H phi0 V' (phi0.length + st.n - st.Lc)) = 0 := by
    rw [hsrc _ (by omega), hres, ← hve, hvv, ← hvb, sub_self]
  refine ⟨_, V', hstep, ⟨bdON_succ hon' (by rw [hVn, hv1]) hv0', hlc, fun _ => hp, fun _ => by simp [l2]; omega, fun _ j hj => ?_, fun _ => ?_, fun _ j hj => ?_, ?_, h.nd, fun k hk => ?_, fun q hq => ?_,
    fun k hk hk' => ?_, ?_, fun h' => by simp [hc] at h'⟩, rfl, rfl, hc⟩
  · simp only at hj ⊢
    by_cases hj' : j < st.Lc - 1
    · rw [List.getElem?_append_left (by omega), x2 j hj', hres, hsrc _ (by omega), show phi0.length + (st.n + 1) - st.Lc + j = phi0.length + st.n - st.Lc + (j + 1) by omega]
    · rw [List.getElem?_append_right (by omega), show j - vk2.length = 0 by omega]
      simp only [List.getElem?_cons_zero]
      rw [show phi0.length + (st.n + 1) - st.Lc + j = phi0.length + st.n by omega, bdSrc_H, hVn, hres, hw4']
  · simp only [List.length_append, List.length_cons, List.length_nil]
    split_ifs with hl
    · rw [List.length_tail]; omega
    · omega
  · simp only at hj ⊢
    have hprev := h.prev hc
    by_cases hl : st.vl.length = st.Lc
    · rw [if_pos hl]
      by_cases hj' : j < st.Lc - 1
      · rw [List.getElem?_append_left (by rw [List.length_tail]; omega), List.getElem?_tail, hprev (j + 1) (by omega), hVi _ (by omega)]
        congr 2; omega
      · rw [List.getElem?_append_right (by rw [List.length_tail]; omega), List.length_tail, show j - (st.vl.length - 1) = 0 by omega,
          show st.n + 1 - min (st.n + 1) st.Lc + j = st.n by omega, hVn]
        rfl
    · rw [if_neg hl]
      by_cases hj' : j < st.n
      · rw [List.getElem?_append_left (by omega), hprev j (by omega), hVi _ (by omega)]
        congr 2; omega
      · rw [List.getElem?_append_right (by omega), show j - st.vl.length = 0 by omega,
          show st.n + 1 - min (st.n + 1) st.Lc + j = st.n by omega, hVn]
        rfl
  · simp only
    rw [h.vd]
    exact List.map_congr_left fun k hk => (hVi k (hIn k hk)).symm
  · have := h.old k hk
    simp only; omega
  · simp only at hq ⊢
    by_cases hq' : q + st.Lc < phi0.length + st.n
    · refine lt_of_le_of_lt (bdRes_norm (by rw [hVn, hv1]) hv0' _) ?_
      rw [bdRes_congr (W := V) hVi, hsrc q (by omega)]
      exact h.small q hq'
    · rw [show q = phi0.length + st.n - st.Lc by omega, hvzero, dotProduct_zero]
      positivity
  · simp only at hk hk' ⊢
    by_cases hq : k + st.Lc < st.n
    · rw [hVi k (by omega), hres, h.zero k hq hk']; simp
    · rw [show phi0.length + st.n - st.Lc = phi0.length + k by omega, bdSrc_H] at hvzero
      exact hvzero
  · intro i j hcl
    obtain ⟨g1, g2⟩ := hT6 i j hcl
    simp only at g1 g2 ⊢
    refine ⟨fun hij => ?_, fun hij => g2 ?_⟩
    · by_cases hS : ((((((i < st.n ∧ j < st.n) ∨ (i = st.n ∧ j + st.Lc = st.n)) ∨ (i = st.n ∧ st.n < j + st.Lc ∧ j + st.Lc < st.n + st.Lc)) ∨ (j = st.n ∧ i < st.n ∧ st.n ≤ i + st.Lc)) ∨ (j = st.n ∧ i ∈ st.I)) ∨ (i = st.n ∧ j = st.n)) ∨ (i = st.n ∧ j ∈ st.I)
      · exact g1 hS
      · rw [g2 hS]
        simp only [not_or, not_and] at hS
        obtain ⟨⟨⟨⟨⟨⟨a1, a2⟩, a3⟩, a4⟩, a5⟩, a6⟩, a7⟩ := hS
        symm
        change M i j = 0
        by_cases hin : i = st.n
        · have hjn : j < st.n := by have := a6 hin; omega
          rw [hin]
          exact hM0 j (by have := a2 hin; have := a3 hin; omega) (a7 hin)
        · have hjn : j = st.n := by have := a1 (by omega); omega
          rw [hMs, hjn]
          exact hM0 i (by have := a4 hjn (by omega); omega) (a5 hjn)
    · rintro ((((((a | a) | a) | a) | a) | a) | a)
      · omega
      · omega
      · omega
      · omega
      · have := hIn i a.2; omega
      · omega
      · have := hIn j a.2; omega

theorem bdCheck_inv {c : BdCfg} {H : Matrix ι ι ℝ} {phi0 : List (ι → ℝ)} {st : BdSt ι} {V : ℕ → ι → ℝ} (h : BdInv c H phi0 st V) (hc : st.converged = false) (hND : 0 < c.ND) :
    ∃ st', bdCheck c st = .ok st' ∧ BdInv c H phi0 st' V ∧ st'.n = st.n ∧ st'.Lc = st.Lc := by
  unfold bdCheck
  rw [if_neg hND.ne']
  split_ifs with h1 h2
  · exact ⟨_, rfl, ⟨h.on, h.lc, by simp, by simp, by simp, by simp, by simp, h.vd, h.nd, h.old, h.small, h.zero, h.mat, fun _ => .inr ⟨_, _, h2⟩⟩, rfl, rfl⟩
  · exact ⟨_, rfl, ⟨h.on, h.lc, h.pos, h.klen, h.cand, h.llen, h.prev, h.vd, h.nd, h.old, h.small, h.zero, h.mat, h.conv⟩, rfl, rfl⟩
  · exact ⟨_, rfl, h, rfl, rfl⟩

theorem BdInv.step {c : BdCfg} {H : Matrix ι ι ℝ} (hH : H.IsSymm) (hd : 0 < c.delta) (hND : 0 < c.ND) {phi0 : List (ι → ℝ)} {st : BdSt ι} {V : ℕ → ι → ℝ} (h : BdInv c H phi0 st V)
    (hc : st.converged = false) (hn : st.n + st.Lc < c.maxn) :
    ∃ st' V', bdStep c (H *ᵥ ·) st = .ok st' ∧ BdInv c H phi0 st' V' ∧ ((st'.n = st.n ∧ st'.Lc + 1 = st.Lc) ∨ (st'.n = st.n + 1 ∧ st'.Lc = st.Lc)) := by
  have hv := h.cand hc 0 (h.pos hc)
  by_cases hb : |Real.sqrt (bdRes V st.n (bdSrc H phi0 V (phi0.length + st.n - st.Lc + 0)) ⬝ᵥ bdRes V st.n (bdSrc H phi0 V (phi0.length + st.n - st.Lc + 0)))| < c.delta
  · obtain ⟨st', h1, h2, h3, h4, -⟩ := h.deflate hc hv hb
    exact ⟨st', V, h1, h2, .inl ⟨h3, h4⟩⟩
  · obtain ⟨st1, V', h1, h2, h3, h4, h5⟩ := h.grow hH hd hc hn hv hb
    obtain ⟨st', k1, k2, k3, k4⟩ := bdCheck_inv h2 h5 hND
    refine ⟨st', V', ?_, k2, .inr ⟨k3.trans h3, k4.trans h4⟩⟩
    unfold bdStep
    rw [show (0 : ℤ) = ((0 : ℕ) : ℤ) from rfl, getItem_nat hv]
    simp only [bind, Except.bind]
    rw [if_neg hb, h1]
    exact k1

theorem BdInv.loop {c : BdCfg} {H : Matrix ι ι ℝ} (hH : H.IsSymm) (hd : 0 < c.delta) (hND : 0 < c.ND) {phi0 : List (ι → ℝ)} (fuel : ℕ) {st : BdSt ι} {V : ℕ → ι → ℝ} (h : BdInv c H phi0 st V)
    (hf : c.maxn - st.n + st.Lc ≤ fuel) :
    ∃ st' V', bdLoop c (H *ᵥ ·) fuel st = .ok st' ∧ BdInv c H phi0 st' V' ∧ (st'.converged = true ∨ c.maxn ≤ st'.n + st'.Lc) := by
  induction fuel generalizing st V with
  | zero => exact ⟨st, V, rfl, h, .inr (by omega)⟩
  | succ fuel ih =>
    rw [bdLoop]
    by_cases hcond : st.converged = false ∧ st.n + st.Lc < c.maxn
    · rw [if_pos hcond]
      obtain ⟨st1, V1, h1, h2, h3⟩ := h.step hH hd hND hcond.1 hcond.2
      obtain ⟨st', V', k1, k2, k3⟩ := ih h2 (by rcases h3 with h3 | h3 <;> omega)
      refine ⟨st', V', ?_, k2, k3⟩
      rw [h1]
      exact k1
    · rw [if_neg hcond]
      refine ⟨st, V, rfl, h, ?_⟩
      by_cases hc : st.converged = true
      · exact .inl hc
      · exact .inr (by simp only [Bool.not_eq_true] at hc; have := not_and.mp hcond hc; omega)

end Edpyt
