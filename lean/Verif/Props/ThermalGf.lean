import Verif.Proof.Lehmann
import Verif.Model.Gf2Exact
/-!
Properties C92, C93: the exact Green functions are the thermal Green functions of the many-body Hamiltonian.
-/
namespace Edpyt
open Spec Matrix
variable {n junk : ℕ} {es : Espace (ℕ × ℕ)} {beta egs : ℝ}

/-- The terms of `Gf.__call__`. -/
noncomputable def poleSum (z : ℂ) (L Q : List ℝ) : ℂ := (List.zipWith (fun (l q : ℝ) => (z - (l : ℂ))⁻¹ * (q : ℂ)) L Q).sum

theorem poleSum_append (z : ℂ) {L Q : List ℝ} (L' Q' : List ℝ) (h : L.length = Q.length) :
    poleSum z (L ++ L') (Q ++ Q') = poleSum z L Q + poleSum z L' Q' := by
  unfold poleSum
  rw [List.zipWith_append h, List.sum_append]

theorem poleSum_map {α : Type} (z : ℂ) (xs : List α) (f g : α → ℝ) :
    poleSum z (xs.map f) (xs.map g) = (xs.map fun x => (z - (f x : ℂ))⁻¹ * (g x : ℂ)).sum := by
  unfold poleSum
  induction xs with
  | nil => rfl
  | cons x xs ih => simp only [List.map_cons, List.zipWith_cons_cons, List.sum_cons, ih]

/-- The arrival sector of a complete espace and the two projections. -/
theorem projectPick_pair (hn : n ≤ 32) (hes : CompleteEspace n es) (s : Bool) {p1 p2 : ℕ} (h1 : p1 < n) (h2 : p2 < n) {q : ℕ × ℕ}
    (hq : q ∈ ndindex2 (n + 1) (n + 1)) (hq' : shiftUp s q ∈ ndindex2 (n + 1) (n + 1)) :
    ∃ P1 P2, projectPick junk n s p1 .c (sctAt es (shiftUp s q)) (sctAt es q) = .ok P1 ∧
      projectPick junk n s p2 .cdg (sctAt es q) (sctAt es (shiftUp s q)) = .ok P2 ∧
      ∀ j k, j < (sctAt es (shiftUp s q)).eigvals.length → k < (sctAt es q).eigvals.length → P1 k j * P2 j k =
        ((sctAt es q).ket n k ⬝ᵥ (ann ℝ (orb s (⟨p1, h1⟩ : Fin n)) *ᵥ (sctAt es (shiftUp s q)).ket n j)) *
        ((sctAt es (shiftUp s q)).ket n j ⬝ᵥ (cre ℝ (orb s (⟨p2, h2⟩ : Fin n)) *ᵥ (sctAt es q).ket n k)) := by
  obtain ⟨u, d⟩ := q
  have b := mem_ndindex2.mp hq
  have b' := mem_ndindex2.mp hq'
  cases s
  · simp only [shiftUp, Bool.false_eq_true, if_false] at b b' ⊢
    obtain ⟨up, dw, -, -, hok, -⟩ := hes.at (u := u) (d := d) (by omega) (by omega)
    obtain ⟨up', dw', -, -, hok', -⟩ := hes.at (u := u + 1) (d := d) (by omega) (by omega)
    obtain ⟨P1, e1, e1'⟩ := C34_project_exact_up (junk := junk) hn h1 .c (p := u + 1) (q := u) rfl hok' hok
    obtain ⟨P2, e2, e2'⟩ := C34_project_exact_up (junk := junk) hn h2 .cdg (p := u) (q := u + 1) rfl hok hok'
    refine ⟨P1, P2, by simp only [projectPick]; exact e1, by simp only [projectPick]; exact e2, fun j k hj hk => ?_⟩
    rw [e1' k j hk hj, e2' j k hj hk]
    simp only [hok.ket_eq, hok'.ket_eq, Ladder.mat]
    rw [mul_mul_mul_comm, ← pow_add, Even.neg_one_pow ⟨d, rfl⟩, one_mul]
  · simp only [shiftUp, if_true] at b b' ⊢
    obtain ⟨up, dw, -, -, hok, -⟩ := hes.at (u := u) (d := d) (by omega) (by omega)
    obtain ⟨up', dw', -, -, hok', -⟩ := hes.at (u := u) (d := d + 1) (by omega) (by omega)
    obtain ⟨P1, e1, e1'⟩ := C34_project_exact_dw (junk := junk) hn h1 .c (p := d + 1) (q := d) rfl hok' hok
    obtain ⟨P2, e2, e2'⟩ := C34_project_exact_dw (junk := junk) hn h2 .cdg (p := d) (q := d + 1) rfl hok hok'
    refine ⟨P1, P2, by simp only [projectPick]; exact e1, by simp only [projectPick]; exact e2, fun j k hj hk => ?_⟩
    rw [e1' k j hk hj, e2' j k hj hk]
    simp only [hok.ket_eq, hok'.ket_eq, Ladder.mat]

/-! ### C92 -/

theorem gfExact_pole_loop (hn : n ≤ 32) {pos : ℕ} (hpos : pos < n) (hes : CompleteEspace n es) (z : ℂ) (keys : List (ℕ × ℕ))
    (hk : ∀ q ∈ keys, q ∈ ndindex2 (n + 1) (n + 1)) (st : List ℝ × List ℝ) :
    ∃ L Q : List ℝ, forM' (gfExactStep (projectExactUp junk pos n .cdg) n es beta egs) keys st = .ok (st.1 ++ L, st.2 ++ Q) ∧
      L.length = Q.length ∧
      poleSum z L Q = (keys.map (lehmannPart n es beta egs false (ann ℝ (orb false (⟨pos, hpos⟩ : Fin n))) (cre ℝ (orb false (⟨pos, hpos⟩ : Fin n))) z)).sum := by
  induction keys generalizing st with
  | nil => exact ⟨[], [], by simp [forM'], rfl, by simp [poleSum]⟩
  | cons q keys ih =>
    have hq := hk q (by simp)
    have b := mem_ndindex2.mp hq
    obtain ⟨up, dw, -, hget, hok, -⟩ := hes.at (u := q.1) (d := q.2) (by omega) (by omega)
    have hstep : ∃ L Q : List ℝ, gfExactStep (projectExactUp junk pos n .cdg) n es beta egs st q = .ok (st.1 ++ L, st.2 ++ Q) ∧
        L.length = Q.length ∧ poleSum z L Q = lehmannPart n es beta egs false (ann ℝ (orb false (⟨pos, hpos⟩ : Fin n))) (cre ℝ (orb false (⟨pos, hpos⟩ : Fin n))) z q := by
      by_cases hs : shiftUp false q ∈ ndindex2 (n + 1) (n + 1)
      · have b' := mem_ndindex2.mp hs
        obtain ⟨up', dw', -, hget', hok', -⟩ := hes.at (u := q.1 + 1) (d := q.2) (by simpa [shiftUp] using Nat.lt_succ_iff.mp b'.1) (by omega)
        obtain ⟨A, B, hA, hB, hAB⟩ := C34_adjoint_up (junk := junk) hn hpos hok hok'
        obtain ⟨P1, P2, e1, e2, e3⟩ := projectPick_pair (junk := junk) hn hes false hpos hpos hq hs
        have e1' : projectExactUp junk pos n .c (sctAt es (q.1 + 1, q.2)) (sctAt es (q.1, q.2)) = .ok P1 := e1
        have e2' : projectExactUp junk pos n .cdg (sctAt es (q.1, q.2)) (sctAt es (q.1 + 1, q.2)) = .ok P2 := e2
        obtain rfl : A = P2 := by rw [hA] at e2'; exact Except.ok.inj e2'
        obtain rfl : B = P1 := by rw [hB] at e1'; exact Except.ok.inj e1'
        refine ⟨_, _, by
          unfold gfExactStep
          simp only [show dictGet es q = _ from hget, bind, Except.bind, pure, Except.pure]
          rw [if_neg (by have := b'.1; simp only [shiftUp, Bool.false_eq_true, if_false] at this; omega), hget']
          simp only [hA]
          rfl, by simp, ?_⟩
        · rw [poleSum_map, sum_ndindex2]
          simp only [lehmannPart, if_pos hs]
          apply Finset.sum_congr rfl; intro j hj
          apply Finset.sum_congr rfl; intro k hk'
          have := e3 j k (Finset.mem_range.mp hj) (Finset.mem_range.mp hk')
          rw [← this, ← hAB j k (Finset.mem_range.mp hj) (Finset.mem_range.mp hk'), ← pow_two]
          rfl
      · refine ⟨[], [], ?_, rfl, by simp [poleSum, lehmannPart, hs]⟩
        unfold gfExactStep
        simp only [show dictGet es q = _ from hget, bind, Except.bind, pure, Except.pure]
        rw [if_pos (by by_contra hc; exact hs (mem_ndindex2.mpr ⟨by simp [shiftUp]; omega, by simp [shiftUp]; omega⟩))]
        simp
    obtain ⟨L1, Q1, a1, a2, a3⟩ := hstep
    obtain ⟨L2, Q2, c1, c2, c3⟩ := ih (fun q hq => hk q (by simp [hq])) (st.1 ++ L1, st.2 ++ Q1)
    refine ⟨L1 ++ L2, Q1 ++ Q2, ?_, by simp [a2, c2], ?_⟩
    · rw [forM', a1]
      simp only [c1, List.append_assoc]
    · rw [poleSum_append z _ _ a2, a3, c3, List.map_cons, List.sum_cons]

/-- **C92** `build_gf_exact` (spin up) computes the thermal Green function: for every complete eigen-espace of a Hamiltonian `H`, every
temperature, reference energy, site, energy and non-zero broadening the call succeeds and its value at `e + iη` is the value, which is
unique, of the thermal Green function `⟨⟨c; c†⟩⟩` of `H`. -/
theorem C92_gf_exact (hn : n ≤ 32) {H : Matrix (Finset (Fin (n + n))) (Finset (Fin (n + n))) ℝ} (hes : EigenEspace n H es) {pos : ℕ} (hpos : pos < n) :
    ∃ g, buildGfExact junk n es beta egs pos false = .ok g ∧ ∀ e eta : ℝ, eta ≠ 0 → ∀ w : ℂ,
      IsGreen beta H (ann ℝ (orb false (⟨pos, hpos⟩ : Fin n))) (cre ℝ (orb false (⟨pos, hpos⟩ : Fin n))) (e + Complex.I * eta) w ↔ w = g.call e eta := by
  have hkeys : ∀ q ∈ es.map Prod.fst, q ∈ ndindex2 (n + 1) (n + 1) := fun q hq => hes.keys.mem_iff.mp hq
  have hrun : ∃ g, buildGfExact junk n es beta egs pos false = .ok g := C37_up_partial hn hpos hes.toCompleteEspace
  obtain ⟨g, hg⟩ := hrun
  refine ⟨g, hg, fun e eta he w => ?_⟩
  obtain ⟨L, Q, h1, h2, h3⟩ := gfExact_pole_loop (junk := junk) (beta := beta) (egs := egs) hn hpos hes.toCompleteEspace (e + Complex.I * eta) _ hkeys ([], [])
  simp only [List.nil_append] at h1
  have : g = ⟨Q, L, partition es beta egs⟩ := by
    unfold buildGfExact at hg
    simp only [Bool.false_eq_true, if_false, h1, bind, Except.bind, pure, Except.pure] at hg
    exact (Except.ok.inj hg).symm
  rw [hes.green beta egs false (grade_cre false _) (by simpa using he), ← h3, this]
  rfl

/-- **C92** end to end: the Green function computed from an untruncated `build_espace` is the thermal Green function of the operator
`a.ham` the inputs describe, whatever eigenbasis the diagonaliser chose. -/
theorem C92_from_build_espace {a : HamArgs} (ha : a.Valid) {w : ℕ} (hw : a.n ≤ w) {e0 : WithTop ℝ}
    (h : BuildEspace w a none (.ok (es, e0))) {pos : ℕ} (hpos : pos < a.n) :
    ∃ g, buildGfExact junk a.n es beta egs pos false = .ok g ∧ ∀ e eta : ℝ, eta ≠ 0 →
      IsGreen beta a.ham (ann ℝ (orb false (⟨pos, hpos⟩ : Fin a.n))) (cre ℝ (orb false (⟨pos, hpos⟩ : Fin a.n))) (e + Complex.I * eta) (g.call e eta) := by
  obtain ⟨g, h1, h2⟩ := C92_gf_exact (junk := junk) (beta := beta) (egs := egs) ha.le (buildEspace_eigen ha hw h) hpos
  exact ⟨g, h1, fun e eta he => (h2 e eta he _).mpr rfl⟩

/-- Non-vacuity: the two-site example has a complete eigen-espace. -/
theorem exampleArgs_eigenEspace : ∃ es, EigenEspace 2 exampleArgs.ham es := by
  obtain ⟨l, hl, hlb⟩ := C25_default_neig exampleArgs.n
  obtain ⟨⟨⟨es, e0⟩, h⟩, -⟩ := C25_build_espace_partial exampleArgs_valid (w := 64) (by simp [exampleArgs]) l hlb
  have h' : BuildEspace 64 exampleArgs none (.ok (es, e0)) := by
    simp only [BuildEspace, hl]
    simpa only [BuildEspace, neigOrDefault] using h
  exact ⟨es, buildEspace_eigen exampleArgs_valid (by simp [exampleArgs]) h'⟩

example : ∃ es g, buildGfExact junk 2 es 10 0 0 false = .ok g ∧
    IsGreen 10 exampleArgs.ham (ann ℝ (orb false (⟨0, by norm_num⟩ : Fin 2))) (cre ℝ (orb false (⟨0, by norm_num⟩ : Fin 2))) (((1 : ℝ) : ℂ) + Complex.I * ((1 / 50 : ℝ) : ℂ)) (g.call 1 (1 / 50)) := by
  obtain ⟨es, h⟩ := exampleArgs_eigenEspace
  obtain ⟨g, h1, h2⟩ := C92_gf_exact (junk := junk) (beta := 10) (egs := 0) (by norm_num) h (pos := 0) (by norm_num)
  exact ⟨es, g, h1, (h2 1 (1 / 50) (by norm_num) _).mpr rfl⟩

/-! ### C93 -/

theorem gf2Exact_inner (hn : n ≤ 32) (hes : CompleteEspace n es) (s : Bool) (z : ℂ) {q : ℕ × ℕ}
    (hq : q ∈ ndindex2 (n + 1) (n + 1)) (hq' : shiftUp s q ∈ ndindex2 (n + 1) (n + 1)) (ps : List (ℕ × ℕ)) (hps : ∀ p ∈ ps, p.1 < n ∧ p.2 < n) (hnd : ps.Nodup)
    (st : ℕ × ℕ → List ℝ × List ℝ) :
    ∃ st', forM' (gf2ExactPair junk n beta egs s (sctAt es q) (sctAt es (shiftUp s q))) ps st = .ok st' ∧
      (∀ p, p ∉ ps → st' p = st p) ∧
      ∀ p ∈ ps, ∃ (h1 : p.1 < n) (h2 : p.2 < n) (L Q : List ℝ), st' p = ((st p).1 ++ L, (st p).2 ++ Q) ∧ L.length = Q.length ∧
        poleSum z L Q = lehmannPart n es beta egs s (ann ℝ (orb s (⟨p.1, h1⟩ : Fin n))) (cre ℝ (orb s (⟨p.2, h2⟩ : Fin n))) z q := by
  induction ps generalizing st with
  | nil => exact ⟨st, rfl, fun _ _ => rfl, by simp⟩
  | cons p ps ih =>
    obtain ⟨b1, b2⟩ := hps p (by simp)
    obtain ⟨P1, P2, e1, e2, e3⟩ := projectPick_pair (junk := junk) hn hes s b1 b2 hq hq'
    obtain ⟨hp, hnd'⟩ := List.nodup_cons.mp hnd
    have hbody : ∃ L Q : List ℝ, gf2ExactPair junk n beta egs s (sctAt es q) (sctAt es (shiftUp s q)) st p =
        .ok (Function.update st p ((st p).1 ++ L, (st p).2 ++ Q)) ∧ L.length = Q.length ∧
        poleSum z L Q = lehmannPart n es beta egs s (ann ℝ (orb s (⟨p.1, b1⟩ : Fin n))) (cre ℝ (orb s (⟨p.2, b2⟩ : Fin n))) z q := by
      refine ⟨_, _, by unfold gf2ExactPair; simp only [e1, e2, bind, Except.bind, pure, Except.pure]; rfl, by simp, ?_⟩
      rw [poleSum_map, sum_ndindex2]
      simp only [lehmannPart, if_pos hq']
      apply Finset.sum_congr rfl; intro j hj
      apply Finset.sum_congr rfl; intro k hk'
      rw [← e3 j k (Finset.mem_range.mp hj) (Finset.mem_range.mp hk')]
    obtain ⟨L, Q, c1, c2, c3⟩ := hbody
    obtain ⟨st', d1, d2, d3⟩ := ih (fun p hp => hps p (by simp [hp])) hnd' (Function.update st p ((st p).1 ++ L, (st p).2 ++ Q))
    refine ⟨st', by rw [forM', c1]; exact d1, ?_, ?_⟩
    · intro p' hp'
      rw [d2 p' (fun h => hp' (by simp [h])), Function.update_of_ne (fun h => hp' (by simp [h]))]
    · intro p' hp'
      rcases List.mem_cons.mp hp' with rfl | hm
      · refine ⟨b1, b2, L, Q, ?_, c2, c3⟩
        rw [d2 _ hp, Function.update_self]
      · obtain ⟨h1, h2, L', Q', f1, f2, f3⟩ := d3 p' hm
        refine ⟨h1, h2, L', Q', ?_, f2, f3⟩
        rw [f1, Function.update_of_ne (fun h => hp (by rw [← h]; exact hm))]

theorem gf2Exact_step (hn : n ≤ 32) (hes : CompleteEspace n es) (s : Bool) (z : ℂ) {it : (ℕ × ℕ) × Sct} (hit : it ∈ es)
    (st : ℕ × ℕ → List ℝ × List ℝ) :
    ∃ st', gf2ExactStep junk n es beta egs s st it = .ok st' ∧
      ∀ p : ℕ × ℕ, ∀ (h1 : p.1 < n) (h2 : p.2 < n), ∃ (L Q : List ℝ), st' p = ((st p).1 ++ L, (st p).2 ++ Q) ∧ L.length = Q.length ∧
        poleSum z L Q = lehmannPart n es beta egs s (ann ℝ (orb s (⟨p.1, h1⟩ : Fin n))) (cre ℝ (orb s (⟨p.2, h2⟩ : Fin n))) z it.1 := by
  have hq : it.1 ∈ ndindex2 (n + 1) (n + 1) := hes.keys.mem_iff.mp (List.mem_map.mpr ⟨it, hit, rfl⟩)
  have hs : sctAt es it.1 = it.2 := by unfold sctAt; rw [dictGet_mem hes.nodup (show (it.1, it.2) ∈ es from hit)]
  have b := mem_ndindex2.mp hq
  by_cases hq' : shiftUp s it.1 ∈ ndindex2 (n + 1) (n + 1)
  · have b' := mem_ndindex2.mp hq'
    obtain ⟨-, -, -, hget', -⟩ := hes.at (u := (shiftUp s it.1).1) (d := (shiftUp s it.1).2) (by omega) (by omega)
    have hc : getCdgSector n it.1.1 it.1.2 (if s then 1 else 0) = .ok (((shiftUp s it.1).1 : ℤ), ((shiftUp s it.1).2 : ℤ)) := by
      cases s <;> simp only [shiftUp, getCdgSector] at b' ⊢ <;> simp at b' ⊢ <;> omega
    obtain ⟨st', d1, -, d3⟩ := gf2Exact_inner (junk := junk) (beta := beta) (egs := egs) hn hes s z hq hq' (ndindex2 n n)
      (fun p hp => mem_ndindex2.mp hp) (nodup_ndindex2 _ _) st
    refine ⟨st', ?_, fun p h1 h2 => ?_⟩
    · unfold gf2ExactStep
      rw [hc]
      simp only [Int.toNat_natCast, hget', bind, Except.bind, ← hs]
      exact d1
    · obtain ⟨h1', h2', L, Q, r⟩ := d3 p (mem_ndindex2.mpr ⟨h1, h2⟩)
      exact ⟨L, Q, r⟩
  · have hc : getCdgSector n it.1.1 it.1.2 (if s then 1 else 0) = .error .outOfHilbert := by
      have : ¬ ((shiftUp s it.1).1 < n + 1 ∧ (shiftUp s it.1).2 < n + 1) := fun h => hq' (mem_ndindex2.mpr h)
      cases s <;> simp only [shiftUp, getCdgSector] at this ⊢ <;> simp at this ⊢ <;> omega
    refine ⟨st, by unfold gf2ExactStep; rw [hc], fun p h1 h2 => ⟨[], [], by simp, rfl, by simp [poleSum, lehmannPart, hq']⟩⟩

theorem gf2Exact_loop (hn : n ≤ 32) (hes : CompleteEspace n es) (s : Bool) (z : ℂ) (items : List ((ℕ × ℕ) × Sct)) (hit : ∀ it ∈ items, it ∈ es)
    (st : ℕ × ℕ → List ℝ × List ℝ) :
    ∃ st', forM' (gf2ExactStep junk n es beta egs s) items st = .ok st' ∧
      ∀ p : ℕ × ℕ, ∀ (h1 : p.1 < n) (h2 : p.2 < n), ∃ (L Q : List ℝ), st' p = ((st p).1 ++ L, (st p).2 ++ Q) ∧ L.length = Q.length ∧
        poleSum z L Q = ((items.map Prod.fst).map (lehmannPart n es beta egs s (ann ℝ (orb s (⟨p.1, h1⟩ : Fin n))) (cre ℝ (orb s (⟨p.2, h2⟩ : Fin n))) z)).sum := by
  induction items generalizing st with
  | nil => exact ⟨st, rfl, fun p _ _ => ⟨[], [], by simp, rfl, by simp [poleSum]⟩⟩
  | cons it items ih =>
    obtain ⟨st1, a1, a2⟩ := gf2Exact_step (junk := junk) (beta := beta) (egs := egs) hn hes s z (hit it (by simp)) st
    obtain ⟨st2, c1, c2⟩ := ih (fun it h => hit it (by simp [h])) st1
    refine ⟨st2, by rw [forM', a1]; exact c1, fun p h1 h2 => ?_⟩
    obtain ⟨L, Q, e1, e2, e3⟩ := a2 p h1 h2
    obtain ⟨L', Q', f1, f2, f3⟩ := c2 p h1 h2
    refine ⟨L ++ L', Q ++ Q', by rw [f1, e1]; simp, by simp [e2, f2], ?_⟩
    rw [poleSum_append z _ _ e2, e3, f3, List.map_cons, List.map_cons, List.sum_cons]

/-- **C93** `build_gf2_exact` computes the matrix of thermal Green functions, for either spin: for every complete eigen-espace of a
Hamiltonian `H`, temperature, reference energy, pair of sites, energy and non-zero broadening the call succeeds and entry `(p1, p2)` at
`e + iη` is the thermal Green function `⟨⟨c_{p1}; c†_{p2}⟩⟩` of `H`. -/
theorem C93_gf2_exact (hn : n ≤ 32) {H : Matrix (Finset (Fin (n + n))) (Finset (Fin (n + n))) ℝ} (hes : EigenEspace n H es) (s : Bool) :
    ∃ G, buildGf2Exact junk n es beta egs s = .ok G ∧ ∀ p1 p2 : Fin n, ∀ e eta : ℝ, eta ≠ 0 → ∀ w : ℂ,
      IsGreen beta H (ann ℝ (orb s p1)) (cre ℝ (orb s p2)) (e + Complex.I * eta) w ↔ w = (G p1 p2).call e eta := by
  obtain ⟨st0, h0, -⟩ := gf2Exact_loop (junk := junk) (beta := beta) (egs := egs) hn hes.toCompleteEspace s 0 es (fun _ h => h) (fun _ => ([], []))
  refine ⟨_, by unfold buildGf2Exact; simp only [h0, bind, Except.bind, pure, Except.pure]; rfl, fun p1 p2 e eta he w => ?_⟩
  obtain ⟨st1, h1, h2⟩ := gf2Exact_loop (junk := junk) (beta := beta) (egs := egs) hn hes.toCompleteEspace s (e + Complex.I * eta) es (fun _ h => h) (fun _ => ([], []))
  obtain rfl : st0 = st1 := by rw [h0] at h1; exact Except.ok.inj h1
  obtain ⟨L, Q, e1, e2, e3⟩ := h2 ((p1 : ℕ), (p2 : ℕ)) p1.2 p2.2
  simp only [List.nil_append] at e1
  rw [hes.green beta egs s (grade_cre s _) (by simpa using he)]
  have : ((es.map Prod.fst).map (lehmannPart n es beta egs s (ann ℝ (orb s p1)) (cre ℝ (orb s p2)) (e + Complex.I * eta))).sum = poleSum (e + Complex.I * eta) L Q := e3.symm
  rw [this]
  simp only [e1]
  rfl

/-- **C93** end to end, from an untruncated `build_espace`. -/
theorem C93_from_build_espace {a : HamArgs} (ha : a.Valid) {w : ℕ} (hw : a.n ≤ w) {e0 : WithTop ℝ}
    (h : BuildEspace w a none (.ok (es, e0))) (s : Bool) :
    ∃ G, buildGf2Exact junk a.n es beta egs s = .ok G ∧ ∀ p1 p2 : Fin a.n, ∀ e eta : ℝ, eta ≠ 0 →
      IsGreen beta a.ham (ann ℝ (orb s p1)) (cre ℝ (orb s p2)) (e + Complex.I * eta) ((G p1 p2).call e eta) := by
  obtain ⟨G, h1, h2⟩ := C93_gf2_exact (junk := junk) (beta := beta) (egs := egs) ha.le (buildEspace_eigen ha hw h) s
  exact ⟨G, h1, fun p1 p2 e eta he => (h2 p1 p2 e eta he _).mpr rfl⟩

/-- **C93**, consistency: on the diagonal, spin up, `build_gf2_exact` and `build_gf_exact` define the same function. -/
theorem C93_diagonal (hn : n ≤ 32) {H : Matrix (Finset (Fin (n + n))) (Finset (Fin (n + n))) ℝ} (hes : EigenEspace n H es) (p : Fin n) :
    ∃ G g, buildGf2Exact junk n es beta egs false = .ok G ∧ buildGfExact junk n es beta egs p false = .ok g ∧
      ∀ e eta : ℝ, eta ≠ 0 → (G p p).call e eta = g.call e eta := by
  obtain ⟨G, h1, h2⟩ := C93_gf2_exact (junk := junk) (beta := beta) (egs := egs) hn hes false
  obtain ⟨g, h3, h4⟩ := C92_gf_exact (junk := junk) (beta := beta) (egs := egs) hn hes p.2
  exact ⟨G, g, h1, h3, fun e eta he => (h4 e eta he _).mp ((h2 p p e eta he _).mpr rfl)⟩

example : ∃ es G, buildGf2Exact junk 2 es 10 0 true = .ok G ∧
    IsGreen 10 exampleArgs.ham (ann ℝ (orb true (0 : Fin 2))) (cre ℝ (orb true (1 : Fin 2))) (((1 : ℝ) : ℂ) + Complex.I * ((1 / 50 : ℝ) : ℂ)) ((G 0 1).call 1 (1 / 50)) := by
  obtain ⟨es, h⟩ := exampleArgs_eigenEspace
  obtain ⟨G, h1, h2⟩ := C93_gf2_exact (junk := junk) (beta := 10) (egs := 0) (by norm_num) h true
  exact ⟨es, G, h1, (h2 0 1 1 (1 / 50) (by norm_num) _).mpr rfl⟩

end Edpyt
