import Verif.Proof.NonLocalDense
/-!
`_N_build_ham_non_local`.
-/
namespace Edpyt
open Spec

variable {K : Type} [Field K] [LinearOrder K]

theorem mul_ann_code {m : ℕ} (hm : m ≤ 32) (A : Matrix (Finset (Fin m)) (Finset (Fin m)) K) (a : Fin m) {s : ℕ}
    (hs : s < 2 ^ m) (T : Finset (Fin m)) :
    (A * ann K a) T (occF m s) = match c s a m with
      | .ok r => (r.1 : K) * A T (occF m r.2)
      | .error _ => 0 := by
  have hs32 : s < 2 ^ 32 := lt_of_lt_of_le hs (Nat.pow_le_pow_right (by norm_num) hm)
  rw [mul_ann_apply]
  simp only [mem_occF]
  cases h : s.testBit a with
  | true => rw [c_of_full hs32 (by omega) h]; simp only [if_true]; rw [occF_flip_of_full hm hs h, fsgn_eq_sgn]
  | false => rw [c_of_empty hs32 (by omega) h]; simp

theorem mul_cre_code {m : ℕ} (hm : m ≤ 32) (A : Matrix (Finset (Fin m)) (Finset (Fin m)) K) (a : Fin m) {s : ℕ}
    (hs : s < 2 ^ m) (T : Finset (Fin m)) :
    (A * cre K a) T (occF m s) = match cdg s a m with
      | .ok r => (r.1 : K) * A T (occF m r.2)
      | .error _ => 0 := by
  have hs32 : s < 2 ^ 32 := lt_of_lt_of_le hs (Nat.pow_le_pow_right (by norm_num) hm)
  rw [mul_cre_apply]
  simp only [mem_occF]
  cases h : s.testBit a with
  | false => rw [cdg_of_empty hs32 (by omega) h]; simp [occF_flip_of_empty hm hs h, fsgn_eq_sgn]
  | true => rw [cdg_of_full hs32 (by omega) h]; simp

theorem c_ok {m : ℕ} (hm : m ≤ 32) {s p : ℕ} {a : Fin m} (hs : InSector m p s) {r : ℤ × ℕ} (h : c s a m = .ok r) :
    r.2 < 2 ^ m ∧ particles r.2 + 1 = p := by
  have hs32 : s < 2 ^ 32 := lt_of_lt_of_le hs.1 (Nat.pow_le_pow_right (by norm_num) hm)
  cases hb : s.testBit a with
  | false => rw [c_of_empty hs32 (by omega) hb] at h; simp at h
  | true =>
    rw [c_of_full hs32 (by omega) hb] at h
    obtain rfl := Except.ok.inj h
    have h1 : flip s a < 2 ^ m := flip_lt hs.1 a.2
    refine ⟨h1, ?_⟩
    rw [← card_occF h1, occF_flip_of_full hm hs.1 hb, Finset.card_erase_add_one (by simp [hb]), card_occF hs.1, hs.2]

theorem cdg_ok {m : ℕ} (hm : m ≤ 32) {s p : ℕ} {a : Fin m} (hs : InSector m p s) {r : ℤ × ℕ} (h : cdg s a m = .ok r) :
    InSector m (p + 1) r.2 := by
  have hs32 : s < 2 ^ 32 := lt_of_lt_of_le hs.1 (Nat.pow_le_pow_right (by norm_num) hm)
  cases hb : s.testBit a with
  | true => rw [cdg_of_full hs32 (by omega) hb] at h; simp at h
  | false =>
    rw [cdg_of_empty hs32 (by omega) hb] at h
    obtain rfl := Except.ok.inj h
    have h1 : flip s a < 2 ^ m := flip_lt hs.1 a.2
    refine ⟨h1, ?_⟩
    rw [← card_occF h1, occF_flip_of_empty hm hs.1 hb, Finset.card_insert_of_notMem (by simp [hb]), card_occF hs.1, hs.2]

theorem fourOps_ok {m : ℕ} (hm : m ≤ 32) {s p : ℕ} (a b d e : Fin m) (hs : InSector m p s) {r : ℤ × ℕ}
    (h : fourOps s a b d e m = some r) : InSector m p r.2 := by
  unfold fourOps at h
  cases h1 : c s a m with
  | error x => simp [h1, bind, Except.bind] at h
  | ok r1 =>
    obtain ⟨g1, g2⟩ := c_ok hm hs h1
    cases h2 : c r1.2 b m with
    | error x => simp [h1, h2, bind, Except.bind] at h
    | ok r2 =>
      obtain ⟨g3, g4⟩ := c_ok hm ⟨g1, rfl⟩ h2
      cases h3 : cdg r2.2 d m with
      | error x => simp [h1, h2, h3, bind, Except.bind] at h
      | ok r3 =>
        have g5 := cdg_ok hm ⟨g3, rfl⟩ h3
        cases h4 : cdg r3.2 e m with
        | error x => simp [h1, h2, h3, h4, bind, Except.bind] at h
        | ok r4 =>
          have g6 := cdg_ok hm g5 h4
          simp only [h1, h2, h3, h4, bind, Except.bind, pure, Except.pure, Option.some.injEq] at h
          subst h
          simp only
          have : particles r2.2 + 1 + 1 = p := by omega
          rwa [this] at g6

theorem fourOps_spec {m : ℕ} (hm : m ≤ 32) {s p : ℕ} (a b d e : Fin m) (hs : InSector m p s) (T : Finset (Fin m)) :
    (cre K e * cre K d * ann K b * ann K a) T (occF m s) = match fourOps s a b d e m with
      | none => 0
      | some r => if T = occF m r.2 then (r.1 : K) else 0 := by
  rw [mul_ann_code hm _ a hs.1]
  unfold fourOps
  cases h1 : c s a m with
  | error x => simp [bind, Except.bind]
  | ok r1 =>
    obtain ⟨g1, g2⟩ := c_ok hm hs h1
    simp only
    rw [mul_ann_code hm _ b g1]
    cases h2 : c r1.2 b m with
    | error x => simp [h2, bind, Except.bind]
    | ok r2 =>
      obtain ⟨g3, g4⟩ := c_ok hm ⟨g1, rfl⟩ h2
      simp only
      rw [mul_cre_code hm _ d g3]
      cases h3 : cdg r2.2 d m with
      | error x => simp [h2, h3, bind, Except.bind]
      | ok r3 =>
        have g5 := cdg_ok hm ⟨g3, rfl⟩ h3
        simp only
        have := mul_cre_code hm (1 : Matrix (Finset (Fin m)) (Finset (Fin m)) K) e g5.1 T
        rw [one_mul] at this
        rw [this]
        cases h4 : cdg r3.2 e m with
        | error x => simp [h2, h3, h4, bind, Except.bind]
        | ok r4 =>
          simp only [h2, h3, h4, bind, Except.bind, pure, Except.pure, Matrix.one_apply]
          split_ifs
          · push_cast; ring
          · simp

/-- Elements appended for the pair `(i, j)` and the spins `sg`. -/
def nElems (bj n : ℕ) (L : List ℕ) (ops : ℕ → ℕ → ℕ × ℕ → Option (ℤ × ℕ)) (spins : List (ℕ × ℕ)) (A : ℕ → ℕ → K) :
    List (K × ℤ) :=
  (List.range n).flatMap fun i => (List.range n).flatMap fun j => if keepElem A i j = true then
    (spins.flatMap fun sg => (ops i j sg).elim [] fun r => [((r.1 : K) * A i j / 2, binsearch bj L r.2)]) else []

def xOps (n s i j : ℕ) (sg : ℕ × ℕ) : Option (ℤ × ℕ) :=
  fourOps s (j + sg.1 * n) (i + sg.2 * n) (j + sg.2 * n) (i + sg.1 * n) (2 * n)
def pOps (n s i j : ℕ) (sg : ℕ × ℕ) : Option (ℤ × ℕ) :=
  fourOps s (j + sg.1 * n) (j + sg.2 * n) (i + sg.2 * n) (i + sg.1 * n) (2 * n)

/-- Elements of the row of state `s`. -/
def nEntries (bj n : ℕ) (L : List ℕ) (Jx Jp : Option (ℕ → ℕ → K)) (s : ℕ) : List (K × ℤ) :=
  (Jx.elim [] fun A => nElems bj n L (xOps n s) [(0, 0), (0, 1), (1, 0), (1, 1)] A) ++
  (Jp.elim [] fun A => nElems bj n L (pOps n s) [(0, 1), (1, 0)] A)

theorem foldl_append_eq {α β : Type} (l : List α) (g : α → List β) (st : List β) :
    l.foldl (fun st x => st ++ g x) st = st ++ l.flatMap g := by
  induction l generalizing st with
  | nil => simp
  | cons x xs ih => simp only [List.foldl_cons, ih, List.flatMap_cons, List.append_assoc]

theorem nRows_eq {n : ℕ} (A : ℕ → ℕ → K) {T : Csr K} (hT : IsCsr T ((List.range n).map (keptRow n A)))
    (elem : ℕ → ℤ → List (K × ℤ) → ℕ × ℕ → Except PyErr (List (K × ℤ))) (spins : List (ℕ × ℕ)) (bj : ℕ) (L : List ℕ)
    (ops : ℕ → ℕ → ℕ × ℕ → Option (ℤ × ℕ))
    (helem : ∀ i j p st sg, getItem T.indices p = .ok ((j : ℕ) : ℤ) → getItem T.data p = .ok (A i j) →
      elem i p st sg = .ok (st ++ (ops i j sg).elim [] fun r => [((r.1 : K) * A i j / 2, binsearch bj L r.2)]))
    (st : List (K × ℤ)) :
    forM' (nRow elem spins T) (List.range n) st = .ok (st ++ nElems bj n L ops spins A) := by
  unfold nElems
  rw [← foldl_append_eq]
  apply forM'_ok
  intro st i hi
  have hi : i < n := List.mem_range.mp hi
  have hr : ((List.range n).map (keptRow n A))[i]'(by simpa using hi) = keptRow n A i := by simp
  unfold nRow
  rw [rowLoop_fold hT i (by simpa using hi) _ (fun st x => st ++ spins.flatMap fun sg =>
    (ops i x.2.toNat sg).elim [] fun r => [((r.1 : K) * A i x.2.toNat / 2, binsearch bj L r.2)]), hr, foldl_append_eq,
    keptRow, flatMap_filter_map]
  · simp only [Int.toNat_natCast]
  · intro st p x hx h1 h2
    rw [hr, keptRow, List.mem_map] at hx
    obtain ⟨j, hj, rfl⟩ := hx
    simp only [Int.toNat_natCast]
    rw [← foldl_append_eq]
    apply forM'_ok
    intro st sg _
    exact helem i j p st sg h2 h1

theorem nStateElems_eq {bj n : ℕ} (L : List ℕ) {Jx Jp : Option (ℕ → ℕ → K)} {Tx Tp : Option (Csr K)}
    (hx : IsComp n Jx Tx) (hp : IsComp n Jp Tp) (s : ℕ) (st : List (K × ℤ)) :
    nStateElems bj n L Tx Tp s st = .ok (st ++ nEntries bj n L Jx Jp s) := by
  have h1 : ∀ (A : ℕ → ℕ → K) (T : Csr K), IsCsr T ((List.range n).map (keptRow n A)) → ∀ st,
      forM' (nRow (nxElem bj n L T s) [(0, 0), (0, 1), (1, 0), (1, 1)] T) (List.range n) st =
        .ok (st ++ nElems bj n L (xOps n s) [(0, 0), (0, 1), (1, 0), (1, 1)] A) := by
    intro A T hT st
    apply nRows_eq A hT
    intro i j p st sg e1 e2
    simp only [nxElem, e1, bind, Except.bind, Int.toNat_natCast, xOps]
    cases fourOps s (j + sg.1 * n) (i + sg.2 * n) (j + sg.2 * n) (i + sg.1 * n) (2 * n) <;> simp [e2, pure, Except.pure, nAppend]
  have h2 : ∀ (A : ℕ → ℕ → K) (T : Csr K), IsCsr T ((List.range n).map (keptRow n A)) → ∀ st,
      forM' (nRow (npElem bj n L T s) [(0, 1), (1, 0)] T) (List.range n) st =
        .ok (st ++ nElems bj n L (pOps n s) [(0, 1), (1, 0)] A) := by
    intro A T hT st
    apply nRows_eq A hT
    intro i j p st sg e1 e2
    simp only [npElem, e1, bind, Except.bind, Int.toNat_natCast, pOps]
    cases fourOps s (j + sg.1 * n) (j + sg.2 * n) (i + sg.2 * n) (i + sg.1 * n) (2 * n) <;> simp [e2, pure, Except.pure, nAppend]
  unfold nStateElems nEntries
  cases Jx <;> cases Tx <;> simp only [IsComp] at hx <;> cases Jp <;> cases Tp <;> simp only [IsComp] at hp <;>
    simp only [Option.elim, pure, Except.pure, bind, Except.bind, List.append_nil, List.nil_append]
  · exact h2 _ _ hp st
  · rw [h1 _ _ hx]
  · rw [h1 _ _ hx]; simp only; rw [h2 _ _ hp, List.append_assoc]

theorem nBuildNonLocal_core {n : ℕ} {L : List ℕ} (hL : 0 < L.length) (jk : Junk K) (bj : ℕ) (Jx Jp : Option (ℕ → ℕ → K))
    (hJ : ¬ (Jx.isNone ∧ Jp.isNone)) :
    ∃ m, nBuildNonLocal jk bj n Jx Jp L = .ok m ∧ IsCsr m (L.map (nEntries bj n L Jx Jp)) ∧ m.cols = L.length := by
  obtain ⟨Tx, hx1, hx2⟩ := nlCompress_core jk n Jx
  obtain ⟨Tp, hp1, hp2⟩ := nlCompress_core jk n Jp
  set rows := L.map (nEntries bj n L Jx Jp) with hrows
  have hrl : rows.length = L.length := by simp [hrows]
  have key : ∀ k, k ≤ L.length → forM' (nStep bj n L Tx Tp) (List.range k) ([], [0]) =
      .ok ((rows.take k).flatten, ptrs (rows.take k)) := by
    intro k
    induction k with
    | zero => intro _; simp [forM', ptrs]
    | succ k ih =>
      intro hk
      rw [List.range_succ, forM'_append, ih (by omega)]
      simp only [forM']
      have hlen : (rows.take k).length = k := by rw [List.length_take]; omega
      have hrk : rows[k]'(by omega) = nEntries bj n L Jx Jp L[k] := by simp [hrows]
      have hq : getItem (ptrs (rows.take k)) (k : ℤ) = .ok ((rows.take k).flatten.length : ℤ) := by
        rw [getItem_natCast _ k (by rw [ptrs_length, hlen]; omega), ptrs_getElem, List.take_of_length_le (by omega)]
      unfold nStep
      simp only [getItem_natCast L k (by omega), nStateElems_eq L hx2 hp2, bind, Except.bind, hq, pure, Except.pure]
      rw [List.take_succ_eq_append_getElem (by omega), ptrs_concat, List.flatten_append, hrk]
      simp [-List.length_flatten]
  have hfin := key L.length le_rfl
  rw [List.take_of_length_le (by omega)] at hfin
  refine ⟨⟨rows.flatten.map Prod.fst, ptrs rows, rows.flatten.map Prod.snd, L.length, L.length⟩, ?_, ⟨rfl, rfl, rfl, hrl.symm⟩, rfl⟩
  unfold nBuildNonLocal
  rw [if_neg hJ]
  have h0 : getItem L 0 = .ok L[0] := getItem_natCast L 0 hL
  simp only [h0, hx1, hp1, bind, Except.bind, hfin]
  rfl

theorem sum_nElems {n N : ℕ} (hn : n + n ≤ 32) {L : List ℕ} (hL : SectorList (n + n) N L) (bj : ℕ) (A : ℕ → ℕ → K)
    (ops : ℕ → ℕ → ℕ × ℕ → Option (ℤ × ℕ)) (spins : List (ℕ × ℕ))
    (Q : Fin n → Fin n → ℕ × ℕ → Matrix (Finset (Fin (n + n))) (Finset (Fin (n + n))) K) (s : ℕ)
    (hops : ∀ (i j : Fin n) (sg) (r : ℤ × ℕ), sg ∈ spins → ops i j sg = some r → InSector (n + n) N r.2)
    (hQ : ∀ (i j : Fin n) sg, sg ∈ spins → ∀ T, Q i j sg T (occF (n + n) s) = match ops i j sg with
      | none => 0
      | some r => if T = occF (n + n) r.2 then (r.1 : K) else 0)
    (k : ℕ) (hk : k < L.length) :
    ((nElems bj n L ops spins A).map fun x => if x.2 = (k : ℤ) then x.1 else 0).sum =
      1 / 2 * ∑ i : Fin n, ∑ j : Fin n, offdiag (n := n) A i j * (spins.map fun sg => Q i j sg (occF (n + n) L[k]) (occF (n + n) s)).sum := by
  unfold nElems
  have hkS := (hL.mem L[k]).mp (List.getElem_mem _)
  rw [sum_map_flatMap, sum_map_range, Finset.sum_range, Finset.mul_sum]
  apply Finset.sum_congr rfl; intro i _
  rw [sum_map_flatMap, sum_map_range, Finset.sum_range, Finset.mul_sum]
  apply Finset.sum_congr rfl; intro j _
  have hkeep : keepElem A i j = true ↔ (i ≠ j ∧ |A i j| > 1 / 10 ^ 7) := by
    unfold keepElem
    rw [Bool.and_eq_true, decide_eq_true_iff, decide_eq_true_iff]
    simp [Fin.ext_iff]
  by_cases hk1 : i ≠ j ∧ |A i j| > 1 / 10 ^ 7
  · rw [if_pos (hkeep.mpr hk1), offdiag, if_pos hk1, sum_map_flatMap, ← mul_assoc, ← List.sum_map_mul_left]
    congr 1
    apply List.map_congr_left
    intro sg hsg
    rw [hQ i j sg hsg]
    cases ho : ops i j sg with
    | none => simp
    | some r =>
      have hr := hops i j sg r hsg ho
      have hrm : r.2 ∈ L := (hL.mem _).mpr hr
      simp only [Option.elim, List.map_cons, List.map_nil, List.sum_cons, List.sum_nil, add_zero]
      rw [binsearch_idxOf hL bj hrm]
      have e : ((L.idxOf r.2 : ℤ) = (k : ℤ)) ↔ occF (n + n) L[k] = occF (n + n) r.2 := by
        rw [Nat.cast_inj, idxOf_eq_iff hL.nodup hrm hk]
        exact ⟨fun h => by rw [h], fun h => (occF_inj hkS.1 hr.1 h).symm⟩
      by_cases he : occF (n + n) L[k] = occF (n + n) r.2
      · rw [if_pos (e.mpr he), if_pos he]; ring
      · rw [if_neg (fun h => he (e.mp h)), if_neg he]; ring
  · rw [if_neg (fun h => hk1 (hkeep.mp h)), offdiag, if_neg hk1]; simp

/-- Spin index 0/1 as `Bool`. -/
def spinB (k : ℕ) : Bool := decide (k = 1)

theorem orb_val {n : ℕ} (i : Fin n) (k : ℕ) (hk : k = 0 ∨ k = 1) : ((orb (spinB k) i : Fin (n + n)) : ℕ) = i + k * n := by
  rcases hk with rfl | rfl
  · simp [orb, spinB]
  · simp [orb, spinB]

theorem sum_nx {n N : ℕ} (hn : n + n ≤ 32) {L : List ℕ} (hL : SectorList (n + n) N L) (bj : ℕ) (A : ℕ → ℕ → K) {s : ℕ}
    (hs : s ∈ L) (k : ℕ) (hk : k < L.length) :
    ((nElems bj n L (xOps n s) [(0, 0), (0, 1), (1, 0), (1, 1)] A).map fun x => if x.2 = (k : ℤ) then x.1 else 0).sum =
      spinExchange (offdiag (n := n) A) (occF (n + n) L[k]) (occF (n + n) s) := by
  have hsS := (hL.mem s).mp hs
  have hx : ∀ (i j : Fin n) (sg : ℕ × ℕ), sg ∈ [(0, 0), (0, 1), (1, 0), (1, 1)] → xOps n s i j sg =
      fourOps s (orb (spinB sg.1) j : Fin (n + n)) (orb (spinB sg.2) i : Fin (n + n)) (orb (spinB sg.2) j : Fin (n + n))
        (orb (spinB sg.1) i : Fin (n + n)) (n + n) := by
    intro i j sg hsg
    have h1 : sg.1 = 0 ∨ sg.1 = 1 := by simp at hsg; rcases hsg with h | h | h | h <;> simp [h]
    have h2 : sg.2 = 0 ∨ sg.2 = 1 := by simp at hsg; rcases hsg with h | h | h | h <;> simp [h]
    rw [orb_val _ _ h1, orb_val _ _ h2, orb_val _ _ h1, orb_val _ _ h2, xOps, two_mul]
  rw [sum_nElems hn hL bj A (xOps n s) _ (fun i j sg => cre K (orb (spinB sg.1) i) * cre K (orb (spinB sg.2) j) *
    ann K (orb (spinB sg.2) i) * ann K (orb (spinB sg.1) j)) s (by
      intro i j sg r hsg h
      rw [hx i j sg hsg] at h
      exact fourOps_ok hn _ _ _ _ hsS h) (by
      intro i j sg hsg T
      rw [hx i j sg hsg]
      exact fourOps_spec hn _ _ _ _ hsS T) k hk]
  rw [spinExchange, Matrix.smul_apply, Matrix.sum_apply, smul_eq_mul]
  congr 1
  apply Finset.sum_congr rfl; intro i _
  rw [Matrix.sum_apply]
  apply Finset.sum_congr rfl; intro j _
  rw [Matrix.smul_apply, smul_eq_mul]
  congr 1
  simp only [Fintype.sum_bool, Matrix.add_apply, spinB, List.map_cons, List.map_nil, List.sum_cons, List.sum_nil]
  simp only [zero_ne_one, decide_false, decide_true]
  ring

theorem sum_np {n N : ℕ} (hn : n + n ≤ 32) {L : List ℕ} (hL : SectorList (n + n) N L) (bj : ℕ) (A : ℕ → ℕ → K) {s : ℕ}
    (hs : s ∈ L) (k : ℕ) (hk : k < L.length) :
    ((nElems bj n L (pOps n s) [(0, 1), (1, 0)] A).map fun x => if x.2 = (k : ℤ) then x.1 else 0).sum =
      pairHopping (offdiag (n := n) A) (occF (n + n) L[k]) (occF (n + n) s) := by
  have hsS := (hL.mem s).mp hs
  have hx : ∀ (i j : Fin n) (sg : ℕ × ℕ), sg ∈ [(0, 1), (1, 0)] → pOps n s i j sg =
      fourOps s (orb (spinB sg.1) j : Fin (n + n)) (orb (spinB sg.2) j : Fin (n + n)) (orb (spinB sg.2) i : Fin (n + n))
        (orb (spinB sg.1) i : Fin (n + n)) (n + n) := by
    intro i j sg hsg
    have h1 : sg.1 = 0 ∨ sg.1 = 1 := by simp at hsg; rcases hsg with h | h <;> simp [h]
    have h2 : sg.2 = 0 ∨ sg.2 = 1 := by simp at hsg; rcases hsg with h | h <;> simp [h]
    rw [orb_val _ _ h1, orb_val _ _ h2, orb_val _ _ h1, orb_val _ _ h2, pOps, two_mul]
  rw [sum_nElems hn hL bj A (pOps n s) _ (fun i j sg => cre K (orb (spinB sg.1) i) * cre K (orb (spinB sg.2) i) *
    ann K (orb (spinB sg.2) j) * ann K (orb (spinB sg.1) j)) s (by
      intro i j sg r hsg h
      rw [hx i j sg hsg] at h
      exact fourOps_ok hn _ _ _ _ hsS h) (by
      intro i j sg hsg T
      rw [hx i j sg hsg]
      exact fourOps_spec hn _ _ _ _ hsS T) k hk]
  rw [pairHopping, Matrix.smul_apply, Matrix.sum_apply, smul_eq_mul]
  congr 1
  apply Finset.sum_congr rfl; intro i _
  rw [Matrix.sum_apply]
  apply Finset.sum_congr rfl; intro j _
  rw [Matrix.smul_apply, smul_eq_mul]
  congr 1
  simp only [Fintype.sum_bool, Matrix.add_apply, spinB, List.map_cons, List.map_nil, List.sum_cons, List.sum_nil]
  simp only [zero_ne_one, decide_false, decide_true, Bool.not_true, Bool.not_false]
  ring

end Edpyt
