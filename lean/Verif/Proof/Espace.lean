import Verif.Spec.Espace
/-!
Lemmas on `solve_sector` and `build_espace`.
-/
namespace Edpyt
open Spec

variable {a : HamArgs}

theorem IsSectorHam.agree {up dw : List ℕ} {D D' : Dense ℝ} (h : IsSectorHam a up dw D) (h' : IsSectorHam a up dw D') :
    D.size = D'.size ∧ ∀ i j, i < D.size → j < D.size → D.val i j = D'.val i j := by
  refine ⟨by rw [h.size, h'.size], ?_⟩
  intro i j hi hj
  rw [h.size, mul_comm] at hi hj
  obtain ⟨id, iu, hid, hiu, rfl⟩ := lt_mul_split hi
  obtain ⟨jd, ju, hjd, hju, rfl⟩ := lt_mul_split hj
  have sw : ∀ i d : ℕ, d * up.length + i = i + up.length * d := by intro i d; ring
  rw [sw, sw, h.val iu id ju jd hiu hid hju hjd, h'.val iu id ju jd hiu hid hju hjd]

/-- The operators of a valid sector. -/
theorem spinBuild_of_build (ha : a.Valid) {w p q : ℕ} (hw : a.n ≤ w) (hp : p ≤ a.n) (hq : q ≤ a.n) {up dw : List ℕ}
    (hup : generateStates w a.n (p : ℤ) = .ok up) (hdw : generateStates w a.n (q : ℤ) = .ok dw) {ops : List (Op ℝ)}
    (h : a.Build (.spin up dw) (.ok ops)) :
    SpinBuild w a.n p q up dw a.H (a.V.U.getD 0) a.V.Jx a.V.Jp a.z a.hf a.mu ops := by
  refine ⟨ha.two_le, ha.le, hw, hp, hq, hup, hdw, ?_⟩
  obtain ⟨jk, bj, h⟩ := h
  refine ⟨jk, bj, ?_⟩
  obtain ⟨U, hU⟩ := Option.isSome_iff_exists.mp ha.hU
  have hV : a.V = ⟨some U, a.V.Jx, a.V.Jp⟩ := by rw [← hU]
  rw [hV] at h
  rw [hU]
  exact h

theorem build_no_error (ha : a.Valid) {w p q : ℕ} (hw : a.n ≤ w) (hp : p ≤ a.n) (hq : q ≤ a.n) {up dw : List ℕ}
    (hup : generateStates w a.n (p : ℤ) = .ok up) (hdw : generateStates w a.n (q : ℤ) = .ok dw) {e : PyErr} :
    ¬ a.Build (.spin up dw) (.error e) := by
  rintro ⟨jk, bj, h⟩
  obtain ⟨U, hU⟩ := Option.isSome_iff_exists.mp ha.hU
  have hV : a.V = ⟨some U, a.V.Jx, a.V.Jp⟩ := by rw [← hU]
  simp only [BuildMbHam, hU] at h
  obtain ⟨diag, hl, h⟩ := h
  have hlen := (C18_local_energy a.n a.H U a.z a.hf a.mu up dw _ hl).1
  obtain ⟨diag', ops, e1, -⟩ := mbHamSpin_core ha.two_le ha.le hw hp hq hup hdw jk bj a.H a.V ha.hJ _ (by rw [hlen, mul_comm])
  rw [e1] at h
  cases h

theorem build_exists (ha : a.Valid) {w p q : ℕ} (hw : a.n ≤ w) (hp : p ≤ a.n) (hq : q ≤ a.n) {up dw : List ℕ}
    (hup : generateStates w a.n (p : ℤ) = .ok up) (hdw : generateStates w a.n (q : ℤ) = .ok dw) :
    ∃ ops, a.Build (.spin up dw) (.ok ops) := by
  obtain ⟨U, hU⟩ := Option.isSome_iff_exists.mp ha.hU
  have hV : a.V = ⟨some U, a.V.Jx, a.V.Jp⟩ := by rw [← hU]
  obtain ⟨ops, h⟩ := spinBuild_exists ha.two_le ha.le hw hp hq hup hdw a.H U a.V.Jx a.V.Jp ha.hJ a.z a.hf a.mu
  obtain ⟨jk, bj, hb⟩ := h.built
  refine ⟨ops, jk, bj, ?_⟩
  rw [hV]; exact hb

/-- The dense matrix of the operators. -/
theorem build_todense (ha : a.Valid) {w p q : ℕ} (hw : a.n ≤ w) (hp : p ≤ a.n) (hq : q ≤ a.n) {up dw : List ℕ}
    (hup : generateStates w a.n (p : ℤ) = .ok up) (hdw : generateStates w a.n (q : ℤ) = .ok dw) {ops : List (Op ℝ)}
    (h : a.Build (.spin up dw) (.ok ops)) :
    ∃ D, todense ops = .ok D ∧ IsSectorHam a up dw D := by
  obtain ⟨D, h1, h2, h3⟩ := C27_todense_with_exchange (spinBuild_of_build ha hw hp hq hup hdw h) ha.symmH ha.symmX ha.symmP
  exact ⟨D, h1, h2, h3⟩

theorem arpack_args_ok {d k : ℕ} (hd : 512 < d) (hk : 0 < k) (hkd : k < d) : ArpackArgsOk d k (arpackNcv d k) := by
  unfold ArpackArgsOk arpackNcv; omega

/-- Outcome of `solve_sector` for a valid sector. -/
theorem solveSector_spec (ha : a.Valid) {w p q : ℕ} (hw : a.n ≤ w) (hp : p ≤ a.n) (hq : q ≤ a.n) {up dw : List ℕ}
    (hup : generateStates w a.n (p : ℤ) = .ok up) (hdw : generateStates w a.n (q : ℤ) = .ok dw) {k : ℕ} (hk : 0 < k)
    {r : Except PyErr EigRes} (h : SolveSector a (.spin up dw) (up.length * dw.length) (some k) r) :
    (∃ w v, LowestPairs a up dw k w v ∧ r = .ok (w, v)) ∨
      (up.length * dw.length < k ∧ 512 < up.length * dw.length ∧ r = .error .runtimeError) := by
  simp only [SolveSector, Option.getD_some] at h
  by_cases hc : k = up.length * dw.length ∨ up.length * dw.length ≤ 512
  · rw [if_pos hc] at h
    left
    obtain ⟨r1, h1, rfl⟩ := h
    rcases h1 with ⟨e, he, -⟩ | ⟨ops, hb, h1⟩
    · exact absurd he (build_no_error ha hw hp hq hup hdw)
    · obtain ⟨D, hD, hDs⟩ := build_todense ha hw hp hq hup hdw hb
      rcases h1 with ⟨e, he, -⟩ | ⟨D', w', v', hD', hE, rfl⟩
      · rw [hD] at he; cases he
      · obtain rfl : D = D' := by rw [hD] at hD'; exact Except.ok.inj hD'
        refine ⟨_, _, ⟨D, w', v', hDs, hE, rfl, rfl⟩, ?_⟩
        simp only [Except.map, Except.ok.injEq]
        split_ifs with hlt
        · rfl
        · rw [List.take_of_length_le (by rw [hE.wlen, hDs.size]; omega), List.take_of_length_le (by rw [hE.vlen, hDs.size]; omega)]
  · rw [if_neg hc] at h
    rcases h with ⟨e, he, -⟩ | ⟨ops, hb, h1⟩
    · exact absurd he (build_no_error ha hw hp hq hup hdw)
    · rcases h1 with ⟨hbad, rfl⟩ | ⟨hok, D, w', v', hsz, hmv, hE, rfl⟩
      · right
        refine ⟨?_, by omega, rfl⟩
        by_contra hcon
        exact hbad (arpack_args_ok (by omega) hk (by omega))
      · left
        refine ⟨_, _, ⟨D, w', v', ?_, hE, rfl, rfl⟩, rfl⟩
        obtain ⟨D', hD', hDs⟩ := build_todense ha hw hp hq hup hdw hb
        obtain ⟨D2, g1, g2, g3⟩ := C24_matvec_eq_todense (spinBuild_of_build ha hw hp hq hup hdw hb)
        obtain rfl : D2 = D' := by rw [g1] at hD'; exact Except.ok.inj hD'
        have key : ∀ r c, r < up.length * dw.length → c < up.length * dw.length → D.val r c = D2.val r c := by
          intro r c hr hc'
          set N := up.length * dw.length with hN
          let e : List ℝ := (List.range N).map fun i => if i = c then 1 else 0
          have hel : e.length = N := by simp [e]
          have hget : ∀ x, x < N → e[x]?.getD 0 = if x = c then 1 else 0 := by
            intro x hx; simp [e, hx]
          have hsum : ∀ f : ℕ → ℝ, ∑ x ∈ Finset.range N, f x * (e[x]?.getD 0) = f c := by
            intro f
            rw [Finset.sum_eq_single c]
            · rw [hget c hc']; simp
            · intro b hb hne; rw [hget b (Finset.mem_range.mp hb), if_neg hne, mul_zero]
            · intro hn; exact absurd (Finset.mem_range.mpr hc') hn
          obtain ⟨res, hres⟩ := C24_matvec_exists ops e
          have e1 := hmv e res hel hres
          have e2 := (g3 e res (by rw [hel, g2]) hres).2 r (by rw [g2]; exact hr)
          rw [e1, g2] at e2
          simp only [List.getElem?_map, List.getElem?_range hr, Option.map_some, Option.some.injEq] at e2
          rw [hsum, hsum] at e2
          exact e2
        refine ⟨by rw [hsz], ?_⟩
        intro iu id ju jd hiu hid hju hjd
        have lt : ∀ i d, i < up.length → d < dw.length → i + up.length * d < up.length * dw.length := by
          intro i d hi hd
          calc i + up.length * d < up.length * (d + 1) := by rw [Nat.mul_succ]; omega
            _ ≤ up.length * dw.length := Nat.mul_le_mul_left _ hd
        rw [key _ _ (lt iu id hiu hid) (lt ju jd hju hjd)]
        exact hDs.val iu id ju jd hiu hid hju hjd

theorem isSectorHam_symm (ha : a.Valid) {w p q : ℕ} (hw : a.n ≤ w) (hp : p ≤ a.n) (hq : q ≤ a.n) {up dw : List ℕ}
    (hup : generateStates w a.n (p : ℤ) = .ok up) (hdw : generateStates w a.n (q : ℤ) = .ok dw) :
    ∃ D, IsSectorHam a up dw D ∧ ∀ i j, i < D.size → j < D.size → D.val i j = D.val j i := by
  obtain ⟨ops, hb⟩ := build_exists ha hw hp hq hup hdw
  obtain ⟨D, hD, hs⟩ := build_todense ha hw hp hq hup hdw hb
  obtain ⟨D2, g1, -, g3⟩ := C17_symmetric (spinBuild_of_build ha hw hp hq hup hdw hb) ha.symmH ha.symmX ha.symmP
  obtain rfl : D2 = D := by rw [g1] at hD; exact Except.ok.inj hD
  exact ⟨D2, hs, g3⟩

/-- `solve_sector` has a run. -/
theorem solveSector_exists (ha : a.Valid) {w p q : ℕ} (hw : a.n ≤ w) (hp : p ≤ a.n) (hq : q ≤ a.n) {up dw : List ℕ}
    (hup : generateStates w a.n (p : ℤ) = .ok up) (hdw : generateStates w a.n (q : ℤ) = .ok dw) (k : ℕ) :
    ∃ r, SolveSector a (.spin up dw) (up.length * dw.length) (some k) r := by
  obtain ⟨ops, hb⟩ := build_exists ha hw hp hq hup hdw
  obtain ⟨D, hD, hs⟩ := build_todense ha hw hp hq hup hdw hb
  obtain ⟨D2, g1, -, g3⟩ := C17_symmetric (spinBuild_of_build ha hw hp hq hup hdw hb) ha.symmH ha.symmX ha.symmP
  obtain rfl : D2 = D := by rw [g1] at hD; exact Except.ok.inj hD
  obtain ⟨w', v', hE⟩ := eigh_exists D2 g3
  simp only [SolveSector, Option.getD_some]
  by_cases hc : k = up.length * dw.length ∨ up.length * dw.length ≤ 512
  · simp only [if_pos hc]
    exact ⟨_, _, Or.inr ⟨ops, hb, Or.inr ⟨D2, w', v', hD, hE, rfl⟩⟩, rfl⟩
  · simp only [if_neg hc]
    by_cases hok : ArpackArgsOk (up.length * dw.length) k (arpackNcv (up.length * dw.length) k)
    · refine ⟨_, Or.inr ⟨ops, hb, Or.inr ⟨hok, D2, w', v', hs.size, ?_, hE, rfl⟩⟩⟩
      intro vec result hv hm
      obtain ⟨D3, e1, e2, e3⟩ := C24_matvec_eq_todense (spinBuild_of_build ha hw hp hq hup hdw hb)
      obtain rfl : D3 = D2 := by rw [e1] at hD; exact Except.ok.inj hD
      obtain ⟨f1, f2⟩ := e3 vec result (by rw [hv, e2]) hm
      apply List.ext_getElem?
      intro i
      by_cases hi : i < up.length * dw.length
      · rw [f2 i (by rw [e2]; exact hi)]
        simp [hi, e2]
      · rw [List.getElem?_eq_none (by rw [f1, e2]; omega), List.getElem?_eq_none (by simp; omega)]
    · exact ⟨_, Or.inr ⟨ops, hb, Or.inl ⟨hok, rfl⟩⟩⟩

/-! ### The sector iterators -/

theorem forM'_concat {α β : Type} (body : List β → α → Except PyErr (List β)) (f : α → List β) (xs : List α)
    (hb : ∀ acc, ∀ x ∈ xs, body acc x = .ok (acc ++ f x)) (acc : List β) :
    forM' body xs acc = .ok (acc ++ xs.flatMap f) := by
  induction xs generalizing acc with
  | nil => simp [forM']
  | cons x xs ih =>
    rw [forM', hb acc x (by simp)]
    simp only
    rw [ih (fun acc y hy => hb acc y (by simp [hy]))]
    simp

/-- The states of a spin sector. -/
def gs (w n p : ℕ) : List ℕ := match generateStates w n (p : ℤ) with
  | .ok l => l
  | .error _ => []

theorem generateStates_gs {w n p : ℕ} (hp : p ≤ n) : generateStates w n (p : ℤ) = .ok (gs w n p) := by
  have h : ¬ n.choose p = 0 := (Nat.choose_pos hp).ne'
  have hp0 : ¬ ((p : ℤ) < 0) := by omega
  unfold gs
  simp [generateStates, binom_natCast, h, hp0]

theorem permLoop_length (w k x : ℕ) : (permLoop w k x).length = k := by
  induction k generalizing x with
  | zero => rfl
  | succ k ih => simp [permLoop, ih]

theorem gs_length {w n p : ℕ} (hp : p ≤ n) : (gs w n p).length = n.choose p := by
  have h : 0 < n.choose p := Nat.choose_pos hp
  unfold gs
  simp only [generateStates, binom_natCast, h.ne']
  simp only [Int.natCast_nonneg, not_lt.mpr, if_false, List.length_cons, permLoop_length]
  omega

/-- The item yielded for the quantum numbers `q`. -/
def szItem (w n : ℕ) (q : ℕ × ℕ) : (ℕ × ℕ) × SectorStates × ℕ :=
  (q, .spin (gs w n q.1) (gs w n q.2), (gs w n q.1).length * (gs w n q.2).length)

theorem szIterSectors_eq (w n : ℕ) : szIterSectors w n = .ok ((ndindex2 (n + 1) (n + 1)).map (szItem w n)) := by
  unfold szIterSectors
  rw [forM'_concat _ (fun nup => (List.range (n + 1)).map fun ndw => szItem w n (nup, ndw))]
  · simp only [List.nil_append, Except.ok.injEq, ndindex2, List.map_flatMap, List.map_map, Function.comp_def]
  · intro acc nup hnup
    rw [generateStates_gs (by have := List.mem_range.mp hnup; omega)]
    simp only [bind, Except.bind]
    rw [forM'_concat _ (fun ndw => [szItem w n (nup, ndw)])]
    · rw [← List.map_eq_flatMap]
    · intro acc ndw hndw
      rw [generateStates_gs (by have := List.mem_range.mp hndw; omega)]
      rfl

theorem nodup_ndindex2 (a b : ℕ) : (ndindex2 a b).Nodup := by
  unfold ndindex2
  rw [List.nodup_flatMap]
  refine ⟨fun i _ => List.nodup_range.map fun x y h => by simpa using h, ?_⟩
  refine List.nodup_range.imp_of_mem ?_
  intro i j _ _ hij x hx hy
  simp only [List.mem_map] at hx hy
  obtain ⟨_, _, rfl⟩ := hx
  obtain ⟨_, _, h⟩ := hy
  exact hij (by simpa using (congrArg Prod.fst h).symm)

theorem mem_ndindex2 {a b : ℕ} {q : ℕ × ℕ} : q ∈ ndindex2 a b ↔ q.1 < a ∧ q.2 < b := by
  obtain ⟨x, y⟩ := q
  simp [ndindex2]

/-! ### The loop -/

/-- Minimum of all eigenvalues of a dictionary. -/
def minE {α : Type} : Espace α → WithTop ℝ
  | [] => ⊤
  | p :: es => min (eigMin p.2.eigvals) (minE es)

theorem minE_append {α : Type} (es fs : Espace α) : minE (es ++ fs) = min (minE es) (minE fs) := by
  induction es with
  | nil => simp [minE]
  | cons p es ih => simp [minE, ih, min_assoc]

theorem dictSet_new {α β : Type} [DecidableEq α] (es : List (α × β)) {q : α} (s : β) (h : q ∉ es.map Prod.fst) :
    dictSet es q s = es ++ [(q, s)] := by
  simp only [dictSet, if_neg h]

theorem eigMin_le {w : List ℝ} {x : ℝ} (h : x ∈ w) : eigMin w ≤ x := by
  induction w with
  | nil => simp at h
  | cons y ys ih =>
    rcases List.mem_cons.mp h with rfl | h
    · exact min_le_left _ _
    · exact (min_le_right _ _).trans (ih h)

theorem eigMin_mem {w : List ℝ} (h : w ≠ []) : ∃ x ∈ w, eigMin w = x := by
  induction w with
  | nil => exact absurd rfl h
  | cons y ys ih =>
    by_cases hy : ys = []
    · subst hy; exact ⟨y, by simp, by simp [eigMin]⟩
    · obtain ⟨x, hx, e⟩ := ih hy
      rcases min_choice (y : WithTop ℝ) (eigMin ys) with h1 | h1
      · exact ⟨y, by simp, h1⟩
      · exact ⟨x, by simp [hx], h1.trans e⟩

theorem minE_le {α : Type} {es : Espace α} {p : α × Sct} (hp : p ∈ es) {x : ℝ} (h : x ∈ p.2.eigvals) : minE es ≤ x := by
  induction es with
  | nil => simp at hp
  | cons y ys ih =>
    rcases List.mem_cons.mp hp with rfl | hp
    · exact (min_le_left _ _).trans (eigMin_le h)
    · exact (min_le_right _ _).trans (ih hp)

theorem minE_mem {α : Type} {es : Espace α} (h : es ≠ []) (hne : ∀ p ∈ es, p.2.eigvals ≠ []) :
    ∃ p ∈ es, ∃ x ∈ p.2.eigvals, minE es = x := by
  induction es with
  | nil => exact absurd rfl h
  | cons y ys ih =>
    obtain ⟨x, hx, e⟩ := eigMin_mem (hne y (by simp))
    by_cases hy : ys = []
    · subst hy; exact ⟨y, by simp, x, hx, by simp [minE, e]⟩
    · obtain ⟨p, hp, z, hz, e'⟩ := ih hy (fun p hp => hne p (by simp [hp]))
      rcases min_choice (eigMin y.2.eigvals) (minE ys) with h1 | h1
      · exact ⟨y, by simp, x, hx, h1.trans e⟩
      · exact ⟨p, by simp [hp], z, hz, h1.trans e'⟩

/-- Successful runs of the loop. -/
theorem espaceLoop_ok {α : Type} [DecidableEq α] {idx : α → ℕ} {neig : List ℕ} {P : α → ℕ → List ℝ → List (ℕ → ℝ) → Prop}
    (xs : List (α × SectorStates × ℕ))
    (hP : ∀ x ∈ xs, ∀ k w v, 0 < k → SolveSector a x.2.1 x.2.2 (some k) (.ok (w, v)) → P x.1 k w v ∧ w ≠ [])
    (hnd : (xs.map Prod.fst).Nodup) (st res : Espace α × WithTop ℝ) (hdis : ∀ x ∈ xs, x.1 ∉ st.1.map Prod.fst)
    (h : ForR (EspaceStep a idx neig) xs st (.ok res)) :
    (∀ x ∈ xs, idx x.1 < neig.length) ∧ ∃ new : Espace α, res.1 = st.1 ++ new ∧ res.2 = min st.2 (minE new) ∧
      List.Forall₂ (fun x p => p.1 = x.1 ∧ p.2.states = x.2.1 ∧ p.2.d = x.2.2 ∧
        P x.1 (neig[idx x.1]?.getD 0) p.2.eigvals p.2.eigvecs ∧ p.2.eigvals ≠ [])
        (xs.filter fun x => decide (neig[idx x.1]?.getD 0 ≠ 0)) new := by
  induction xs generalizing st with
  | nil =>
    simp only [ForR, Except.ok.injEq] at h
    subst h
    exact ⟨by simp, [], by simp, by simp [minE], by simp⟩
  | cons x xs ih =>
    rcases h with ⟨st', h1, h2⟩ | ⟨e, -, h2⟩
    swap
    · cases h2
    have hlt : idx x.1 < neig.length := by
      by_contra hc
      simp only [EspaceStep, getItem_natCast_oob neig _ (not_lt.mp hc)] at h1
      cases h1
    simp only [EspaceStep, getItem_natCast neig _ hlt] at h1
    have hk : neig[idx x.1]?.getD 0 = neig[idx x.1] := by simp [hlt]
    rw [List.map_cons, List.nodup_cons] at hnd
    cases hn : neig[idx x.1] with
    | zero =>
      simp only [hn, Except.ok.injEq] at h1
      subst h1
      obtain ⟨g1, new, g2, g3, g4⟩ := ih (fun y hy => hP y (by simp [hy])) hnd.2 st' (fun y hy => hdis y (by simp [hy])) h2
      refine ⟨?_, new, g2, g3, ?_⟩
      · intro y hy
        rcases List.mem_cons.mp hy with rfl | hy
        · exact hlt
        · exact g1 y hy
      · rw [List.filter_cons_of_neg (by simp [hk, hn])]
        exact g4
    | succ k =>
      simp only [hn] at h1
      rcases h1 with ⟨e, -, h1⟩ | ⟨w, v, hs, h1⟩
      · cases h1
      obtain ⟨hPx, hw⟩ := hP x (by simp) (k + 1) w v (by omega) hs
      rw [if_neg (by simpa using hw), Except.ok.injEq, dictSet_new _ _ (hdis x (by simp))] at h1
      subst h1
      obtain ⟨g1, new, g2, g3, g4⟩ := ih (fun y hy => hP y (by simp [hy])) hnd.2 _ (by
        intro y hy
        simp only [List.map_append, List.map_cons, List.map_nil, List.mem_append, List.mem_singleton, not_or]
        refine ⟨hdis y (by simp [hy]), ?_⟩
        intro he
        exact hnd.1 (he ▸ List.mem_map_of_mem hy)) h2
      refine ⟨?_, (x.1, ⟨x.2.1, x.2.2, w, v⟩) :: new, by rw [g2]; simp, ?_, ?_⟩
      · intro y hy
        rcases List.mem_cons.mp hy with rfl | hy
        · exact hlt
        · exact g1 y hy
      · rw [g3]
        simp only [minE]
        rw [min_comm (eigMin w) st.2, min_assoc]
      · rw [List.filter_cons_of_pos (by simp [hk, hn])]
        refine List.Forall₂.cons ⟨rfl, rfl, rfl, ?_, hw⟩ g4
        rw [hk, hn]; exact hPx

/-- A loop whose steps never raise never raises, and has a run. -/
theorem espaceLoop_no_error {α : Type} [DecidableEq α] {idx : α → ℕ} {neig : List ℕ}
    (xs : List (α × SectorStates × ℕ)) (hidx : ∀ x ∈ xs, idx x.1 < neig.length)
    (hs : ∀ x ∈ xs, ∀ k, neig[idx x.1]? = some k → 0 < k → (∀ e, ¬ SolveSector a x.2.1 x.2.2 (some k) (.error e)) ∧
      ∃ r, SolveSector a x.2.1 x.2.2 (some k) r) (st : Espace α × WithTop ℝ) :
    (∀ r, ForR (EspaceStep a idx neig) xs st r → ∃ res, r = .ok res) ∧ ∃ res, ForR (EspaceStep a idx neig) xs st (.ok res) := by
  induction xs generalizing st with
  | nil => exact ⟨fun r hr => ⟨st, hr⟩, st, rfl⟩
  | cons x xs ih =>
    have hlt := hidx x (by simp)
    have ih' := fun st => ih (fun y hy => hidx y (by simp [hy])) (fun y hy => hs y (by simp [hy])) st
    have step : (∀ r, EspaceStep a idx neig st x r → ∃ st', r = .ok st') ∧ ∃ st', EspaceStep a idx neig st x (.ok st') := by
      simp only [EspaceStep, getItem_natCast neig _ hlt]
      cases hn : neig[idx x.1] with
      | zero => exact ⟨fun r hr => ⟨st, hr⟩, st, rfl⟩
      | succ k =>
        obtain ⟨s1, r, s2⟩ := hs x (by simp) (k + 1) (by rw [List.getElem?_eq_getElem hlt, hn]) (by omega)
        constructor
        · rintro r (⟨e, he, -⟩ | ⟨w, v, -, rfl⟩)
          · exact absurd he (s1 e)
          · exact ⟨_, rfl⟩
        · cases r with
          | error e => exact absurd s2 (s1 e)
          | ok wv => exact ⟨_, Or.inr ⟨wv.1, wv.2, s2, rfl⟩⟩
    constructor
    · rintro r (⟨st', -, h2⟩ | ⟨e, h1, -⟩)
      · exact (ih' st').1 r h2
      · obtain ⟨st', h⟩ := step.1 _ h1; cases h
    · obtain ⟨st', h1⟩ := step.2
      obtain ⟨res, h2⟩ := (ih' st').2
      exact ⟨res, Or.inl ⟨st', h1, h2⟩⟩

end Edpyt
