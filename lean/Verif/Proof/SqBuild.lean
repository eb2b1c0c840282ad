import Verif.Props.Project
import Verif.Proof.Rates
/-!
The dictionary built by `build_transition_elements` of sequential tunnelling.
-/
namespace Edpyt

/-! ### Dictionaries -/

theorem dictGet_eq_ok {α β : Type} [DecidableEq α] {es : List (α × β)} {q : α} {s : β} :
    dictGet es q = .ok s ↔ es.find? (fun p => decide (p.1 = q)) = some (q, s) := by
  unfold dictGet
  cases h : es.find? (fun p => decide (p.1 = q)) with
  | none => simp
  | some p =>
    have := List.find?_some h
    simp only [decide_eq_true_eq] at this
    subst this
    simp [Prod.ext_iff]

theorem dictGet_nil {α β : Type} [DecidableEq α] (q : α) : dictGet ([] : List (α × β)) q = .error .keyError := rfl

theorem dictGet_cons {α β : Type} [DecidableEq α] (p : α × β) (es : List (α × β)) (q : α) :
    dictGet (p :: es) q = if p.1 = q then .ok p.2 else dictGet es q := by
  unfold dictGet
  rw [List.find?_cons]
  by_cases h : p.1 = q <;> simp [h]

theorem dictGet_append_not_mem {α β : Type} [DecidableEq α] {es : List (α × β)} {q : α} (h : q ∉ es.map Prod.fst) (s : β) (k : α) :
    dictGet (es ++ [(q, s)]) k = if q = k then .ok s else dictGet es k := by
  induction es with
  | nil => rw [List.nil_append, dictGet_cons]
  | cons p es ih =>
    rw [List.cons_append, dictGet_cons, dictGet_cons, ih (fun h' => h (by simp [List.mem_map] at h' ⊢; exact .inr h'))]
    by_cases h1 : p.1 = k
    · have : q ≠ k := by rintro rfl; exact h (by simp [← h1])
      simp [h1, this]
    · simp [h1]

theorem dictGet_replace {α β : Type} [DecidableEq α] (es : List (α × β)) {q : α} (h : q ∈ es.map Prod.fst) (s : β) (k : α) :
    dictGet (es.map fun p => if p.1 = q then (q, s) else p) k = if q = k then .ok s else dictGet es k := by
  induction es with
  | nil => simp at h
  | cons p es ih =>
    rw [List.map_cons, dictGet_cons, dictGet_cons]
    by_cases h1 : p.1 = q
    · subst h1
      rw [if_pos rfl]
      by_cases h2 : p.1 = k
      · simp [h2]
      · rw [if_neg h2, if_neg h2, if_neg h2]
        by_cases h3 : p.1 ∈ es.map Prod.fst
        · rw [ih h3, if_neg h2]
        · congr 1
          conv_rhs => rw [← List.map_id es]
          refine List.map_congr_left fun x hx => ?_
          rw [if_neg]
          · rfl
          · intro h4; exact h3 (List.mem_map.mpr ⟨x, hx, h4⟩)
    · rw [if_neg h1]
      have h3 : q ∈ es.map Prod.fst := by
        rcases List.mem_map.mp h with ⟨x, hx, rfl⟩
        rcases List.mem_cons.mp hx with rfl | hx
        · exact absurd rfl h1
        · exact List.mem_map.mpr ⟨x, hx, rfl⟩
      rw [ih h3]
      by_cases h2 : p.1 = k
      · subst h2; simp [Ne.symm h1]
      · simp [h2]

theorem dictGet_dictSet {α β : Type} [DecidableEq α] (es : List (α × β)) (q : α) (s : β) (k : α) :
    dictGet (dictSet es q s) k = if q = k then .ok s else dictGet es k := by
  unfold dictSet
  split
  · rename_i h; exact dictGet_replace es h s k
  · rename_i h; exact dictGet_append_not_mem h s k

/-- Inserting elements that are determined by their keys. -/
theorem dictGet_insertAll (L : List GfT) (hL : ∀ g ∈ L, ∀ g' ∈ L, (g.idF, g.idI) = (g'.idF, g'.idI) → g = g') (k : TId × TId) (g : GfT) :
    dictGet (insertAll [] L) k = .ok g ↔ g ∈ L ∧ (g.idF, g.idI) = k := by
  induction L using List.reverseRecOn with
  | nil => simp [insertAll, dictGet_nil]
  | append_singleton L a ih =>
    have ih' := ih fun g hg g' hg' => hL g (by simp [hg]) g' (by simp [hg'])
    rw [insertAll, List.foldl_append, List.foldl_cons, List.foldl_nil, dictGet_dictSet]
    rw [insertAll] at ih'
    by_cases h : (a.idF, a.idI) = k
    · rw [if_pos h]
      constructor
      · intro h'
        obtain rfl := Except.ok.inj h'
        exact ⟨by simp, h⟩
      · rintro ⟨h1, h2⟩
        rw [hL g h1 a (by simp) (h2.trans h.symm)]
    · rw [if_neg h, ih']
      constructor
      · rintro ⟨h1, h2⟩; exact ⟨by simp [h1], h2⟩
      · rintro ⟨h1, h2⟩
        rcases List.mem_append.mp h1 with h1 | h1
        · exact ⟨h1, h2⟩
        · rw [List.mem_singleton] at h1
          subst h1
          exact absurd h2 h

/-! ### The projections of one sector pair -/

/-- The sectors of the dictionary are well formed. -/
def SectorsOk (n : ℕ) (es : Espace (ℕ × ℕ)) : Prop := ∀ q s, dictGet es q = .ok s → q.1 ≤ n ∧ q.2 ≤ n ∧ ∃ up dw, SctOk n q.1 q.2 s up dw

/-- `ispin` of a spin. -/
def ispinOf (σ : Bool) : ℤ := if σ then 1 else 0
/-- Sector with one more electron. -/
def addSpin (σ : Bool) (a b : ℕ) : ℕ × ℕ := if σ then (a, b + 1) else (a + 1, b)

theorem projectAll_ok {junk : ℕ} {ispin : ℤ} {n : ℕ} {op : Ladder} {I J : Sct} (f : ℕ → ℕ → ℕ → ℝ)
    (h : ∀ i < n, projectSpin junk ispin i n op I J = .ok (f i)) : projectAll junk ispin n op I J = .ok ((List.range n).map f) := by
  unfold projectAll
  rw [forM'_ok _ (fun acc i => acc ++ [f i]) _ _ (fun st x hx => by rw [h x (List.mem_range.mp hx)]; rfl)]
  congr 1
  clear h
  induction n with
  | zero => rfl
  | succ n ih =>
    rw [List.range_succ, List.foldl_append, ih]
    simp

theorem projectAll_pair {n : ℕ} (hn : n ≤ 32) (junk : ℕ) {es : Espace (ℕ × ℕ)} (hes : SectorsOk n es) (σ : Bool) {a b : ℕ} {I J : Sct}
    (hI : dictGet es (a, b) = .ok I) (hJ : dictGet es (addSpin σ a b) = .ok J) :
    ∃ vs ws, projectAll junk (ispinOf σ) n .cdg I J = .ok vs ∧ projectAll junk (ispinOf σ) n .c J I = .ok ws ∧
      ∀ j k, j < J.eigvals.length → k < I.eigvals.length → vs.map (fun M => M j k) = ws.map fun M => M k j := by
  obtain ⟨-, -, upI, dwI, okI⟩ := hes _ _ hI
  obtain ⟨-, -, upJ, dwJ, okJ⟩ := hes _ _ hJ
  have key : ∀ i, ∃ A B, i < n → projectSpin junk (ispinOf σ) i n .cdg I J = .ok A ∧ projectSpin junk (ispinOf σ) i n .c J I = .ok B ∧
      ∀ j k, j < J.eigvals.length → k < I.eigvals.length → A j k = B k j := by
    intro i
    by_cases hi : i < n
    · cases σ
      · obtain ⟨A, B, h1, h2, h3⟩ := C34_adjoint_up (junk := junk) hn hi okI okJ
        exact ⟨A, B, fun _ => ⟨h1, h2, h3⟩⟩
      · obtain ⟨A, B, h1, h2, h3⟩ := C34_adjoint_dw (junk := junk) hn hi okI okJ
        exact ⟨A, B, fun _ => ⟨h1, h2, h3⟩⟩
    · exact ⟨fun _ _ => 0, fun _ _ => 0, fun h => absurd h hi⟩
  choose A B h using key
  refine ⟨_, _, projectAll_ok A fun i hi => (h i hi).1, projectAll_ok B fun i hi => (h i hi).2.1, fun j k hj hk => ?_⟩
  rw [List.map_map, List.map_map]
  exact List.map_congr_left fun i hi => (h i (List.mem_range.mp hi)).2.2 j k hj hk

/-- A pair as integers. -/
def zp (q : ℕ × ℕ) : ℤ × ℤ := ((q.1 : ℤ), (q.2 : ℤ))

theorem espaceGet_zp (es : Espace (ℕ × ℕ)) (q : ℕ × ℕ) : espaceGet es (zp q) = dictGet es q := by
  simp [espaceGet, zp]

theorem project_pair {n : ℕ} (hn : n ≤ 32) (junk : ℕ) {es : Espace (ℕ × ℕ)} (hes : SectorsOk n es) (σ : Bool) {a b : ℕ} {I J : Sct}
    (hI : dictGet es (a, b) = .ok I) (hJ : dictGet es (addSpin σ a b) = .ok J) :
    ∃ vs ws, sqProjectAdd junk (ispinOf σ) n (zp (a, b)) es = .ok (transitionList true (zp (addSpin σ a b)) (zp (a, b)) vs I J) ∧
      sqProjectSub junk (ispinOf σ) n (zp (addSpin σ a b)) es = .ok (transitionList false (zp (a, b)) (zp (addSpin σ a b)) ws J I) ∧
      ∀ j k, j < J.eigvals.length → k < I.eigvals.length → vs.map (fun M => M j k) = ws.map fun M => M k j := by
  obtain ⟨vs, ws, h1, h2, h3⟩ := projectAll_pair hn junk hes σ hI hJ
  have hJn := hes _ _ hJ
  refine ⟨vs, ws, ?_, ?_, h3⟩
  · have : getCdgSector n (zp (a, b)).1 (zp (a, b)).2 (ispinOf σ) = .ok (zp (addSpin σ a b)) := by
      change getCdgSector n (a : ℤ) (b : ℤ) (ispinOf σ) = _
      cases σ
      · simp only [addSpin, Bool.false_eq_true, if_false] at hJn
        change getCdgSector n (a : ℤ) (b : ℤ) 0 = .ok (((a + 1 : ℕ) : ℤ), (b : ℤ))
        have : ¬ ((a : ℤ) + 1 > n) := by omega
        simp [getCdgSector, this]
      · simp only [addSpin, if_true] at hJn
        change getCdgSector n (a : ℤ) (b : ℤ) 1 = .ok ((a : ℤ), ((b + 1 : ℕ) : ℤ))
        have : ¬ ((b : ℤ) + 1 > n) := by omega
        simp [getCdgSector, this]
    simp only [sqProjectAdd, this, espaceGet_zp, hI, hJ, h1, bind, Except.bind, pure, Except.pure]
  · have : getCSector (zp (addSpin σ a b)).1 (zp (addSpin σ a b)).2 (ispinOf σ) = .ok (zp (a, b)) := by
      cases σ
      · change getCSector ((a + 1 : ℕ) : ℤ) (b : ℤ) 0 = .ok ((a : ℤ), (b : ℤ))
        have : ¬ ((a : ℤ) < 0) := by omega
        simp [getCSector, this]
      · change getCSector (a : ℤ) ((b + 1 : ℕ) : ℤ) 1 = .ok ((a : ℤ), (b : ℤ))
        have : ¬ ((b : ℤ) < 0) := by omega
        simp [getCSector, this]
    simp only [sqProjectSub, this, espaceGet_zp, hI, hJ, h2, bind, Except.bind, pure, Except.pure]

/-! ### The loops -/

theorem allDns_eq : allDns = [(-1, 0), (0, -1), (1, 0), (0, 1)] := by decide

/-- What the body of the loop of `project_sector` computes for one change of the numbers. -/
noncomputable def sqOne (junk n : ℕ) (es : Espace (ℕ × ℕ)) (q d : ℤ × ℤ) : Except PyErr (List GfT) :=
  if d = (1, 0) then sqProjectAdd junk 0 n q es else if d = (0, 1) then sqProjectAdd junk 1 n q es
  else if d = (-1, 0) then sqProjectSub junk 0 n q es else sqProjectSub junk 1 n q es

theorem sqProjectStep_ok {junk n : ℕ} {es : Espace (ℕ × ℕ)} {q d : ℤ × ℤ} (hd : d ∈ allDns) {l : List GfT} (h : sqOne junk n es q d = .ok l)
    (gd : GfDict) : sqProjectStep junk n q es gd d = .ok (insertAll gd l) := by
  rw [allDns_eq] at hd
  simp only [List.mem_cons, List.not_mem_nil, or_false] at hd
  unfold sqProjectStep
  rcases hd with rfl | rfl | rfl | rfl
  · rw [show getdns (-1, 0) = .ok (-1, 1) by decide]
    change sqProjectSub junk 0 n q es = .ok l at h
    simp only [bind, Except.bind, show ((-1 : ℤ) + 1).fdiv 2 = 0 by decide]
    rw [if_neg (by decide), h]; rfl
  · rw [show getdns (0, -1) = .ok (-1, -1) by decide]
    change sqProjectSub junk 1 n q es = .ok l at h
    simp only [bind, Except.bind, show (-(-1 : ℤ) + 1).fdiv 2 = 1 by decide]
    rw [if_neg (by decide), h]; rfl
  · rw [show getdns (1, 0) = .ok (1, 1) by decide]
    change sqProjectAdd junk 0 n q es = .ok l at h
    simp only [bind, Except.bind, show ((-1 : ℤ) + 1).fdiv 2 = 0 by decide]
    rw [if_pos (by decide), h]; rfl
  · rw [show getdns (0, 1) = .ok (1, -1) by decide]
    change sqProjectAdd junk 1 n q es = .ok l at h
    simp only [bind, Except.bind, show (-(-1 : ℤ) + 1).fdiv 2 = 1 by decide]
    rw [if_pos (by decide), h]; rfl

/-- Energy of an eigenstate. -/
noncomputable def idEnergy (es : Espace (ℕ × ℕ)) (id : TId) : ℝ :=
  match espaceGet es (id.1, id.2.1) with
  | .ok s => s.eigvals[id.2.2]?.getD 0
  | .error _ => 0

theorem mem_transitionList {el : Bool} {qJ qI : ℤ × ℤ} {vs : List (ℕ → ℕ → ℝ)} {I J : Sct} {g : GfT} :
    g ∈ transitionList el qJ qI vs I J ↔ ∃ j i, j < J.eigvals.length ∧ i < I.eigvals.length ∧
      g = ⟨el, (qJ.1, qJ.2, j), (qI.1, qI.2, i), vs.map fun M => M j i,
        if el then J.eigvals[j]?.getD 0 - I.eigvals[i]?.getD 0 else -(J.eigvals[j]?.getD 0) + I.eigvals[i]?.getD 0⟩ := by
  unfold transitionList ndindex2
  simp only [List.mem_map, List.mem_flatMap, List.mem_range, Prod.exists]
  constructor
  · rintro ⟨a, b, ⟨x, hx, y, hy, h⟩, rfl⟩
    obtain ⟨rfl, rfl⟩ := Prod.mk.inj h
    exact ⟨x, y, hx, hy, rfl⟩
  · rintro ⟨j, i, hj, hi, rfl⟩
    exact ⟨j, i, ⟨j, hj, i, hi, rfl⟩, rfl⟩

/-- `g'` is the conjugate of `g`. -/
structure ConjOf (En : TId → ℝ) (g g' : GfT) : Prop where
  idF : g'.idF = g.idI
  idI : g'.idI = g.idF
  v : g'.v = g.v
  E : g'.E = g.E
  el : g'.el = !g.el
  add : g.el = true → g.E = En g.idF - En g.idI ∧ g.idF.1 + g.idF.2.1 = g.idI.1 + g.idI.2.1 + 1
  sub : g.el = false → g.E = En g.idI - En g.idF ∧ g.idI.1 + g.idI.2.1 = g.idF.1 + g.idF.2.1 + 1

theorem addSpin_num (σ : Bool) (a b : ℕ) : (zp (addSpin σ a b)).1 + (zp (addSpin σ a b)).2 = (zp (a, b)).1 + (zp (a, b)).2 + 1 := by
  cases σ <;> simp [zp, addSpin] <;> ring

theorem conj_add {n : ℕ} (hn : n ≤ 32) (junk : ℕ) {es : Espace (ℕ × ℕ)} (hes : SectorsOk n es) (σ : Bool) {a b : ℕ} {I J : Sct}
    (hI : dictGet es (a, b) = .ok I) (hJ : dictGet es (addSpin σ a b) = .ok J) :
    ∃ l l', sqProjectAdd junk (ispinOf σ) n (zp (a, b)) es = .ok l ∧ sqProjectSub junk (ispinOf σ) n (zp (addSpin σ a b)) es = .ok l' ∧
      (∀ g ∈ l, (g.idI.1, g.idI.2.1) = zp (a, b) ∧ (g.idF.1, g.idF.2.1) = zp (addSpin σ a b)) ∧
      (∀ g ∈ l', (g.idF.1, g.idF.2.1) = zp (a, b) ∧ (g.idI.1, g.idI.2.1) = zp (addSpin σ a b)) ∧
      (∀ g ∈ l, ∀ g' ∈ l, (g.idF, g.idI) = (g'.idF, g'.idI) → g = g') ∧ (∀ g ∈ l', ∀ g' ∈ l', (g.idF, g.idI) = (g'.idF, g'.idI) → g = g') ∧
      (∀ g ∈ l, ∃ g' ∈ l', ConjOf (idEnergy es) g g') ∧ (∀ g ∈ l', ∃ g' ∈ l, ConjOf (idEnergy es) g g') := by
  obtain ⟨vs, ws, h1, h2, h3⟩ := project_pair hn junk hes σ hI hJ
  have eI : ∀ i, idEnergy es ((zp (a, b)).1, (zp (a, b)).2, i) = I.eigvals[i]?.getD 0 := by
    intro i; simp only [idEnergy]; rw [show ((zp (a, b)).1, (zp (a, b)).2) = zp (a, b) from rfl, espaceGet_zp, hI]
  have eJ : ∀ i, idEnergy es ((zp (addSpin σ a b)).1, (zp (addSpin σ a b)).2, i) = J.eigvals[i]?.getD 0 := by
    intro i; simp only [idEnergy]; rw [show ((zp (addSpin σ a b)).1, (zp (addSpin σ a b)).2) = zp (addSpin σ a b) from rfl, espaceGet_zp, hJ]
  refine ⟨_, _, h1, h2, ?_, ?_, ?_, ?_, ?_, ?_⟩
  · intro g hg; obtain ⟨j, i, hj, hi, rfl⟩ := mem_transitionList.mp hg; exact ⟨rfl, rfl⟩
  · intro g hg; obtain ⟨j, i, hj, hi, rfl⟩ := mem_transitionList.mp hg; exact ⟨rfl, rfl⟩
  · intro g hg g' hg' he
    obtain ⟨j, i, hj, hi, rfl⟩ := mem_transitionList.mp hg
    obtain ⟨j', i', hj', hi', rfl⟩ := mem_transitionList.mp hg'
    simp only [Prod.mk.injEq, true_and] at he
    obtain ⟨rfl, rfl⟩ := he
    rfl
  · intro g hg g' hg' he
    obtain ⟨j, i, hj, hi, rfl⟩ := mem_transitionList.mp hg
    obtain ⟨j', i', hj', hi', rfl⟩ := mem_transitionList.mp hg'
    simp only [Prod.mk.injEq, true_and] at he
    obtain ⟨rfl, rfl⟩ := he
    rfl
  · intro g hg
    obtain ⟨j, i, hj, hi, rfl⟩ := mem_transitionList.mp hg
    refine ⟨_, mem_transitionList.mpr ⟨i, j, hi, hj, rfl⟩, ⟨rfl, rfl, (h3 j i hj hi).symm, ?_, rfl, fun _ => ⟨?_, ?_⟩, fun h => by simp at h⟩⟩
    · simp; ring
    · simp [eI, eJ]
    · exact addSpin_num σ a b
  · intro g hg
    obtain ⟨i, j, hi, hj, rfl⟩ := mem_transitionList.mp hg
    refine ⟨_, mem_transitionList.mpr ⟨j, i, hj, hi, rfl⟩, ⟨rfl, rfl, h3 j i hj hi, ?_, rfl, fun h => by simp at h, fun _ => ⟨?_, ?_⟩⟩⟩
    · simp; ring
    · simp [eI, eJ]; ring
    · exact addSpin_num σ a b

/-- Every active sector is in the dictionary. -/
def ActiveIn (es : Espace (ℕ × ℕ)) (act : List (ℤ × ℤ)) : Prop := ∀ q ∈ act, ∃ q' s, q = zp q' ∧ dictGet es q' = .ok s

theorem one_conj {n : ℕ} (hn : n ≤ 32) (junk : ℕ) {es : Espace (ℕ × ℕ)} (hes : SectorsOk n es) {act : List (ℤ × ℤ)} (hact : ActiveIn es act)
    {q d : ℤ × ℤ} (hq : q ∈ act) (hd : d ∈ allDns) (hqd : (q.1 + d.1, q.2 + d.2) ∈ act) :
    ∃ l l', sqOne junk n es q d = .ok l ∧ (-d.1, -d.2) ∈ allDns ∧ sqOne junk n es (q.1 + d.1, q.2 + d.2) (-d.1, -d.2) = .ok l' ∧
      (∀ g ∈ l, (g.idI.1, g.idI.2.1) = q ∧ (g.idF.1, g.idF.2.1) = (q.1 + d.1, q.2 + d.2)) ∧
      (∀ g ∈ l, ∀ g' ∈ l, (g.idF, g.idI) = (g'.idF, g'.idI) → g = g') ∧ (∀ g ∈ l, ∃ g' ∈ l', ConjOf (idEnergy es) g g') := by
  obtain ⟨⟨a, b⟩, I, rfl, hI⟩ := hact q hq
  obtain ⟨⟨a', b'⟩, J, hJe, hJ⟩ := hact _ hqd
  rw [allDns_eq] at hd ⊢
  simp only [List.mem_cons, List.not_mem_nil, or_false] at hd
  simp only [zp, Prod.mk.injEq] at hJe
  rcases hd with rfl | rfl | rfl | rfl
  · obtain rfl : a = a' + 1 := by omega
    obtain rfl : b = b' := by omega
    obtain ⟨l, l', h1, h2, h3, h4, h5, h6, h7, h8⟩ := conj_add hn junk hes false (a := a') (b := b) hJ hI
    refine ⟨l', l, h2, by decide, ?_, fun g hg => ?_, h6, h8⟩
    · rw [show (((zp (a' + 1, b)).1 + -1, (zp (a' + 1, b)).2 + 0) : ℤ × ℤ) = zp (a', b) by simp [zp]]; exact h1
    · rw [show (((zp (a' + 1, b)).1 + -1, (zp (a' + 1, b)).2 + 0) : ℤ × ℤ) = zp (a', b) by simp [zp]]; exact ⟨(h4 g hg).2, (h4 g hg).1⟩
  · obtain rfl : a = a' := by omega
    obtain rfl : b = b' + 1 := by omega
    obtain ⟨l, l', h1, h2, h3, h4, h5, h6, h7, h8⟩ := conj_add hn junk hes true (a := a) (b := b') hJ hI
    refine ⟨l', l, h2, by decide, ?_, fun g hg => ?_, h6, h8⟩
    · rw [show (((zp (a, b' + 1)).1 + 0, (zp (a, b' + 1)).2 + -1) : ℤ × ℤ) = zp (a, b') by simp [zp]]; exact h1
    · rw [show (((zp (a, b' + 1)).1 + 0, (zp (a, b' + 1)).2 + -1) : ℤ × ℤ) = zp (a, b') by simp [zp]]; exact ⟨(h4 g hg).2, (h4 g hg).1⟩
  · obtain rfl : a' = a + 1 := by omega
    obtain rfl : b' = b := by omega
    obtain ⟨l, l', h1, h2, h3, h4, h5, h6, h7, h8⟩ := conj_add hn junk hes false (a := a) (b := b') hI hJ
    have e : (((zp (a, b')).1 + 1, (zp (a, b')).2 + 0) : ℤ × ℤ) = zp (addSpin false a b') := by simp [zp, addSpin]
    refine ⟨l, l', h1, by decide, ?_, fun g hg => ?_, h5, h7⟩
    · rw [e]; exact h2
    · rw [e]; exact h3 g hg
  · obtain rfl : a' = a := by omega
    obtain rfl : b' = b + 1 := by omega
    obtain ⟨l, l', h1, h2, h3, h4, h5, h6, h7, h8⟩ := conj_add hn junk hes true (a := a') (b := b) hI hJ
    have e : (((zp (a', b)).1 + 0, (zp (a', b)).2 + 1) : ℤ × ℤ) = zp (addSpin true a' b) := by simp [zp, addSpin]
    refine ⟨l, l', h1, by decide, ?_, fun g hg => ?_, h5, h7⟩
    · rw [e]; exact h2
    · rw [e]; exact h3 g hg

/-- The list inserted for `q` and `d`. -/
noncomputable def oneList (junk n : ℕ) (es : Espace (ℕ × ℕ)) (q d : ℤ × ℤ) : List GfT :=
  match sqOne junk n es q d with
  | .ok l => l
  | .error _ => []

theorem oneList_eq {junk n : ℕ} {es : Espace (ℕ × ℕ)} {q d : ℤ × ℤ} {l : List GfT} (h : sqOne junk n es q d = .ok l) : oneList junk n es q d = l := by
  rw [oneList, h]

/-- The changes of the numbers that lead to an active sector. -/
def activeDns (act : List (ℤ × ℤ)) (q : ℤ × ℤ) : List (ℤ × ℤ) := allDns.filter fun d => decide ((q.1 + d.1, q.2 + d.2) ∈ act)

theorem insertAll_append (gd : GfDict) (l l' : List GfT) : insertAll gd (l ++ l') = insertAll (insertAll gd l) l' := by
  simp [insertAll]

theorem foldl_insertAll {α : Type} (f : α → List GfT) (xs : List α) (gd : GfDict) :
    xs.foldl (fun gd x => insertAll gd (f x)) gd = insertAll gd (xs.flatMap f) := by
  induction xs generalizing gd with
  | nil => rfl
  | cons x xs ih => rw [List.foldl_cons, ih, List.flatMap_cons, insertAll_append]

theorem mem_uniqueSorted {α : Type} [DecidableEq α] (le : α → α → Bool) (l : List α) (x : α) : x ∈ uniqueSorted le l ↔ x ∈ l := by
  unfold uniqueSorted
  rw [(List.mergeSort_perm _ _).mem_iff, List.mem_dedup]

/-- All elements in the order of insertion. -/
noncomputable def allElements (junk n : ℕ) (es : Espace (ℕ × ℕ)) (act : List (ℤ × ℤ)) : List GfT :=
  (uniqueSorted lePair act).flatMap fun q => (activeDns act q).flatMap fun d => oneList junk n es q d

theorem sqBuild_loop {n : ℕ} (hn : n ≤ 32) (junk : ℕ) {es : Espace (ℕ × ℕ)} (hes : SectorsOk n es) {act : List (ℤ × ℤ)} (hact : ActiveIn es act) :
    forM' (sqBuildStep junk n es act) (uniqueSorted lePair act) [] = .ok (insertAll [] (allElements junk n es act)) := by
  have h1 : ∀ gd, ∀ q ∈ uniqueSorted lePair act, sqBuildStep junk n es act gd q = .ok (insertAll gd ((activeDns act q).flatMap fun d => oneList junk n es q d)) := by
    intro gd q hq
    have hq' := (mem_uniqueSorted _ _ _).mp hq
    unfold sqBuildStep sqProjectSector
    rw [← foldl_insertAll]
    refine forM'_ok _ (fun gd d => insertAll gd (oneList junk n es q d)) _ _ fun gd d hd => ?_
    obtain ⟨hd1, hd2⟩ := List.mem_filter.mp hd
    obtain ⟨l, l', h, -⟩ := one_conj hn junk hes hact hq' hd1 (of_decide_eq_true hd2)
    rw [oneList_eq h]
    exact sqProjectStep_ok hd1 h gd
  rw [forM'_ok _ _ _ _ h1, foldl_insertAll]
  rfl

theorem mem_allElements {n : ℕ} {junk : ℕ} {es : Espace (ℕ × ℕ)} {act : List (ℤ × ℤ)} {g : GfT} :
    g ∈ allElements junk n es act ↔ ∃ q d, q ∈ act ∧ d ∈ allDns ∧ (q.1 + d.1, q.2 + d.2) ∈ act ∧ g ∈ oneList junk n es q d := by
  unfold allElements activeDns
  simp only [List.mem_flatMap, mem_uniqueSorted, List.mem_filter, decide_eq_true_eq]
  constructor
  · rintro ⟨q, hq, d, ⟨hd, hqd⟩, hg⟩; exact ⟨q, d, hq, hd, hqd, hg⟩
  · rintro ⟨q, d, hq, hd, hqd, hg⟩; exact ⟨q, hq, d, ⟨hd, hqd⟩, hg⟩

theorem allElements_inj {n : ℕ} (hn : n ≤ 32) (junk : ℕ) {es : Espace (ℕ × ℕ)} (hes : SectorsOk n es) {act : List (ℤ × ℤ)} (hact : ActiveIn es act) :
    ∀ g ∈ allElements junk n es act, ∀ g' ∈ allElements junk n es act, (g.idF, g.idI) = (g'.idF, g'.idI) → g = g' := by
  intro g hg g' hg' he
  obtain ⟨q, d, hq, hd, hqd, hm⟩ := mem_allElements.mp hg
  obtain ⟨q', d', hq', hd', hqd', hm'⟩ := mem_allElements.mp hg'
  obtain ⟨l, _, h1, _, _, h2, h3, _⟩ := one_conj hn junk hes hact hq hd hqd
  obtain ⟨l', _, h1', _, _, h2', h3', _⟩ := one_conj hn junk hes hact hq' hd' hqd'
  rw [oneList_eq h1] at hm
  rw [oneList_eq h1'] at hm'
  obtain ⟨heF, heI⟩ := Prod.mk.inj he
  obtain ⟨a1, a2⟩ := h2 g hm
  obtain ⟨b1, b2⟩ := h2' g' hm'
  rw [← heF] at b2
  rw [← heI] at b1
  have e1 : q = q' := a1.symm.trans b1
  subst e1
  have e2 := a2.symm.trans b2
  simp only [Prod.mk.injEq, add_right_inj] at e2
  have e3 : d = d' := Prod.ext e2.1 e2.2
  subst e3
  rw [h1] at h1'
  obtain rfl := Except.ok.inj h1'
  exact h3 g hm g' hm' he

theorem allElements_conj {n : ℕ} (hn : n ≤ 32) (junk : ℕ) {es : Espace (ℕ × ℕ)} (hes : SectorsOk n es) {act : List (ℤ × ℤ)} (hact : ActiveIn es act)
    {g : GfT} (hg : g ∈ allElements junk n es act) : ∃ g' ∈ allElements junk n es act, ConjOf (idEnergy es) g g' := by
  obtain ⟨q, d, hq, hd, hqd, hm⟩ := mem_allElements.mp hg
  obtain ⟨l, l', h1, hd', h1', _, _, h2⟩ := one_conj hn junk hes hact hq hd hqd
  rw [oneList_eq h1] at hm
  obtain ⟨g', hg', hc⟩ := h2 g hm
  refine ⟨g', mem_allElements.mpr ⟨_, _, hqd, hd', ?_, by rw [oneList_eq h1']; exact hg'⟩, hc⟩
  simpa using hq

end Edpyt
