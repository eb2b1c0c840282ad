import Verif.Props.CoAmplitude
import Verif.Props.SqBuild
/-!
C144: the dictionary of cotunnelling elements.
-/
namespace Edpyt
open Spec Matrix

variable {n : ℕ} {es : Espace (ℕ × ℕ)}

/-! ### Specification -/

/-- A sector that holds a ground state: its lowest energy is `egs` up to `1e-9`. -/
def GroundSector (es : Espace (ℕ × ℕ)) (egs : ℝ) (q : ℕ × ℕ) : Prop :=
  ∃ e ∈ (sctAt es q).eigvals, (∀ e' ∈ (sctAt es q).eigvals, e ≤ e') ∧ |e - egs| < 1e-9

/-- A sector that differs from a ground state sector by at most one spin flip. -/
def CoReach (n : ℕ) (es : Espace (ℕ × ℕ)) (egs : ℝ) (q : ℕ × ℕ) : Prop :=
  q.1 ≤ n ∧ q.2 ≤ n ∧ ∃ g : ℕ × ℕ, g.1 ≤ n ∧ g.2 ≤ n ∧ GroundSector es egs g ∧ ∃ i j : Bool, shiftUp i q = shiftUp j g

/-- The pairs of spins `(i, j)` for which adding an electron of spin `j` and removing one of spin `i` leads from `q` to `qF`. -/
def coChannels (q qF : ℕ × ℕ) : List (Bool × Bool) :=
  [(false, false), (false, true), (true, false), (true, true)].filter fun ij => decide (shiftUp ij.1 qF = shiftUp ij.2 q)

/-- The label of the state `k` of the sector `q`. -/
def stId (q : ℕ × ℕ) (k : ℕ) : TId := ((q.1 : ℤ), (q.2 : ℤ), k)

/-- `s` is the element of the channel `(i, j)` from the state `k` of `q` to the state `f` of `qF`: it holds the difference of the energies, and calling it gives the square of the
second-order amplitude. -/
def IsCoElem (n : ℕ) (H : Matrix (Finset (Fin (n + n))) (Finset (Fin (n + n))) ℝ) (es : Espace (ℕ × ℕ)) (qF : ℕ × ℕ) (f : ℕ) (q : ℕ × ℕ) (k : ℕ) (ij : Bool × Bool) (s : CoSigma) : Prop :=
  s.gf2.dE = stateEnergy es qF f - stateEnergy es q k ∧
  ∀ (z : ℝ) (A : List (List ℝ)) (extract inject : ℕ) (a b : List ℝ), A[extract]? = some a → A[inject]? = some b → a.length = n → b.length = n →
    (∀ m, m < n.choose (shiftUp ij.2 q).1 * n.choose (shiftUp ij.2 q).2 → z + stateEnergy es q k ≠ stateEnergy es (shiftUp ij.2 q) m) →
    (∀ qJ, shiftUp ij.1 qJ = q → ∀ m, m < n.choose qJ.1 * n.choose qJ.2 → stateEnergy es q k - z ≠ stateEnergy es qJ m) →
    ∃ v, s.call z A extract inject = .ok (v ^ 2) ∧
      IsSecondOrder n H ij.1 ij.2 b a (stateEnergy es q k) z (stateKet n es qF f) (stateKet n es q k) v

/-! ### Ground state sectors -/

theorem foldl_min_spec (l : List ℝ) (e : ℝ) : l.foldl min e ∈ e :: l ∧ ∀ x ∈ e :: l, l.foldl min e ≤ x := by
  induction l generalizing e with
  | nil => simp
  | cons a l ih =>
    rw [List.foldl_cons]
    obtain ⟨h1, h2⟩ := ih (min e a)
    refine ⟨?_, fun x hx => ?_⟩
    · rcases List.mem_cons.mp h1 with h | h
      · rw [h]
        rcases min_choice e a with h' | h' <;> rw [h'] <;> simp
      · simp [h]
    · have h0 := h2 (min e a) (by simp)
      rcases List.mem_cons.mp hx with rfl | hx
      · exact h0.trans (min_le_left _ _)
      · rcases List.mem_cons.mp hx with rfl | hx
        · exact h0.trans (min_le_right _ _)
        · exact h2 x (by simp [hx])

theorem groundSectors_mem (hne : ∀ p ∈ es, p.2.eigvals ≠ []) (egs : ℝ) :
    ∃ ngs, groundSectors es egs = .ok ngs ∧ ∀ x, x ∈ ngs ↔ ∃ p ∈ es, x = zp p.1 ∧ ∃ e ∈ p.2.eigvals, (∀ e' ∈ p.2.eigvals, e ≤ e') ∧ |e - egs| < 1e-9 := by
  classical
  unfold groundSectors
  have key : ∀ (l : Espace (ℕ × ℕ)) (acc : List (ℤ × ℤ)), (∀ p ∈ l, p.2.eigvals ≠ []) →
      ∃ ngs, forM' (fun (acc : List (ℤ × ℤ)) (p : (ℕ × ℕ) × Sct) => (match p.2.eigvals with
        | [] => .error .valueError
        | e :: l => pure (if |l.foldl min e - egs| < 1e-9 then acc ++ [((p.1.1 : ℤ), (p.1.2 : ℤ))] else acc) : Except PyErr _)) l acc = .ok ngs ∧
        ∀ x, x ∈ ngs ↔ x ∈ acc ∨ ∃ p ∈ l, x = zp p.1 ∧ ∃ e ∈ p.2.eigvals, (∀ e' ∈ p.2.eigvals, e ≤ e') ∧ |e - egs| < 1e-9 := by
    intro l
    induction l with
    | nil => intro acc _; exact ⟨acc, rfl, by simp⟩
    | cons p l ih =>
      intro acc hl
      cases he : p.2.eigvals with
      | nil => exact absurd he (hl p (by simp))
      | cons e t =>
        obtain ⟨h1, h2⟩ := foldl_min_spec t e
        have hiff : (∃ e' ∈ p.2.eigvals, (∀ e'' ∈ p.2.eigvals, e' ≤ e'') ∧ |e' - egs| < 1e-9) ↔ |t.foldl min e - egs| < 1e-9 := by
          rw [he]
          constructor
          · rintro ⟨e', k1, k2, k3⟩
            have : e' = t.foldl min e := le_antisymm (k2 _ h1) (h2 _ k1)
            rwa [this] at k3
          · intro k
            exact ⟨_, h1, h2, k⟩
        obtain ⟨ngs, k1, k2⟩ := ih (if |t.foldl min e - egs| < 1e-9 then acc ++ [((p.1.1 : ℤ), (p.1.2 : ℤ))] else acc) fun x hx => hl x (by simp [hx])
        refine ⟨ngs, ?_, fun x => ?_⟩
        · rw [forM']
          simp only [he, pure, Except.pure]
          exact k1
        · rw [k2 x]
          have hcons : (∃ p' ∈ p :: l, x = zp p'.1 ∧ ∃ e ∈ p'.2.eigvals, (∀ e' ∈ p'.2.eigvals, e ≤ e') ∧ |e - egs| < 1e-9) ↔
              (x = zp p.1 ∧ |t.foldl min e - egs| < 1e-9) ∨ ∃ p' ∈ l, x = zp p'.1 ∧ ∃ e ∈ p'.2.eigvals, (∀ e' ∈ p'.2.eigvals, e ≤ e') ∧ |e - egs| < 1e-9 := by
            rw [← hiff]; simp only [List.mem_cons, or_and_right, exists_or, exists_eq_left]
          rw [hcons]
          split
          · rename_i hlt
            rw [List.mem_append, List.mem_singleton]
            simp only [hlt, and_true]
            show (_ ∨ x = zp p.1) ∨ _ ↔ _
            tauto
          · rename_i hlt
            simp only [hlt, and_false, false_or]
  obtain ⟨ngs, h1, h2⟩ := key es [] hne
  exact ⟨ngs, h1, fun x => by rw [h2 x]; simp⟩

/-! ### Dictionaries of lists -/

/-- The list at a key, empty if the key is missing. -/
def valAt {α : Type} (sd : List ((TId × TId) × List α)) (k : TId × TId) : List α := match dictGet sd k with | .ok l => l | .error _ => []

theorem valAt_appendAt {α : Type} (sd : List ((TId × TId) × List α)) (k k' : TId × TId) (s : α) : valAt (appendAt sd k s) k' = valAt sd k' ++ if k = k' then [s] else [] := by
  unfold valAt appendAt
  rw [dictGet_dictSet]
  by_cases h : k = k'
  · subst h
    cases dictGet sd k <;> simp
  · simp [h]

theorem appendAt_ne {α : Type} {sd : List ((TId × TId) × List α)} (h : ∀ p ∈ sd, p.2 ≠ []) (k : TId × TId) (s : α) : ∀ p ∈ appendAt sd k s, p.2 ≠ [] := by
  intro p hp
  unfold appendAt dictSet at hp
  split at hp
  · obtain ⟨p', h1, h2⟩ := List.mem_map.mp hp
    split at h2
    · subst h2; simp
    · subst h2; exact h p' h1
  · rcases List.mem_append.mp hp with hp | hp
    · exact h p hp
    · rw [List.mem_singleton] at hp; subst hp; simp

theorem appendAll_spec {α : Type} (key : α → TId × TId) (L : List α) (sd : List ((TId × TId) × List α)) (h1 : ∀ p ∈ sd, p.2 ≠ []) (h2 : (sd.map Prod.fst).Nodup) :
    (∀ k, valAt (L.foldl (fun sd s => appendAt sd (key s) s) sd) k = valAt sd k ++ L.filter fun s => decide (key s = k)) ∧
    (∀ p ∈ L.foldl (fun sd s => appendAt sd (key s) s) sd, p.2 ≠ []) ∧ ((L.foldl (fun sd s => appendAt sd (key s) s) sd).map Prod.fst).Nodup := by
  induction L generalizing sd with
  | nil => exact ⟨by simp, h1, h2⟩
  | cons a L ih =>
    obtain ⟨k1, k2, k3⟩ := ih (appendAt sd (key a) a) (appendAt_ne h1 _ _) (nodup_dictSet h2 _ _)
    refine ⟨fun k => ?_, k2, k3⟩
    rw [List.foldl_cons, k1 k, valAt_appendAt, List.filter_cons, List.append_assoc]
    by_cases h : key a = k <;> simp [h]

theorem dictGet_valAt {α : Type} {sd : List ((TId × TId) × List α)} (h : ∀ p ∈ sd, p.2 ≠ []) (k : TId × TId) :
    dictGet sd k = if valAt sd k = [] then .error .keyError else .ok (valAt sd k) := by
  unfold valAt
  cases hd : dictGet sd k with
  | ok l =>
    have := h _ (dictGet_mem_of_ok hd)
    simp only at this ⊢
    rw [if_neg this]
  | error e =>
    simp only [if_true]
    unfold dictGet at hd
    split at hd
    · cases hd
    · injection hd with hd; rw [hd]

/-! ### All elements -/

/-- The pairs of spins in the order of the code. -/
def coPairs : List (Bool × Bool) := [(false, false), (false, true), (true, false), (true, true)]

/-- The change of the sector. -/
def coDS (ij : Bool × Bool) : ℤ × ℤ := match ij with
  | (false, true) => (-1, 1)
  | (true, false) => (1, -1)
  | _ => (0, 0)

theorem coSpins_eq : coSpins = coPairs.map fun ij => ((ispinOf ij.1, ispinOf ij.2), coDS ij) := rfl

theorem coDS_iff (q qF : ℕ × ℕ) (ij : Bool × Bool) : ((zp q).1 + (coDS ij).1, (zp q).2 + (coDS ij).2) = zp qF ↔ shiftUp ij.1 qF = shiftUp ij.2 q := by
  obtain ⟨a, b⟩ := q
  obtain ⟨c, d⟩ := qF
  obtain ⟨i, j⟩ := ij
  cases i <;> cases j <;> simp only [zp, coDS, shiftUp, Prod.mk.injEq, Bool.false_eq_true, if_false, if_true] <;> omega

theorem zp_inj {q q' : ℕ × ℕ} (h : zp q = zp q') : q = q' := by
  simp only [zp, Prod.mk.injEq, Nat.cast_inj] at h
  exact Prod.ext h.1 h.2

theorem groundSectors_complete {H : Matrix (Finset (Fin (n + n))) (Finset (Fin (n + n))) ℝ} (h : EigenEspace n H es) (egs : ℝ) :
    ∃ ngs, groundSectors es egs = .ok ngs ∧ ∀ x, x ∈ ngs ↔ ∃ g : ℕ × ℕ, g.1 ≤ n ∧ g.2 ≤ n ∧ x = zp g ∧ GroundSector es egs g := by
  have hmem : ∀ p ∈ es, p.1.1 ≤ n ∧ p.1.2 ≤ n ∧ p.2 = sctAt es p.1 := by
    intro p hp
    have h1 := mem_ndindex2.mp (h.keys.mem_iff.mp (List.mem_map_of_mem hp))
    have h2 : p.1.1 ≤ n ∧ p.1.2 ≤ n := ⟨by omega, by omega⟩
    obtain ⟨up, dw, k1, k2, -⟩ := h.toCompleteEspace.at h2.1 h2.2
    have k3 := dictGet_mem h.toCompleteEspace.nodup hp
    rw [k2] at k3
    injection k3 with k3
    exact ⟨h2.1, h2.2, k3.symm⟩
  obtain ⟨ngs, h1, h2⟩ := groundSectors_mem (es := es) (fun p hp h0 => by
    obtain ⟨k1, k2, k3⟩ := hmem p hp
    obtain ⟨up, dw, -, -, -, -, -, k4⟩ := h.toCompleteEspace.at k1 k2
    have : (sctAt es p.1).eigvals.length = 0 := by rw [← k3, h0]; rfl
    have k5 : (sctAt es p.1).eigvals.length = n.choose p.1.1 * n.choose p.1.2 := k4
    have := Nat.mul_pos (Nat.choose_pos k1) (Nat.choose_pos k2)
    omega) egs
  refine ⟨ngs, h1, fun x => (h2 x).trans ⟨?_, ?_⟩⟩
  · rintro ⟨p, hp, rfl, hg⟩
    obtain ⟨k1, k2, k3⟩ := hmem p hp
    exact ⟨p.1, k1, k2, rfl, by rw [GroundSector, ← k3]; exact hg⟩
  · rintro ⟨g, k1, k2, rfl, hg⟩
    obtain ⟨up, dw, k3, -⟩ := h.toCompleteEspace.at k1 k2
    exact ⟨_, k3, rfl, hg⟩

theorem mem_coReached {egs : ℝ} {ngs : List (ℤ × ℤ)} (hngs : ∀ x, x ∈ ngs ↔ ∃ g : ℕ × ℕ, g.1 ≤ n ∧ g.2 ≤ n ∧ x = zp g ∧ GroundSector es egs g) (x : ℤ × ℤ) :
    x ∈ coReached n ngs ↔ ∃ q, x = zp q ∧ CoReach n es egs q := by
  unfold coReached
  rw [List.mem_filter, List.mem_flatMap, decide_eq_true_eq]
  constructor
  · rintro ⟨⟨g', hg', hx⟩, b1, b2, b3, b4⟩
    obtain ⟨g, k1, k2, rfl, k3⟩ := (hngs g').mp hg'
    have hxz : x = zp (x.1.toNat, x.2.toNat) := by
      simp only [zp]; exact Prod.ext (by simp only; omega) (by simp only; omega)
    rw [coSpins_eq, List.map_map, List.mem_map] at hx
    obtain ⟨ij, -, hij⟩ := hx
    refine ⟨_, hxz, by simp only; omega, by simp only; omega, g, k1, k2, k3, ij.1, ij.2, ?_⟩
    rw [← coDS_iff, ← hxz]
    exact hij
  · rintro ⟨q, rfl, k1, k2, g, k3, k4, k5, i, j, hij⟩
    refine ⟨⟨zp g, (hngs _).mpr ⟨g, k3, k4, rfl, k5⟩, ?_⟩, by simp [zp], by simp [zp, k1], by simp [zp], by simp [zp, k2]⟩
    rw [coSpins_eq, List.map_map, List.mem_map]
    refine ⟨(i, j), by cases i <;> cases j <;> simp [coPairs], ?_⟩
    exact (coDS_iff g q (i, j)).mpr hij

/-- The elements of one pair of spins. -/
noncomputable def coList (junk n : ℕ) (es : Espace (ℕ × ℕ)) (q : ℤ × ℤ) (ij : ℤ × ℤ) : List CoSigma := match coSigmaList junk n q es ij with | .ok l => l | .error _ => []

theorem coProjectSector_eq {junk : ℕ} {q : ℤ × ℤ} {sp : List (ℤ × ℤ)} (h : ∀ ij ∈ sp, ∃ l, coSigmaList junk n q es ij = .ok l) (sd : SigmaDict) :
    coProjectSector junk n q es sd sp = .ok ((sp.flatMap (coList junk n es q)).foldl (fun sd s => appendAt sd (s.gf2.idF, s.gf2.idI) s) sd) := by
  have key : ∀ (sp : List (ℤ × ℤ)) (acc : List CoSigma), (∀ ij ∈ sp, ∃ l, coSigmaList junk n q es ij = .ok l) →
      forM' (fun acc ij => do let l ← coSigmaList junk n q es ij; pure (acc ++ l)) sp acc = .ok (acc ++ sp.flatMap (coList junk n es q)) := by
    intro sp
    induction sp with
    | nil => intro acc _; simp [forM']
    | cons a sp ih =>
      intro acc hsp
      obtain ⟨l, hl⟩ := hsp a (by simp)
      have hl' : coList junk n es q a = l := by rw [coList, hl]
      rw [forM']
      simp only [hl, bind, Except.bind, pure, Except.pure] at ih ⊢
      rw [ih _ fun ij hij => hsp ij (by simp [hij]), List.flatMap_cons, hl', List.append_assoc]
  unfold coProjectSector
  rw [key sp [] h]
  simp [bind, Except.bind, pure, Except.pure]

/-- All elements in the order in which they are stored. -/
noncomputable def coAll (junk n : ℕ) (es : Espace (ℕ × ℕ)) (reached : List (ℤ × ℤ)) : List CoSigma :=
  (uniqueSorted lePair reached).flatMap fun q => (coSubset reached q).flatMap (coList junk n es q)

theorem foldl_flatMap' {α β γ : Type} (f : γ → β → γ) (g : α → List β) (L : List α) (c : γ) : (L.flatMap g).foldl f c = L.foldl (fun c a => (g a).foldl f c) c := by
  induction L generalizing c with
  | nil => rfl
  | cons a L ih => rw [List.flatMap_cons, List.foldl_append, ih, List.foldl_cons]

/-- The list of one key in the concatenation of lists one for each channel. -/
theorem forall2_flatMap {α β : Type} (P : α → Bool) (g : α → List β) (R : α → β → Prop) (B : List α) (h1 : ∀ a ∈ B, P a = true → ∃ s, g a = [s] ∧ R a s)
    (h2 : ∀ a ∈ B, P a = false → g a = []) : List.Forall₂ R (B.filter P) (B.flatMap g) := by
  induction B with
  | nil => exact List.Forall₂.nil
  | cons a B ih =>
    have ih' := ih (fun a ha => h1 a (by simp [ha])) fun a ha => h2 a (by simp [ha])
    cases hp : P a with
    | true =>
      obtain ⟨s, hs, hr⟩ := h1 a (by simp) hp
      rw [List.filter_cons_of_pos hp, List.flatMap_cons, hs]
      exact List.Forall₂.cons hr ih'
    | false =>
      rw [List.filter_cons_of_neg (by simp [hp]), List.flatMap_cons, h2 a (by simp) hp]
      exact ih'

theorem flatMap_single {α β : Type} [DecidableEq α] {L : List α} (hL : L.Nodup) (g : α → List β) (a : α) (h : ∀ b ∈ L, b ≠ a → g b = []) :
    L.flatMap g = if a ∈ L then g a else [] := by
  induction L with
  | nil => simp
  | cons b L ih =>
    obtain ⟨h1, h2⟩ := List.nodup_cons.mp hL
    have ih' := ih h2 fun c hc => h c (by simp [hc])
    rw [List.flatMap_cons, ih']
    by_cases hb : b = a
    · subst hb; simp [h1]
    · rw [h b (by simp) hb]
      simp [Ne.symm hb]

theorem filter_single {α β : Type} [DecidableEq β] {L : List α} (f : α → β) (hL : (L.map f).Nodup) {b : β} (hb : b ∈ L.map f) :
    ∃ s ∈ L, f s = b ∧ L.filter (fun s => decide (f s = b)) = [s] := by
  induction L with
  | nil => simp at hb
  | cons a L ih =>
    rw [List.map_cons, List.nodup_cons] at hL
    by_cases hab : f a = b
    · refine ⟨a, by simp, hab, ?_⟩
      rw [List.filter_cons_of_pos (by simpa using hab), List.filter_eq_nil_iff.mpr]
      intro x hx
      rw [decide_eq_true_eq]
      intro hxb
      exact hL.1 (by rw [hab, ← hxb]; exact List.mem_map_of_mem hx)
    · obtain ⟨s, k1, k2, k3⟩ := ih hL.2 (by
        rw [List.map_cons, List.mem_cons] at hb
        rcases hb with h | h
        · exact absurd h.symm hab
        · exact h)
      refine ⟨s, by simp [k1], k2, ?_⟩
      rw [List.filter_cons_of_neg (by simpa using hab), k3]

theorem ids_nodup (qF q : ℕ × ℕ) (a b : ℕ) :
    ((ndindex2 a b).map fun fi => ((((qF.1 : ℤ), (qF.2 : ℤ), fi.1), ((q.1 : ℤ), (q.2 : ℤ), fi.2)) : TId × TId)).Nodup := by
  refine (nodup_ndindex2 a b).map fun x y hxy => ?_
  simp only [Prod.mk.injEq, true_and] at hxy
  exact Prod.ext hxy.1 hxy.2

section
variable {H : Matrix (Finset (Fin (n + n))) (Finset (Fin (n + n))) ℝ}

theorem coList_spec (hn : n ≤ 32) (hn0 : 0 < n) (h : EigenEspace n H es) (junk : ℕ) (ij : Bool × Bool) {q qF : ℕ × ℕ}
    (hq : q.1 ≤ n ∧ q.2 ≤ n) (hF : qF.1 ≤ n ∧ qF.2 ≤ n) (hqF : shiftUp ij.1 qF = shiftUp ij.2 q) :
    (∃ l, coSigmaList junk n (zp q) es (ispinOf ij.1, ispinOf ij.2) = .ok l) ∧
    (∀ s ∈ coList junk n es (zp q) (ispinOf ij.1, ispinOf ij.2), ∃ f k, f < n.choose qF.1 * n.choose qF.2 ∧ k < n.choose q.1 * n.choose q.2 ∧
      (s.gf2.idF, s.gf2.idI) = (stId qF f, stId q k)) ∧
    ∀ f k, f < n.choose qF.1 * n.choose qF.2 → k < n.choose q.1 * n.choose q.2 →
      ∃ s, (coList junk n es (zp q) (ispinOf ij.1, ispinOf ij.2)).filter (fun s => decide ((s.gf2.idF, s.gf2.idI) = (stId qF f, stId q k))) = [s] ∧
        IsCoElem n H es qF f q k ij s := by
  obtain ⟨l, h1, h2, h3⟩ := C96_sigma hn hn0 h junk ij.1 ij.2 hq hF hqF
  have hl : coList junk n es (zp q) (ispinOf ij.1, ispinOf ij.2) = l := by rw [coList, h1]
  rw [hl]
  refine ⟨⟨l, h1⟩, fun s hs => ?_, fun f k hf hk => ?_⟩
  · obtain ⟨f, k, hf, hk, hid, -⟩ := h3 s hs
    exact ⟨f, k, hf, hk, hid⟩
  · have hnd : (l.map fun s => s.gf2.ids).Nodup := by rw [h2]; exact ids_nodup _ _ _ _
    obtain ⟨s, k1, k2, k3⟩ := filter_single (fun s : CoSigma => s.gf2.ids) hnd (b := (stId qF f, stId q k))
      (by rw [h2]; exact List.mem_map.mpr ⟨(f, k), mem_ndindex2.mpr ⟨hf, hk⟩, rfl⟩)
    refine ⟨s, k3, ?_⟩
    obtain ⟨f', k', -, -, hid, hdE, hcall⟩ := h3 s k1
    have hid' := k2.symm.trans hid
    simp only [stId, Prod.mk.injEq, true_and] at hid'
    obtain ⟨rfl, rfl⟩ := hid'
    exact ⟨hdE, hcall⟩

theorem coSubset_eq (reached : List (ℤ × ℤ)) (q : ℤ × ℤ) :
    coSubset reached q = (coPairs.filter fun ij => decide ((q.1 + (coDS ij).1, q.2 + (coDS ij).2) ∈ reached)).map fun ij => (ispinOf ij.1, ispinOf ij.2) := by
  unfold coSubset
  rw [coSpins_eq, List.filter_map, List.map_map]
  rfl

theorem stId_inj {q q' : ℕ × ℕ} {k k' : ℕ} (h : stId q k = stId q' k') : q = q' ∧ k = k' := by
  simp only [stId, Prod.mk.injEq, Nat.cast_inj] at h
  exact ⟨Prod.ext h.1 h.2.1, h.2.2⟩

theorem coBuild_eq (hn : n ≤ 32) (hn0 : 0 < n) (h : EigenEspace n H es) (junk : ℕ) (egs : ℝ) :
    ∃ reached : List (ℤ × ℤ), (∀ x, x ∈ reached ↔ ∃ q, x = zp q ∧ CoReach n es egs q) ∧
      ∀ c, coBuild junk n egs es c = (match c with
        | some c => coScreen ((coAll junk n es reached).foldl (fun sd s => appendAt sd (s.gf2.idF, s.gf2.idI) s) []) egs es c
        | none => .ok ((coAll junk n es reached).foldl (fun sd s => appendAt sd (s.gf2.idF, s.gf2.idI) s) [])) := by
  obtain ⟨ngs, hg, hngs⟩ := groundSectors_complete h egs
  have hreach := mem_coReached hngs
  refine ⟨coReached n ngs, hreach, fun c => ?_⟩
  have hall : forM' (fun sd q => coProjectSector junk n q es sd (coSubset (coReached n ngs) q)) (uniqueSorted lePair (coReached n ngs)) [] =
      .ok ((coAll junk n es (coReached n ngs)).foldl (fun sd s => appendAt sd (s.gf2.idF, s.gf2.idI) s) []) := by
    unfold coAll
    rw [foldl_flatMap']
    refine forM'_ok _ _ _ _ fun sd x hx => coProjectSector_eq (fun ij hij => ?_) sd
    rw [mem_uniqueSorted] at hx
    obtain ⟨q, rfl, hq⟩ := (hreach x).mp hx
    rw [coSubset_eq] at hij
    obtain ⟨ij', hij', rfl⟩ := List.mem_map.mp hij
    obtain ⟨-, k⟩ := List.mem_filter.mp hij'
    obtain ⟨qF, e, hF⟩ := (hreach _).mp (of_decide_eq_true k)
    exact (coList_spec hn hn0 h junk ij' ⟨hq.1, hq.2.1⟩ ⟨hF.1, hF.2.1⟩ ((coDS_iff q qF ij').mp e)).1
  unfold coBuild
  simp only [hg, hall, bind, Except.bind]
  cases c <;> rfl

theorem coAll_filter (hn : n ≤ 32) (hn0 : 0 < n) (h : EigenEspace n H es) (junk : ℕ) {egs : ℝ} {reached : List (ℤ × ℤ)}
    (hreach : ∀ x, x ∈ reached ↔ ∃ q, x = zp q ∧ CoReach n es egs q) {qF q : ℕ × ℕ} (hF : CoReach n es egs qF) (hq : CoReach n es egs q) {f k : ℕ}
    (hf : f < n.choose qF.1 * n.choose qF.2) (hk : k < n.choose q.1 * n.choose q.2) :
    List.Forall₂ (IsCoElem n H es qF f q k) (coChannels q qF) ((coAll junk n es reached).filter fun s => decide ((s.gf2.idF, s.gf2.idI) = (stId qF f, stId q k))) := by
  have hspec : ∀ q' ij, CoReach n es egs q' → ((zp q').1 + (coDS ij).1, (zp q').2 + (coDS ij).2) ∈ reached → ∃ qF', CoReach n es egs qF' ∧ shiftUp ij.1 qF' = shiftUp ij.2 q' := by
    intro q' ij _ hr
    obtain ⟨qF', e, hF'⟩ := (hreach _).mp hr
    exact ⟨qF', hF', (coDS_iff q' qF' ij).mp e⟩
  unfold coAll
  rw [List.filter_flatMap, flatMap_single (a := zp q)]
  · rw [if_pos ((mem_uniqueSorted _ _ _).mpr ((hreach _).mpr ⟨q, rfl, hq⟩)), coSubset_eq, List.flatMap_map, List.filter_flatMap]
    have hch : coChannels q qF = (coPairs.filter fun ij => decide (((zp q).1 + (coDS ij).1, (zp q).2 + (coDS ij).2) ∈ reached)).filter fun ij => decide (shiftUp ij.1 qF = shiftUp ij.2 q) := by
      rw [List.filter_filter]
      refine List.filter_congr fun ij _ => ?_
      by_cases hs : shiftUp ij.1 qF = shiftUp ij.2 q
      · simp [hs, (coDS_iff q qF ij).mpr hs, (hreach (zp qF)).mpr ⟨qF, rfl, hF⟩]
      · simp [hs]
    rw [hch]
    refine forall2_flatMap _ _ _ _ (fun ij _ hp => ?_) fun ij hij hp => ?_
    · exact (coList_spec hn hn0 h junk ij ⟨hq.1, hq.2.1⟩ ⟨hF.1, hF.2.1⟩ (of_decide_eq_true hp)).2.2 f k hf hk
    · obtain ⟨-, hr⟩ := List.mem_filter.mp hij
      obtain ⟨qF', hF', hs⟩ := hspec q ij hq (of_decide_eq_true hr)
      refine List.filter_eq_nil_iff.mpr fun s hs' => ?_
      obtain ⟨f', k', -, -, hid⟩ := (coList_spec hn hn0 h junk ij ⟨hq.1, hq.2.1⟩ ⟨hF'.1, hF'.2.1⟩ hs).2.1 s hs'
      rw [decide_eq_true_eq, hid]
      intro he
      have := (stId_inj (Prod.ext_iff.mp he).1).1
      rw [this] at hs
      exact of_decide_eq_false hp hs
  · exact (List.mergeSort_perm _ _).nodup_iff.mpr (List.nodup_dedup _)
  · intro x hx hne
    rw [mem_uniqueSorted] at hx
    obtain ⟨q', rfl, hq'⟩ := (hreach x).mp hx
    refine List.filter_eq_nil_iff.mpr fun s hs => ?_
    rw [coSubset_eq, List.flatMap_map] at hs
    obtain ⟨ij, hij, hs⟩ := List.mem_flatMap.mp hs
    obtain ⟨-, hr⟩ := List.mem_filter.mp hij
    obtain ⟨qF', hF', hs2⟩ := hspec q' ij hq' (of_decide_eq_true hr)
    obtain ⟨f', k', -, -, hid⟩ := (coList_spec hn hn0 h junk ij ⟨hq'.1, hq'.2.1⟩ ⟨hF'.1, hF'.2.1⟩ hs2).2.1 s hs
    rw [decide_eq_true_eq, hid]
    intro he
    exact hne (by rw [(stId_inj (Prod.ext_iff.mp he).2).1])

theorem coAll_ids (hn : n ≤ 32) (hn0 : 0 < n) (h : EigenEspace n H es) (junk : ℕ) {egs : ℝ} {reached : List (ℤ × ℤ)}
    (hreach : ∀ x, x ∈ reached ↔ ∃ q, x = zp q ∧ CoReach n es egs q) {s : CoSigma} (hs : s ∈ coAll junk n es reached) :
    ∃ qF f q k, CoReach n es egs qF ∧ CoReach n es egs q ∧ f < n.choose qF.1 * n.choose qF.2 ∧ k < n.choose q.1 * n.choose q.2 ∧ coChannels q qF ≠ [] ∧
      (s.gf2.idF, s.gf2.idI) = (stId qF f, stId q k) := by
  unfold coAll at hs
  obtain ⟨x, hx, hs⟩ := List.mem_flatMap.mp hs
  rw [mem_uniqueSorted] at hx
  obtain ⟨q, rfl, hq⟩ := (hreach x).mp hx
  rw [coSubset_eq, List.flatMap_map] at hs
  obtain ⟨ij, hij, hs⟩ := List.mem_flatMap.mp hs
  obtain ⟨hp, hr⟩ := List.mem_filter.mp hij
  obtain ⟨qF, e, hF⟩ := (hreach _).mp (of_decide_eq_true hr)
  have hs2 := (coDS_iff q qF ij).mp e
  obtain ⟨f, k, hf, hk, hid⟩ := (coList_spec hn hn0 h junk ij ⟨hq.1, hq.2.1⟩ ⟨hF.1, hF.2.1⟩ hs2).2.1 s hs
  exact ⟨qF, f, q, k, hF, hq, hf, hk, List.ne_nil_of_mem (List.mem_filter.mpr ⟨hp, by simpa using hs2⟩), hid⟩

/-! ### The theorems -/

/-- **C144**. For a complete espace, `build_transition_elements` without cutoff has a key exactly for each pair of a final and an initial eigenstate of sectors that are at most one spin flip
away from a ground state sector and that one electron in and one electron out connect; the value is the list of one element for each pair of spins that connects the two sectors, and each element is
the transition of these two states. -/
theorem C144_elements (hn : n ≤ 32) (hn0 : 0 < n) (h : EigenEspace n H es) (junk : ℕ) (egs : ℝ) :
    ∃ sd, coBuild junk n egs es none = .ok sd ∧ (sd.map Prod.fst).Nodup ∧
      (∀ p ∈ sd, ∃ qF f q k, CoReach n es egs qF ∧ CoReach n es egs q ∧ f < n.choose qF.1 * n.choose qF.2 ∧ k < n.choose q.1 * n.choose q.2 ∧ coChannels q qF ≠ [] ∧
        p.1 = (stId qF f, stId q k)) ∧
      ∀ qF f q k, CoReach n es egs qF → CoReach n es egs q → f < n.choose qF.1 * n.choose qF.2 → k < n.choose q.1 * n.choose q.2 → coChannels q qF ≠ [] →
        ∃ l, dictGet sd (stId qF f, stId q k) = .ok l ∧ List.Forall₂ (IsCoElem n H es qF f q k) (coChannels q qF) l := by
  obtain ⟨reached, hreach, hb⟩ := coBuild_eq hn hn0 h junk egs
  obtain ⟨h1, h2, h3⟩ := appendAll_spec (fun s : CoSigma => (s.gf2.idF, s.gf2.idI)) (coAll junk n es reached) [] (by simp) (by simp)
  refine ⟨_, hb none, h3, fun p hp => ?_, fun qF f q k hF hq hf hk hc => ?_⟩
  · have hp1 := dictGet_mem h3 (q := p.1) (s := p.2) hp
    have hp2 := h1 p.1
    rw [valAt, hp1] at hp2
    have hne : (coAll junk n es reached).filter (fun s => decide ((s.gf2.idF, s.gf2.idI) = p.1)) ≠ [] := by
      intro h0
      rw [h0] at hp2
      exact h2 p hp (hp2.trans rfl)
    obtain ⟨s, hs⟩ := List.exists_mem_of_ne_nil _ hne
    obtain ⟨hs1, hs2⟩ := List.mem_filter.mp hs
    obtain ⟨qF, f, q, k, a1, a2, a3, a4, a5, a6⟩ := coAll_ids hn hn0 h junk hreach hs1
    exact ⟨qF, f, q, k, a1, a2, a3, a4, a5, by rw [← a6]; exact (of_decide_eq_true hs2).symm⟩
  · have hl := coAll_filter hn hn0 h junk hreach hF hq hf hk
    refine ⟨_, ?_, hl⟩
    have hv : valAt ((coAll junk n es reached).foldl (fun sd s => appendAt sd (s.gf2.idF, s.gf2.idI) s) []) (stId qF f, stId q k) = _ := h1 (stId qF f, stId q k)
    rw [dictGet_valAt h2, hv, if_neg]
    · rfl
    · intro h0
      have := hl.length_eq
      have h0' : (coAll junk n es reached).filter (fun s => decide ((s.gf2.idF, s.gf2.idI) = (stId qF f, stId q k))) = [] := h0
      rw [h0', List.length_nil] at this
      exact hc (List.eq_nil_of_length_eq_zero this)

/-- Each transition has its reverse. -/
theorem C144_reverse (hn : n ≤ 32) (hn0 : 0 < n) (h : EigenEspace n H es) (junk : ℕ) (egs : ℝ) :
    ∃ sd, coBuild junk n egs es none = .ok sd ∧ ∀ F I, (F, I) ∈ sd.map Prod.fst → (I, F) ∈ sd.map Prod.fst := by
  obtain ⟨sd, h1, -, h3, h4⟩ := C144_elements hn hn0 h junk egs
  refine ⟨sd, h1, fun F I hm => ?_⟩
  obtain ⟨p, hp, hpe⟩ := List.mem_map.mp hm
  obtain ⟨qF, f, q, k, a1, a2, a3, a4, a5, a6⟩ := h3 p hp
  rw [hpe] at a6
  injection a6 with e1 e2
  subst e1; subst e2
  have hch : coChannels qF q ≠ [] := by
    obtain ⟨⟨i, j⟩, hij⟩ := List.exists_mem_of_ne_nil _ a5
    obtain ⟨-, hs⟩ := List.mem_filter.mp hij
    refine List.ne_nil_of_mem (a := (j, i)) (List.mem_filter.mpr ⟨by cases i <;> cases j <;> simp, ?_⟩)
    simpa [eq_comm] using hs
  obtain ⟨l, hl, -⟩ := h4 q k qF f a2 a1 a4 a3 hch
  exact List.mem_map.mpr ⟨_, dictGet_mem_of_ok hl, rfl⟩

/-- The entry passes the screening. -/
def keepCo (es : Espace (ℕ × ℕ)) (egs c : ℝ) (p : (TId × TId) × List CoSigma) : Prop :=
  (∃ s, p.2[0]? = some s ∧ |s.gf2.dE| < c) ∧ |idEnergy es p.1.1 - egs| < c ∧ |idEnergy es p.1.2 - egs| < c

open Classical in
theorem coScreen_eq {sd : SigmaDict} (h : ∀ p ∈ sd, p.2 ≠ [] ∧ InRange es p.1.1 ∧ InRange es p.1.2) (egs c : ℝ) :
    coScreen sd egs es c = .ok (sd.filter fun p => decide (keepCo es egs c p)) := by
  unfold coScreen
  rw [forM'_ok _ (fun acc p => if keepCo es egs c p then acc ++ [p] else acc) _ _ ?_]
  · congr 1
    have : ∀ (l acc : SigmaDict), l.foldl (fun acc p => if keepCo es egs c p then acc ++ [p] else acc) acc = acc ++ l.filter fun p => decide (keepCo es egs c p) := by
      intro l
      induction l with
      | nil => simp
      | cons p l ih =>
        intro acc
        rw [List.foldl_cons, ih]
        by_cases hp : keepCo es egs c p <;> simp [hp]
    simpa using this sd []
  · intro acc p hp
    obtain ⟨hne, hF, hI⟩ := h p hp
    obtain ⟨sF, f1, f2⟩ := getItem_inRange hF
    obtain ⟨sI, i1, i2⟩ := getItem_inRange hI
    obtain ⟨s, t, hst⟩ := List.exists_cons_of_ne_nil hne
    have h0 : getItem p.2 0 = .ok s := by rw [hst]; simp [getItem, pyIndex]
    have hk : (∃ s', p.2[0]? = some s' ∧ |s'.gf2.dE| < c) ↔ |s.gf2.dE| < c := by rw [hst]; simp
    by_cases k1 : |s.gf2.dE| < c
    · by_cases k2 : |idEnergy es p.1.1 - egs| < c
      · by_cases k3 : |idEnergy es p.1.2 - egs| < c
        · simp [keepCo, hk, h0, f1, f2, i1, i2, k1, k2, k3, bind, Except.bind, pure, Except.pure]
        · simp [keepCo, hk, h0, f1, f2, i1, i2, k1, k2, k3, bind, Except.bind, pure, Except.pure]
      · simp [keepCo, hk, h0, f1, f2, k1, k2, bind, Except.bind, pure, Except.pure]
    · simp [keepCo, hk, h0, k1, bind, Except.bind, pure, Except.pure]

theorem dictGet_filter' {α β : Type} [DecidableEq α] {L : List (α × β)} (P : α × β → Prop) [DecidablePred P] (hL : (L.map Prod.fst).Nodup) {k : α} {g : β} :
    dictGet (L.filter fun p => decide (P p)) k = .ok g ↔ dictGet L k = .ok g ∧ P (k, g) := by
  constructor
  · intro h
    have := dictGet_mem_of_ok h
    rw [List.mem_filter, decide_eq_true_eq] at this
    exact ⟨dictGet_mem hL this.1, this.2⟩
  · rintro ⟨h1, h2⟩
    refine dictGet_mem ?_ (List.mem_filter.mpr ⟨dictGet_mem_of_ok h1, by simpa using h2⟩)
    exact hL.sublist ((List.filter_sublist).map _)

theorem inRange_stId (h : EigenEspace n H es) {q : ℕ × ℕ} (hq : q.1 ≤ n ∧ q.2 ≤ n) {k : ℕ} (hk : k < n.choose q.1 * n.choose q.2) :
    InRange es (stId q k) ∧ idEnergy es (stId q k) = stateEnergy es q k := by
  obtain ⟨up, dw, -, k2, -, -, -, k3⟩ := h.toCompleteEspace.at hq.1 hq.2
  have e : espaceGet es ((stId q k).1, (stId q k).2.1) = .ok (sctAt es q) := by
    show espaceGet es (zp q) = _
    rw [espaceGet_zp]; exact k2
  refine ⟨⟨_, e, ?_⟩, ?_⟩
  · show k < _
    have : (sctAt es q).eigvals.length = n.choose q.1 * n.choose q.2 := k3
    omega
  · rw [idEnergy, e]; rfl

/-- With a cutoff the elements are those without whose energies are within the cutoff: the difference of both energies and the distance of each to `egs`; the lists are unchanged. -/
theorem C144_cutoff (hn : n ≤ 32) (hn0 : 0 < n) (h : EigenEspace n H es) (junk : ℕ) (egs c : ℝ) :
    ∃ sd sd', coBuild junk n egs es none = .ok sd ∧ coBuild junk n egs es (some c) = .ok sd' ∧
      (∀ p ∈ sd', p ∈ sd) ∧
      ∀ qF f q k, CoReach n es egs qF → CoReach n es egs q → f < n.choose qF.1 * n.choose qF.2 → k < n.choose q.1 * n.choose q.2 → ∀ l,
        (dictGet sd' (stId qF f, stId q k) = .ok l ↔ dictGet sd (stId qF f, stId q k) = .ok l ∧
          |stateEnergy es qF f - stateEnergy es q k| < c ∧ |stateEnergy es qF f - egs| < c ∧ |stateEnergy es q k - egs| < c) := by
  classical
  obtain ⟨sd, h1, h2, h3, h4⟩ := C144_elements hn hn0 h junk egs
  obtain ⟨reached, hreach, hb⟩ := coBuild_eq hn hn0 h junk egs
  have hsd := (hb none).symm.trans h1
  injection hsd with hsd
  have hb' := hb (some c)
  rw [hsd] at hb'
  have hlist : ∀ qF f q k, CoReach n es egs qF → CoReach n es egs q → f < n.choose qF.1 * n.choose qF.2 → k < n.choose q.1 * n.choose q.2 → ∀ l,
      dictGet sd (stId qF f, stId q k) = .ok l → ∃ s, l[0]? = some s ∧ s.gf2.dE = stateEnergy es qF f - stateEnergy es q k := by
    intro qF f q k hF hq hf hk l hl
    obtain ⟨qF', f', q', k', -, -, -, -, a5, a6⟩ := h3 _ (dictGet_mem_of_ok hl)
    injection a6 with e1 e2
    obtain ⟨rfl, rfl⟩ := stId_inj e1
    obtain ⟨rfl, rfl⟩ := stId_inj e2
    obtain ⟨l', hl', hall⟩ := h4 qF f q k hF hq hf hk a5
    rw [hl] at hl'
    injection hl' with hl'
    subst hl'
    cases hch : coChannels q qF with
    | nil => exact absurd hch a5
    | cons a t =>
      rw [hch] at hall
      cases hall with
      | cons hr _ => exact ⟨_, rfl, hr.1⟩
  have hscr : coScreen sd egs es c = _ := coScreen_eq (fun p hp => by
    obtain ⟨qF, f, q, k, a1, a2, a3, a4, a5, a6⟩ := h3 p hp
    have hd := dictGet_mem h2 (q := p.1) (s := p.2) hp
    rw [a6] at hd
    obtain ⟨s, hs, -⟩ := hlist qF f q k a1 a2 a3 a4 _ hd
    refine ⟨fun h0 => by rw [h0] at hs; exact absurd hs (by simp), ?_, ?_⟩
    · rw [a6]; exact (inRange_stId h ⟨a1.1, a1.2.1⟩ a3).1
    · rw [a6]; exact (inRange_stId h ⟨a2.1, a2.2.1⟩ a4).1) egs c
  refine ⟨sd, _, h1, hb'.trans hscr, fun p hp => List.mem_of_mem_filter hp, fun qF f q k hF hq hf hk l => ?_⟩
  rw [dictGet_filter' _ h2]
  refine and_congr_right fun hl => ?_
  obtain ⟨s, hs, hdE⟩ := hlist qF f q k hF hq hf hk l hl
  unfold keepCo
  rw [(inRange_stId h ⟨hF.1, hF.2.1⟩ hf).2, (inRange_stId h ⟨hq.1, hq.2.1⟩ hk).2]
  simp [hs, hdE]

/-- The ground state of one electron in the Hubbard dimer of `exampleArgs` is flipped. -/
example : ∃ es egs sd l, EigenEspace 2 exampleArgs.ham es ∧ coBuild 0 2 egs es none = .ok sd ∧ dictGet sd (stId (0, 1) 0, stId (1, 0) 0) = .ok l ∧ l.length = 1 := by
  obtain ⟨es, h⟩ := exampleArgs_eigenEspace
  obtain ⟨up, dw, -, -, -, -, -, k3⟩ := h.toCompleteEspace.at (u := 1) (d := 0) (by norm_num) (by norm_num)
  have k4 : (sctAt es (1, 0)).eigvals.length = 2 := by simpa using k3
  obtain ⟨e, t, het⟩ := List.exists_cons_of_ne_nil (l := (sctAt es (1, 0)).eigvals) (by intro h0; rw [h0] at k4; simp at k4)
  obtain ⟨m1, m2⟩ := foldl_min_spec t e
  have hg : GroundSector es (t.foldl min e) (1, 0) := ⟨_, by rw [het]; exact m1, by rw [het]; exact m2, by simp; norm_num⟩
  obtain ⟨sd, h1, -, -, h4⟩ := C144_elements (by norm_num) (by norm_num) h 0 (t.foldl min e)
  obtain ⟨l, hl, hall⟩ := h4 (0, 1) 0 (1, 0) 0 ⟨by norm_num, by norm_num, (1, 0), by norm_num, by norm_num, hg, false, true, rfl⟩
    ⟨by norm_num, by norm_num, (1, 0), by norm_num, by norm_num, hg, false, false, rfl⟩ (by decide) (by decide) (by decide)
  exact ⟨es, _, sd, l, h, h1, hl, by rw [← hall.length_eq]; decide⟩

end

end Edpyt
