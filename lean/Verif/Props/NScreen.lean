import Verif.Props.Extract
import Verif.Props.NanoSpin
/-!
C149: the cutoff of `cotnl.build_transition_elements` (`screen_transition_elements`, `edpyt/cotnl.py:329-355`).
-/
namespace Edpyt
open Spec

/-! ### Specification -/

/-- The energy of the state `id` is known and lies within `x` of `e0`. -/
def Spec.NearId (es : Espace ℕ) (e0 x : ℝ) (id : NId) : Prop :=
  ∃ sct e, nGet es id.1 = .ok sct ∧ sct.eigvals[id.2]? = some e ∧ |e - e0| < x

/-- The transition `k` with the elements `l` is within the cutoff `x`: the energy it exchanges and the energies of both its states,
measured from `e0`, are below `x`. -/
def Spec.WithinCut (es : Espace ℕ) (e0 x : ℝ) (k : NId × NId) (l : List NSigma) : Prop :=
  (∃ s ∈ l.head?, |s.dE| < x) ∧ NearId es e0 x k.1 ∧ NearId es e0 x k.2

/-- The intermediate states of an amplitude: the two rows of matrix elements over the sites, and the energy. -/
def Spec.rowsOf (g : NGf2) : List (List ℝ × List ℝ × ℝ) := g.vF.zip (g.vI.zip g.E)

/-- The intermediate state contributes when every site is coupled to the leads with strength one. -/
def Spec.Strong (r : List ℝ × List ℝ × ℝ) : Prop := 1e-10 < |r.1.sum * r.2.1.sum|

/-- The amplitude with its strong intermediate states only. -/
noncomputable def Spec.weedGf (g : NGf2) : NGf2 := open Classical in
  let R := (rowsOf g).filter fun r => decide (Strong r)
  ⟨g.el, R.map Prod.fst, R.map fun r => r.2.1, R.map fun r => r.2.2, g.dE⟩

/-- The element with its strong intermediate states only; an amplitude without any is removed. -/
noncomputable def Spec.weed (s : NSigma) : NSigma := open Classical in
  ⟨s.spins, (s.gf2.filter fun g => decide (∃ r ∈ rowsOf g, Strong r)).map weedGf, s.dE⟩

/-- The elements that still have an intermediate state. -/
noncomputable def Spec.weedList (l : List NSigma) : List NSigma := open Classical in (l.map weed).filter fun s => decide (s.gf2 ≠ [])

/-- The arrays of an amplitude fit together: `n` sites, one row per intermediate state, at least one intermediate state. -/
structure Spec.ShapedGf (n : ℕ) (g : NGf2) : Prop where
  vF : g.vF.length = g.E.length
  vI : g.vI.length = g.E.length
  rF : ∀ r ∈ g.vF, r.length = n
  rI : ∀ r ∈ g.vI, r.length = n
  ne : g.E ≠ []

/-- A dictionary of elements for `n` sites. -/
def Spec.ShapedDict (n : ℕ) (sd : List ((NId × NId) × List NSigma)) : Prop :=
  ∀ p ∈ sd, p.2 ≠ [] ∧ ∀ s ∈ p.2, s.gf2 ≠ [] ∧ ∀ g ∈ s.gf2, ShapedGf n g

/-- Both states of every transition are in the espace. -/
def Spec.KnownIds (es : Espace ℕ) (sd : List ((NId × NId) × List NSigma)) : Prop :=
  ∀ p ∈ sd, ∀ id ∈ [p.1.1, p.1.2], ∃ sct e, nGet es id.1 = .ok sct ∧ sct.eigvals[id.2]? = some e

/-- `⟨F| Σ a_x op_x |J⟩ ⟨J| Σ b_x op_x |I⟩ / (E - z)` summed over the intermediate states: the amplitude at the energy `z` for the
couplings `a` of the extracting and `b` of the injecting lead. -/
noncomputable def Spec.ampGf (a b : List ℝ) (z : ℝ) (g : NGf2) : ℝ :=
  ((rowsOf g).map fun r => (List.zipWith (· * ·) r.1 (if g.el then b else a)).sum * (List.zipWith (· * ·) r.2.1 (if g.el then a else b)).sum *
    (r.2.2 - z)⁻¹).sum

/-- The amplitude of an element. -/
noncomputable def Spec.ampSigma (a b : List ℝ) (z : ℝ) (s : NSigma) : ℝ := (s.gf2.map (ampGf a b z)).sum

/-! ### Rows -/

theorem rows_vF {n : ℕ} {g : NGf2} (h : ShapedGf n g) : (rowsOf g).map Prod.fst = g.vF :=
  List.map_fst_zip (by rw [List.length_zip, h.vF, h.vI]; simp)

theorem rows_vI {n : ℕ} {g : NGf2} (h : ShapedGf n g) : ((rowsOf g).map fun r => r.2.1) = g.vI := by
  have : ((rowsOf g).map fun r => r.2.1) = ((rowsOf g).map Prod.snd).map Prod.fst := by rw [List.map_map]; rfl
  rw [this, rowsOf, List.map_snd_zip (by rw [List.length_zip, h.vF, h.vI]; simp), List.map_fst_zip (by rw [h.vI])]

theorem rows_E {n : ℕ} {g : NGf2} (h : ShapedGf n g) : ((rowsOf g).map fun r => r.2.2) = g.E := by
  have : ((rowsOf g).map fun r => r.2.2) = ((rowsOf g).map Prod.snd).map Prod.snd := by rw [List.map_map]; rfl
  rw [this, rowsOf, List.map_snd_zip (by rw [List.length_zip, h.vF, h.vI]; simp), List.map_snd_zip (by rw [h.vI])]

theorem dotRows_ok {n : ℕ} {v : List (List ℝ)} (hv : ∀ r ∈ v, r.length = n) {a : List ℝ} (ha : a.length = n) :
    dotRows v a = .ok (v.map fun r => (List.zipWith (· * ·) r a).sum) := by
  induction v with
  | nil => rfl
  | cons r v ih =>
    have h1 : dotArr r a = .ok (List.zipWith (· * ·) r a).sum := by
      rw [dotArr, if_pos (by rw [hv r (by simp), ha])]
    have h2 := ih fun r hr => hv r (by simp [hr])
    rw [dotRows] at h2 ⊢
    rw [List.mapM_cons, h1]
    simp only [bind, Except.bind] at h2 ⊢
    rw [h2]
    rfl

theorem zip_ones {n : ℕ} {r : List ℝ} (c : ℝ) (h : r.length = n) : (List.zipWith (· * ·) r (List.replicate n c)).sum = r.sum * c := by
  induction r generalizing n with
  | nil => subst h; simp
  | cons x r ih =>
    subst h
    rw [List.length_cons, List.replicate_succ, List.zipWith_cons_cons, List.sum_cons, ih rfl, List.sum_cons]
    ring

theorem getItem_some {α : Type} {l : List α} {k : ℕ} {x : α} (h : l[k]? = some x) : getItem l (k : ℤ) = .ok x := by
  obtain ⟨hk, hx⟩ := List.getElem?_eq_some_iff.mp h
  rw [getItem_natCast l k hk, hx]

theorem y_rows {n : ℕ} {g : NGf2} (h : ShapedGf n g) {A : List (List ℝ)} {e i : ℕ} {a b : List ℝ} (ha : A[e]? = some a) (hb : A[i]? = some b)
    (la : a.length = n) (lb : b.length = n) :
    g.y A e i = .ok ((rowsOf g).map fun r => (List.zipWith (· * ·) r.1 (if g.el then b else a)).sum *
      (List.zipWith (· * ·) r.2.1 (if g.el then a else b)).sum) := by
  have h1 : (if g.el then b else a).length = n := by split <;> assumption
  have h2 : (if g.el then a else b).length = n := by split <;> assumption
  unfold NGf2.y
  rw [getItem_some ha, getItem_some hb]
  simp only [bind, Except.bind]
  rw [dotRows_ok h.rF h1, dotRows_ok h.rI h2]
  simp only [pure, Except.pure]
  congr 1
  conv_lhs => rw [← rows_vF h, ← rows_vI h]
  rw [List.map_map, List.map_map, List.zipWith_map, List.zipWith_self]
  rfl

theorem rowsOf_mk (el : Bool) (R : List (List ℝ × List ℝ × ℝ)) (dE : ℝ) :
    rowsOf ⟨el, R.map Prod.fst, R.map fun r => r.2.1, R.map fun r => r.2.2, dE⟩ = R := by
  unfold rowsOf
  induction R with
  | nil => rfl
  | cons r R ih => simp only [List.map_cons, List.zip_cons_cons]; rw [ih]

theorem call_rows {n : ℕ} {g : NGf2} (h : ShapedGf n g) {A : List (List ℝ)} {e i : ℕ} {a b : List ℝ} (ha : A[e]? = some a) (hb : A[i]? = some b)
    (la : a.length = n) (lb : b.length = n) (z : ℝ) : g.call z A e i = .ok (ampGf a b z g) := by
  unfold NGf2.call
  rw [y_rows h ha hb la lb]
  simp only [bind, Except.bind, pure, Except.pure]
  congr 2
  conv_lhs => rw [← rows_E h]
  rw [List.map_map, List.zipWith_map, List.zipWith_self]
  rfl

theorem sigma_call {n : ℕ} {s : NSigma} (h : ∀ g ∈ s.gf2, ShapedGf n g) {A : List (List ℝ)} {e i : ℕ} {a b : List ℝ} (ha : A[e]? = some a)
    (hb : A[i]? = some b) (la : a.length = n) (lb : b.length = n) (z : ℝ) : s.call z A e i = .ok (ampSigma a b z s ^ 2) := by
  have key : ∀ (l : List NGf2), (∀ g ∈ l, ShapedGf n g) → ∀ r : ℝ,
      forM' (fun r g => do let x ← g.call z A e i; pure (r + x)) l r = .ok (r + (l.map (ampGf a b z)).sum) := by
    intro l
    induction l with
    | nil => intro _ r; simp [forM']
    | cons g l ih =>
      intro hl r
      rw [forM', call_rows (hl g (by simp)) ha hb la lb]
      simp only [bind, Except.bind, pure, Except.pure] at ih ⊢
      rw [ih (fun g hg => hl g (by simp [hg])), List.map_cons, List.sum_cons, add_assoc]
  unfold NSigma.call
  rw [key _ h 0]
  simp only [bind, Except.bind, pure, Except.pure, zero_add]
  rfl

theorem maskBy_map {α β : Type} (R : List α) (p : α → Bool) (f : α → β) : maskBy (R.map p) (R.map f) = (R.filter p).map f := by
  unfold maskBy
  induction R with
  | nil => rfl
  | cons r R ih =>
    simp only [List.map_cons, List.zip_cons_cons, List.filter_cons]
    cases p r <;> simp [ih]

theorem ones_get (n : ℕ) {k : ℕ} (hk : k < 2) : (List.replicate 2 (List.replicate n (1 : ℝ)))[k]? = some (List.replicate n 1) := by
  interval_cases k <;> rfl

theorem nScreenGf_ok {n : ℕ} {g : NGf2} (h : ShapedGf n g) (acc : List NGf2) : open Classical in
    nScreenGf (List.replicate 2 (List.replicate n 1)) acc g = .ok (if ∃ r ∈ rowsOf g, Strong r then acc ++ [weedGf g] else acc) := by
  classical
  have hy : g.y (List.replicate 2 (List.replicate n 1)) 1 0 = .ok ((rowsOf g).map fun r => r.1.sum * r.2.1.sum) := by
    rw [y_rows (e := 1) (i := 0) h (ones_get n (by norm_num)) (ones_get n (by norm_num)) (by simp) (by simp)]
    congr 1
    refine List.map_congr_left fun r hr => ?_
    rw [ite_self, zip_ones 1 (h.rF _ (by rw [← rows_vF h]; exact List.mem_map_of_mem hr)),
      zip_ones 1 (h.rI _ (by rw [← rows_vI h]; exact List.mem_map_of_mem (f := fun r : List ℝ × List ℝ × ℝ => r.2.1) hr)), mul_one, mul_one]
  unfold nScreenGf
  rw [hy]
  simp only [bind, Except.bind, pure, Except.pure, List.map_map]
  have hm : ((rowsOf g).map ((fun x : ℝ => decide (|x| > 1e-10)) ∘ fun r => r.1.sum * r.2.1.sum)) = (rowsOf g).map fun r => decide (Strong r) := by
    refine List.map_congr_left fun r _ => ?_
    simp only [Function.comp, Strong, gt_iff_lt]
    exact decide_eq_decide.mpr Iff.rfl
  rw [hm]
  have e1 : maskBy ((rowsOf g).map fun r => decide (Strong r)) g.vF = (weedGf g).vF := by
    conv_lhs => rw [← rows_vF h]
    rw [maskBy_map]; rfl
  have e2 : maskBy ((rowsOf g).map fun r => decide (Strong r)) g.vI = (weedGf g).vI := by
    conv_lhs => rw [← rows_vI h]
    rw [maskBy_map]; rfl
  have e3 : maskBy ((rowsOf g).map fun r => decide (Strong r)) g.E = (weedGf g).E := by
    conv_lhs => rw [← rows_E h]
    rw [maskBy_map]; rfl
  rw [e1, e2, e3]
  congr 1
  by_cases hs : ∃ r ∈ rowsOf g, Strong r
  · rw [if_pos hs, if_pos (by simpa using hs)]
    rfl
  · rw [if_neg hs, if_neg (by simpa using hs)]

theorem nScreenList_ok {n : ℕ} {l : List NSigma} (h : ∀ s ∈ l, ∀ g ∈ s.gf2, ShapedGf n g) :
    nScreenList (List.replicate 2 (List.replicate n 1)) l = .ok (weedList l) := by
  classical
  have k1 : ∀ (gs : List NGf2), (∀ g ∈ gs, ShapedGf n g) → ∀ acc, forM' (nScreenGf (List.replicate 2 (List.replicate n 1))) gs acc =
      .ok (acc ++ (gs.filter fun g => decide (∃ r ∈ rowsOf g, Strong r)).map weedGf) := by
    intro gs
    induction gs with
    | nil => intro _ acc; simp [forM']
    | cons g gs ih =>
      intro hg acc
      rw [forM', nScreenGf_ok (hg g (by simp))]
      simp only [bind, Except.bind]
      rw [ih (fun g' h' => hg g' (by simp [h'])), List.filter_cons]
      by_cases hs : ∃ r ∈ rowsOf g, Strong r
      · rw [if_pos hs, if_pos (by simpa using hs)]; simp
      · rw [if_neg hs, if_neg (by simpa using hs)]
  have k2 : ∀ (l : List NSigma), (∀ s ∈ l, ∀ g ∈ s.gf2, ShapedGf n g) → ∀ acc, forM' (fun acc s => do
      let gfs ← forM' (nScreenGf (List.replicate 2 (List.replicate n 1))) s.gf2 []
      pure (if gfs = [] then acc else acc ++ [(⟨s.spins, gfs, s.dE⟩ : NSigma)])) l acc = .ok (acc ++ weedList l) := by
    intro l
    induction l with
    | nil => intro _ acc; simp [forM', weedList]
    | cons s l ih =>
      intro hl acc
      rw [forM', k1 _ (hl s (by simp))]
      simp only [bind, Except.bind, pure, Except.pure, List.nil_append] at ih ⊢
      rw [ih (fun s' h' => hl s' (by simp [h']))]
      have hw : weedList (s :: l) = (if (weed s).gf2 = [] then [] else [weed s]) ++ weedList l := by
        unfold weedList
        rw [List.map_cons, List.filter_cons]
        by_cases hs : (weed s).gf2 = [] <;> simp [hs]
      rw [hw]
      have hg : (s.gf2.filter fun g => decide (∃ r ∈ rowsOf g, Strong r)).map weedGf = (weed s).gf2 := rfl
      rw [hg]
      by_cases hs : (weed s).gf2 = []
      · rw [if_pos hs, if_pos hs]; simp
      · rw [if_neg hs, if_neg hs]
        simp only [List.append_assoc]
        rfl
  simpa [nScreenList] using k2 l h []

theorem nScreenTest_ok {es : Espace ℕ} {e0 x : ℝ} {p : (NId × NId) × List NSigma} (hl : p.2 ≠ [])
    (hk : ∀ id ∈ [p.1.1, p.1.2], ∃ sct e, nGet es id.1 = .ok sct ∧ sct.eigvals[id.2]? = some e) :
    open Classical in nScreenTest es (some (e0 : ℝ)) x p = .ok (decide (WithinCut es e0 x p.1 p.2)) := by
  classical
  obtain ⟨⟨k1, k2⟩, l⟩ := p
  obtain ⟨s, l, rfl⟩ := List.exists_cons_of_ne_nil hl
  obtain ⟨S1, e1, h1, h1'⟩ := hk k1 (by simp)
  obtain ⟨S2, e2, h2, h2'⟩ := hk k2 (by simp)
  have n1 : NearId es e0 x k1 ↔ |e1 - e0| < x := by
    constructor
    · rintro ⟨S, e, a, b, c⟩
      rw [h1] at a; cases a
      rw [h1'] at b; cases b
      exact c
    · exact fun c => ⟨S1, e1, h1, h1', c⟩
  have n2 : NearId es e0 x k2 ↔ |e2 - e0| < x := by
    constructor
    · rintro ⟨S, e, a, b, c⟩
      rw [h2] at a; cases a
      rw [h2'] at b; cases b
      exact c
    · exact fun c => ⟨S2, e2, h2, h2', c⟩
  have hs : getItem (s :: l) (0 : ℤ) = .ok s := getItem_some (k := 0) rfl
  unfold nScreenTest
  simp only [hs, h1, h2, getItem_some h1', getItem_some h2', bind, Except.bind, pure, Except.pure]
  simp only [WithinCut, n1, n2, List.head?_cons, Option.mem_def, Option.some.injEq, exists_eq_left']
  by_cases a : |s.dE| < x <;> by_cases b : |e1 - e0| < x <;> simp [a, b]

theorem keep_ok {es : Espace ℕ} {e0 x : ℝ} {sd : List ((NId × NId) × List NSigma)} (hl : ∀ p ∈ sd, p.2 ≠ []) (hk : KnownIds es sd) :
    ∀ acc, open Classical in forM' (fun acc p => do let b ← nScreenTest es (some (e0 : ℝ)) x p; pure (if b then acc ++ [p] else acc)) sd acc =
      .ok (acc ++ sd.filter fun p => decide (WithinCut es e0 x p.1 p.2)) := by
  classical
  induction sd with
  | nil => intro acc; simp [forM']
  | cons p sd ih =>
    intro acc
    rw [forM', nScreenTest_ok (hl p (by simp)) (hk p (by simp))]
    have ih' := ih (fun q hq => hl q (by simp [hq])) (fun q hq => hk q (by simp [hq]))
    simp only [bind, Except.bind, pure, Except.pure] at ih' ⊢
    rw [ih', List.filter_cons]
    by_cases h : WithinCut es e0 x p.1 p.2 <;> simp [h]

theorem nScreen_eq {n : ℕ} {es : Espace ℕ} {e0 x : ℝ} {sd : List ((NId × NId) × List NSigma)} (hs : ShapedDict n sd) (hk : KnownIds es sd)
    (hw : ∃ p ∈ sd, WithinCut es e0 x p.1 p.2) : open Classical in
    nScreen sd (some (e0 : ℝ)) es x = .ok (((sd.filter fun p => decide (WithinCut es e0 x p.1 p.2)).map fun p => (p.1, weedList p.2)).filter
      fun q => decide (q.2 ≠ [])) := by
  classical
  have hne : (sd.filter fun p => decide (WithinCut es e0 x p.1 p.2)) ≠ [] := by
    obtain ⟨p, hp, hp'⟩ := hw
    exact List.ne_nil_of_mem (List.mem_filter.mpr ⟨hp, by simpa using hp'⟩)
  have hsub : ∀ p ∈ sd.filter fun p => decide (WithinCut es e0 x p.1 p.2), p ∈ sd := fun p hp => (List.mem_filter.mp hp).1
  have k3 : ∀ (kept : List ((NId × NId) × List NSigma)), (∀ p ∈ kept, p ∈ sd) → ∀ acc, forM' (fun acc p => do
      let l ← nScreenList (List.replicate 2 (List.replicate n 1)) p.2
      pure (if l = [] then acc else acc ++ [(p.1, l)])) kept acc =
      .ok (acc ++ (kept.map fun p => (p.1, weedList p.2)).filter fun q => decide (q.2 ≠ [])) := by
    intro kept
    induction kept with
    | nil => intro _ acc; simp [forM']
    | cons p kept ih =>
      intro hp acc
      rw [forM', nScreenList_ok fun s hs' => ((hs p (hp p (by simp))).2 s hs').2]
      have ih' := ih (fun q hq => hp q (by simp [hq]))
      simp only [bind, Except.bind, pure, Except.pure] at ih' ⊢
      rw [ih', List.map_cons, List.filter_cons]
      by_cases h : weedList p.2 = [] <;> simp [h]
  unfold nScreen
  rw [keep_ok (fun p hp => (hs p hp).1) hk]
  simp only [bind, Except.bind, List.nil_append]
  obtain ⟨p, kept, hpk⟩ := List.exists_cons_of_ne_nil hne
  rw [hpk] at hsub ⊢
  have hp := hs p (hsub p (by simp))
  obtain ⟨s, l, hl⟩ := List.exists_cons_of_ne_nil hp.1
  have hsg := hp.2 s (by rw [hl]; simp)
  obtain ⟨g, gs, hg⟩ := List.exists_cons_of_ne_nil hsg.1
  have hgs := hsg.2 g (by rw [hg]; simp)
  have i1 : getItem p.2 (0 : ℤ) = .ok s := getItem_some (k := 0) (by rw [hl]; rfl)
  have i2 : getItem s.gf2 (0 : ℤ) = .ok g := getItem_some (k := 0) (by rw [hg]; rfl)
  have hn : (g.vF.head?.getD []).length = n := by
    have : g.vF ≠ [] := by
      intro h0
      have := hgs.vF
      rw [h0] at this
      exact hgs.ne (List.length_eq_zero_iff.mp this.symm)
    obtain ⟨r, R, hr⟩ := List.exists_cons_of_ne_nil this
    rw [hr]
    exact hgs.rF r (by rw [hr]; simp)
  simp only [i1, i2, hn]
  have := k3 (p :: kept) hsub []
  simp only [bind, Except.bind, List.nil_append] at this
  exact this

/-! ### The theorems -/

/-- **C149**, part: which transitions remain. If some transition is within the cutoff, the screening succeeds, keeps the order of the
dictionary, and returns exactly the transitions within the cutoff that have an intermediate state contributing more than `1e-10` when
all the sites are coupled with strength one; their elements are the original ones without the other intermediate states. -/
theorem C149_partial {n : ℕ} {es : Espace ℕ} {e0 x : ℝ} {sd : List ((NId × NId) × List NSigma)} (hs : ShapedDict n sd) (hk : KnownIds es sd)
    (hw : ∃ p ∈ sd, WithinCut es e0 x p.1 p.2) :
    ∃ out, nScreen sd (some (e0 : ℝ)) es x = .ok out ∧ (out.map Prod.fst).Sublist (sd.map Prod.fst) ∧
      (∀ k l', (k, l') ∈ out ↔ ∃ l, (k, l) ∈ sd ∧ WithinCut es e0 x k l ∧ l' = weedList l ∧ l' ≠ []) ∧
      (∀ k l, (k, l) ∈ sd → WithinCut es e0 x k l → ((∃ l', (k, l') ∈ out ∧ l' = weedList l) ↔ ∃ s ∈ l, ∃ g ∈ s.gf2, ∃ r ∈ rowsOf g, Strong r)) := by
  classical
  have hmem : ∀ k l', (k, l') ∈ ((sd.filter fun p => decide (WithinCut es e0 x p.1 p.2)).map fun p => (p.1, weedList p.2)).filter
      (fun q => decide (q.2 ≠ [])) ↔ ∃ l, (k, l) ∈ sd ∧ WithinCut es e0 x k l ∧ l' = weedList l ∧ l' ≠ [] := by
    intro k l'
    rw [List.mem_filter, List.mem_map]
    constructor
    · rintro ⟨⟨p, hp, he⟩, hne⟩
      obtain ⟨hp1, hp2⟩ := List.mem_filter.mp hp
      cases he
      exact ⟨p.2, hp1, by simpa using hp2, rfl, by simpa using hne⟩
    · rintro ⟨l, h1, h2, rfl, h4⟩
      exact ⟨⟨(k, l), List.mem_filter.mpr ⟨h1, by simpa using h2⟩, rfl⟩, by simpa using h4⟩
  refine ⟨_, nScreen_eq hs hk hw, ?_, hmem, ?_⟩
  · refine (List.filter_sublist.map Prod.fst).trans ?_
    rw [List.map_map]
    exact List.filter_sublist.map Prod.fst
  · intro k l h1 h2
    have hwl : weedList l ≠ [] ↔ ∃ s ∈ l, ∃ g ∈ s.gf2, ∃ r ∈ rowsOf g, Strong r := by
      unfold weedList
      rw [Ne, List.filter_eq_nil_iff]
      push Not
      constructor
      · rintro ⟨s, hs', hne⟩
        obtain ⟨s, hsl, rfl⟩ := List.mem_map.mp hs'
        have hne : (weed s).gf2 ≠ [] := by simpa using hne
        obtain ⟨g, hg⟩ := List.exists_mem_of_ne_nil _ hne
        obtain ⟨g, hg, -⟩ := List.mem_map.mp hg
        obtain ⟨hg1, hg2⟩ := List.mem_filter.mp hg
        exact ⟨s, hsl, g, hg1, by simpa using hg2⟩
      · rintro ⟨s, hsl, g, hg, hr⟩
        refine ⟨weed s, List.mem_map_of_mem hsl, ?_⟩
        have : (weed s).gf2 ≠ [] := List.ne_nil_of_mem (List.mem_map_of_mem (List.mem_filter.mpr ⟨hg, by simpa using hr⟩))
        simpa using this
    rw [← hwl]
    constructor
    · rintro ⟨l', hl', rfl⟩
      obtain ⟨_, -, -, -, h4⟩ := (hmem _ _).mp hl'
      exact h4
    · exact fun h => ⟨_, (hmem _ _).mpr ⟨l, h1, h2, rfl, h⟩, rfl⟩

theorem strong_rest (c z δ : ℝ) (hδ : 0 < δ) (R : List (List ℝ × List ℝ × ℝ)) (hz : ∀ r ∈ R, δ ≤ |r.2.2 - z|) : open Classical in
    |(R.map fun r => c * (r.1.sum * r.2.1.sum) * (r.2.2 - z)⁻¹).sum -
      ((R.filter fun r => decide (Strong r)).map fun r => c * (r.1.sum * r.2.1.sum) * (r.2.2 - z)⁻¹).sum| ≤ R.length * (|c| * 1e-10 / δ) := by
  classical
  induction R with
  | nil => simp
  | cons r R ih =>
    have ih := ih fun r hr => hz r (by simp [hr])
    have hr := hz r (by simp)
    have hpos : 0 ≤ |c| * 1e-10 / δ := by positivity
    rw [List.map_cons, List.sum_cons, List.filter_cons, List.length_cons, Nat.cast_succ, add_mul, one_mul]
    by_cases h : Strong r
    · rw [if_pos (by simpa using h), List.map_cons, List.sum_cons, add_sub_add_left_eq_sub]
      linarith
    · rw [if_neg (by simpa using h), add_sub_assoc]
      refine (abs_add_le _ _).trans ?_
      have hle : |r.1.sum * r.2.1.sum| ≤ 1e-10 := not_lt.mp h
      have : |c * (r.1.sum * r.2.1.sum) * (r.2.2 - z)⁻¹| ≤ |c| * 1e-10 / δ := by
        rw [abs_mul, abs_mul, abs_inv, div_eq_mul_inv]
        refine mul_le_mul (mul_le_mul_of_nonneg_left hle (abs_nonneg c)) (inv_anti₀ hδ hr) (by positivity) (by positivity)
      linarith

/-- Number of intermediate states of an element. -/
def Spec.pathCount (s : NSigma) : ℕ := (s.gf2.map fun g => g.E.length).sum

/-- **C149**, part: for leads that couple to all the sites alike, the screening changes the amplitude of an element at the energy `z`
by at most `1e-10 |a b| / δ` per intermediate state, where `δ` is the distance of `z` from the energies of the intermediate states. -/
theorem C149_uniform_partial {n : ℕ} {s : NSigma} (hs : ∀ g ∈ s.gf2, ShapedGf n g) {A : List (List ℝ)} {e i : ℕ} {a b z δ : ℝ}
    (ha : A[e]? = some (List.replicate n a)) (hb : A[i]? = some (List.replicate n b)) (hδ : 0 < δ)
    (hz : ∀ g ∈ s.gf2, ∀ E ∈ g.E, δ ≤ |E - z|) :
    ∃ w w', s.call z A e i = .ok (w ^ 2) ∧ (weed s).call z A e i = .ok (w' ^ 2) ∧ |w - w'| ≤ pathCount s * (|a * b| * 1e-10 / δ) := by
  classical
  have hw : ∀ g ∈ (weed s).gf2, ShapedGf n g := by
    intro g' hg'
    obtain ⟨g, hg, rfl⟩ := List.mem_map.mp hg'
    obtain ⟨hg1, hg2⟩ := List.mem_filter.mp hg
    have hg2 : ∃ r ∈ rowsOf g, Strong r := by simpa using hg2
    have h := hs g hg1
    refine ⟨by simp [weedGf], by simp [weedGf], ?_, ?_, ?_⟩
    · intro r hr
      obtain ⟨q, hq, rfl⟩ := List.mem_map.mp hr
      exact h.rF _ (by rw [← rows_vF h]; exact List.mem_map_of_mem (List.mem_filter.mp hq).1)
    · intro r hr
      obtain ⟨q, hq, rfl⟩ := List.mem_map.mp hr
      exact h.rI _ (by rw [← rows_vI h]; exact List.mem_map_of_mem (f := fun r : List ℝ × List ℝ × ℝ => r.2.1) (List.mem_filter.mp hq).1)
    · obtain ⟨r, hr, hr'⟩ := hg2
      exact List.ne_nil_of_mem (List.mem_map_of_mem (f := fun r : List ℝ × List ℝ × ℝ => r.2.2) (List.mem_filter.mpr ⟨hr, by simpa using hr'⟩))
  refine ⟨_, _, sigma_call hs ha hb (by simp) (by simp) z, sigma_call hw ha hb (by simp) (by simp) z, ?_⟩
  -- one amplitude
  have amp : ∀ g, ShapedGf n g → ∀ R : List (List ℝ × List ℝ × ℝ), (∀ r ∈ R, r ∈ rowsOf g) →
      (R.map fun r => (List.zipWith (· * ·) r.1 (if g.el then List.replicate n b else List.replicate n a)).sum *
        (List.zipWith (· * ·) r.2.1 (if g.el then List.replicate n a else List.replicate n b)).sum * (r.2.2 - z)⁻¹) =
      R.map fun r => a * b * (r.1.sum * r.2.1.sum) * (r.2.2 - z)⁻¹ := by
    intro g h R hR
    refine List.map_congr_left fun r hr => ?_
    have l1 := h.rF r.1 (by rw [← rows_vF h]; exact List.mem_map_of_mem (hR r hr))
    have l2 := h.rI r.2.1 (by rw [← rows_vI h]; exact List.mem_map_of_mem (f := fun r : List ℝ × List ℝ × ℝ => r.2.1) (hR r hr))
    cases g.el <;> simp only [if_true, Bool.false_eq_true, if_false] <;> rw [zip_ones _ l1, zip_ones _ l2] <;> ring
  have one : ∀ g ∈ s.gf2, |ampGf (List.replicate n a) (List.replicate n b) z g -
      ampGf (List.replicate n a) (List.replicate n b) z (weedGf g)| ≤ g.E.length * (|a * b| * 1e-10 / δ) := by
    intro g hg
    have h := hs g hg
    have hrow : rowsOf (weedGf g) = (rowsOf g).filter fun r => decide (Strong r) := rowsOf_mk _ _ _
    have hlen : (rowsOf g).length = g.E.length := by rw [← rows_E h, List.length_map]
    unfold ampGf
    rw [hrow]
    have hel : (weedGf g).el = g.el := rfl
    rw [hel, amp g h _ (fun r hr => hr), amp g h _ (fun r hr => (List.mem_filter.mp hr).1), ← hlen]
    refine strong_rest _ _ _ hδ _ fun r hr => hz g hg _ ?_
    rw [← rows_E h]
    exact List.mem_map_of_mem (f := fun r : List ℝ × List ℝ × ℝ => r.2.2) hr
  have zero : ∀ g, (¬ ∃ r ∈ rowsOf g, Strong r) → ampGf (List.replicate n a) (List.replicate n b) z (weedGf g) = 0 := by
    intro g hg
    have hrow : rowsOf (weedGf g) = [] := by
      rw [show rowsOf (weedGf g) = (rowsOf g).filter fun r => decide (Strong r) from rowsOf_mk _ _ _, List.filter_eq_nil_iff]
      push Not at hg
      intro r hr
      simpa using hg r hr
    rw [ampGf, hrow]
    rfl
  unfold ampSigma pathCount weed
  simp only
  have key : ∀ l : List NGf2, (∀ g ∈ l, g ∈ s.gf2) → |(l.map (ampGf (List.replicate n a) (List.replicate n b) z)).sum -
      (((l.filter fun g => decide (∃ r ∈ rowsOf g, Strong r)).map weedGf).map (ampGf (List.replicate n a) (List.replicate n b) z)).sum| ≤
      ((l.map fun g => g.E.length).sum : ℕ) * (|a * b| * 1e-10 / δ) := by
    intro l
    induction l with
    | nil => intro _; simp
    | cons g l ih =>
      intro hl
      have ih := ih fun g' h' => hl g' (by simp [h'])
      have h1 := one g (hl g (by simp))
      have hc : (((g :: l).map fun g => g.E.length).sum : ℕ) * (|a * b| * 1e-10 / δ) =
          g.E.length * (|a * b| * 1e-10 / δ) + ((l.map fun g => g.E.length).sum : ℕ) * (|a * b| * 1e-10 / δ) := by
        rw [List.map_cons, List.sum_cons, Nat.cast_add, add_mul]
      rw [hc, List.map_cons, List.sum_cons, List.filter_cons]
      by_cases h : ∃ r ∈ rowsOf g, Strong r
      · rw [if_pos (by simpa using h), List.map_cons, List.map_cons, List.sum_cons, add_sub_add_comm]
        exact (abs_add_le _ _).trans (add_le_add h1 ih)
      · rw [if_neg (by simpa using h), add_sub_assoc]
        rw [zero g h, sub_zero] at h1
        exact (abs_add_le _ _).trans (add_le_add h1 ih)
  exact key s.gf2 fun g hg => hg

/-! ### Failures -/

/-- C149 is false of the code: if no transition lies within the cutoff, the result is not an empty dictionary but `StopIteration`. -/
theorem C149_empty_refuted {es : Espace ℕ} {e0 x : ℝ} {sd : List ((NId × NId) × List NSigma)} (hl : ∀ p ∈ sd, p.2 ≠ []) (hk : KnownIds es sd)
    (hw : ∀ p ∈ sd, ¬ WithinCut es e0 x p.1 p.2) : nScreen sd (some (e0 : ℝ)) es x = .error .stopIteration := by
  classical
  unfold nScreen
  rw [keep_ok hl hk]
  have : (sd.filter fun p => decide (WithinCut es e0 x p.1 p.2)) = [] := by
    rw [List.filter_eq_nil_iff]
    intro p hp
    simpa using hw p hp
  rw [this]
  rfl

/-- C149 is false of the code: with the number of electrons given and the ground state energy left out, as the signature allows, a
cutoff raises `TypeError` as soon as some transition exchanges less energy than the cutoff. -/
theorem C149_no_energy_refuted {es : Espace ℕ} {x : ℝ} {sd : List ((NId × NId) × List NSigma)} (hl : ∀ p ∈ sd, p.2 ≠ []) (hk : KnownIds es sd)
    (hw : ∃ p ∈ sd, ∃ s ∈ p.2.head?, |s.dE| < x) : nScreen sd none es x = .error .typeError := by
  classical
  have key : ∀ acc, forM' (fun acc p => do let b ← nScreenTest es none x p; pure (if b then acc ++ [p] else acc)) sd acc = .error .typeError := by
    induction sd with
    | nil => obtain ⟨p, hp, _⟩ := hw; simp at hp
    | cons p sd ih =>
      intro acc
      obtain ⟨⟨k1, k2⟩, l⟩ := p
      obtain ⟨s, l, rfl⟩ := List.exists_cons_of_ne_nil (hl _ (List.mem_cons_self))
      obtain ⟨S1, e1, h1, h1'⟩ := hk ((k1, k2), s :: l) (by simp) k1 (by simp)
      have hs : getItem (s :: l) (0 : ℤ) = .ok s := getItem_some (k := 0) rfl
      rw [forM']
      by_cases a : |s.dE| < x
      · have : nScreenTest es none x ((k1, k2), s :: l) = .error .typeError := by
          unfold nScreenTest
          simp only [hs, h1, getItem_some h1', bind, Except.bind]
          rw [if_pos a]
        rw [this]
        rfl
      · have : nScreenTest es none x ((k1, k2), s :: l) = .ok false := by
          unfold nScreenTest
          simp only [hs, h1, getItem_some h1', bind, Except.bind]
          rw [if_neg a]
          rfl
        rw [this]
        simp only [bind, Except.bind, pure, Except.pure] at ih ⊢
        refine ih (fun q hq => hl q (by simp [hq])) (fun q hq => hk q (by simp [hq])) ?_ _
        obtain ⟨q, hq, t, ht, ht'⟩ := hw
        rcases List.mem_cons.mp hq with rfl | hq
        · simp only [List.head?_cons, Option.mem_def, Option.some.injEq] at ht
          subst ht
          exact absurd ht' a
        · exact ⟨q, hq, t, ht, ht'⟩
  unfold nScreen
  rw [key]
  rfl

/-! ### The ground state is never lost -/

theorem forM'_cons_ok {α σ : Type} {f : σ → α → Except PyErr σ} {x : α} {xs : List α} {st r : σ} (h : forM' f (x :: xs) st = .ok r) :
    ∃ st', f st x = .ok st' ∧ forM' f xs st' = .ok r := by
  rw [forM'] at h
  cases hf : f st x with
  | error e => rw [hf] at h; simp at h
  | ok st' => rw [hf] at h; exact ⟨st', rfl, h⟩

theorem forM'_append_ok {α σ : Type} {f : σ → α → Except PyErr σ} {xs ys : List α} {st r : σ} (h : forM' f (xs ++ ys) st = .ok r) :
    ∃ st', forM' f xs st = .ok st' ∧ forM' f ys st' = .ok r := by
  rw [forM'_append] at h
  cases hf : forM' f xs st with
  | error e => rw [hf] at h; simp at h
  | ok st' => rw [hf] at h; exact ⟨st', rfl, h⟩

theorem nExcite2_bind (junk : ℕ) (el : Bool) (spins : ℕ × ℕ) (n : ℕ) (N : ℤ) (es : Espace ℕ) : nExcite2 junk el spins n N es =
    nGet es N >>= fun I => nGet es (if el then N + 1 else N - 1) >>= fun J =>
    (if el then nExciteStates junk spins .c .cdg n I J else nExciteStates junk spins .cdg .c n I J) >>= fun v =>
    pure ((ndindex2 I.eigvals.length I.eigvals.length).map fun fi => (((N, fi.1), (N, fi.2)),
      ⟨el, (List.range J.eigvals.length).map fun j => v.1.map fun M => M fi.1 j,
        (List.range J.eigvals.length).map fun j => v.2.map fun M => M j fi.2,
        if el then J.eigvals.map fun e => e - I.eigvals[fi.1]?.getD 0 else J.eigvals.map fun e => I.eigvals[fi.2]?.getD 0 - e,
        I.eigvals[fi.1]?.getD 0 - I.eigvals[fi.2]?.getD 0⟩)) := by
  unfold nExcite2
  cases el <;> rfl

theorem cotnlSpin_bind (junk n : ℕ) (es : Espace ℕ) (N : ℤ) (sd : List ((NId × NId) × List NSigma)) (spins : ℕ × ℕ) : cotnlSpin junk n es N sd spins =
    (if N + 1 < 2 * n then nExcite2 junk true spins n N es else pure []) >>= fun ge =>
    (if N - 1 > 0 then nExcite2 junk false (spins.2, spins.1) n N es else pure []) >>= fun gh =>
    forM' (fun sd k => mkNSigma spins (dictGet ge k).toOption (dictGet gh k).toOption >>= fun s => pure (appendN sd (k, s)))
      ((ge.map Prod.fst ++ gh.map Prod.fst).dedup) sd := by
  unfold cotnlSpin
  split <;> split <;> rfl

theorem cotnlBuild_bind (junk n : ℕ) (es : Espace ℕ) (egs : ℝ) (cutoff : Option ℝ) : cotnlBuild junk n es none (some egs) cutoff =
    nGround es >>= fun g => match g.1 with
      | none => .error .typeError
      | some N => forM' (cotnlSpin junk n es N) (ndindex2 2 2) [] >>= fun sd => match cutoff with
        | none => pure (sd.mergeSort fun a b => leNN a.1 b.1)
        | some x => nScreen (sd.mergeSort fun a b => leNN a.1 b.1) (some g.2) es x := by
  unfold cotnlBuild
  simp only [bind, Except.bind]
  cases nGround es with
  | error e => rfl
  | ok g =>
    obtain ⟨oN, e⟩ := g
    cases oN with
    | none => rfl
    | some N =>
      simp only [pure, Except.pure]
      cases cutoff <;> rfl

theorem nProjectAll_length {junk spin : ℕ} {op : Ladder} {n : ℕ} {I J : Sct} {l : List (ℕ → ℕ → ℝ)} (h : nProjectAll junk spin op n I J = .ok l) : l.length = n := by
  have key : ∀ (xs : List ℕ) (acc l : List (ℕ → ℕ → ℝ)), forM' (fun acc i => do let M ← nProject junk spin i op n I J; pure (acc ++ [M])) xs acc = .ok l →
      l.length = acc.length + xs.length := by
    intro xs
    induction xs with
    | nil =>
      intro acc l h
      simp only [forM', Except.ok.injEq] at h
      simp [← h]
    | cons x xs ih =>
      intro acc l h
      obtain ⟨st, h1, h2⟩ := forM'_cons_ok h
      obtain ⟨M, -, h3⟩ := ebind_ok h1
      simp only [pure, Except.pure, Except.ok.injEq] at h3
      rw [ih _ _ h2, ← h3]
      simp only [List.length_append, List.length_cons, List.length_nil]
      omega
  simpa using key _ _ _ h

/-- What the entries of a dictionary for the sector `N` look like. -/
structure GoodGf (n : ℕ) (N : ℤ) (I : Sct) (k : NId × NId) (g : NGf2) : Prop where
  N1 : k.1.1 = N
  N2 : k.2.1 = N
  l1 : k.1.2 < I.eigvals.length
  l2 : k.2.2 < I.eigvals.length
  dE : g.dE = I.eigvals[k.1.2]?.getD 0 - I.eigvals[k.2.2]?.getD 0
  sh : ShapedGf n g

theorem nExcite2_good {junk : ℕ} {el : Bool} {spins : ℕ × ℕ} {n : ℕ} {N : ℤ} {es : Espace ℕ} (hes : ∀ M J, nGet es M = .ok J → J.eigvals ≠ [])
    {l : List ((NId × NId) × NGf2)} (h : nExcite2 junk el spins n N es = .ok l) :
    ∃ I, nGet es N = .ok I ∧ (∀ q ∈ l, GoodGf n N I q.1 q.2) ∧ ∀ f i, f < I.eigvals.length → i < I.eigvals.length → ((N, f), (N, i)) ∈ l.map Prod.fst := by
  rw [nExcite2_bind] at h
  obtain ⟨I, hI, h⟩ := ebind_ok h
  obtain ⟨J, hJ, h⟩ := ebind_ok h
  obtain ⟨v, hv, h⟩ := ebind_ok h
  have hlen : v.1.length = n ∧ v.2.length = n := by
    cases el
    all_goals
      simp only [Bool.false_eq_true, if_true, if_false] at hv
      unfold nExciteStates at hv
      obtain ⟨v2, h2, hv⟩ := ebind_ok hv
      obtain ⟨v1, h1, hv⟩ := ebind_ok hv
      simp only [pure, Except.pure, Except.ok.injEq] at hv
      subst hv
      exact ⟨nProjectAll_length h1, nProjectAll_length h2⟩
  simp only [pure, Except.pure, Except.ok.injEq] at h
  subst h
  refine ⟨I, hI, ?_, ?_⟩
  · intro q hq
    obtain ⟨fi, hfi, rfl⟩ := List.mem_map.mp hq
    obtain ⟨h1, h2⟩ := mem_ndindex2.mp hfi
    refine ⟨rfl, rfl, h1, h2, rfl, ?_, ?_, ?_, ?_, ?_⟩
    · cases el <;> simp
    · cases el <;> simp
    · intro r hr
      obtain ⟨j, -, rfl⟩ := List.mem_map.mp hr
      simp [hlen.1]
    · intro r hr
      obtain ⟨j, -, rfl⟩ := List.mem_map.mp hr
      simp [hlen.2]
    · have := hes _ _ hJ
      cases el <;> simpa using this
  · intro f i hf hi
    rw [List.map_map]
    exact List.mem_map.mpr ⟨(f, i), mem_ndindex2.mpr ⟨hf, hi⟩, rfl⟩

/-- What the lists of elements look like. -/
def GoodEntry (n : ℕ) (N : ℤ) (I : Sct) (p : (NId × NId) × List NSigma) : Prop :=
  p.1.1.1 = N ∧ p.1.2.1 = N ∧ p.1.1.2 < I.eigvals.length ∧ p.1.2.2 < I.eigvals.length ∧ p.2 ≠ [] ∧
    ∀ s ∈ p.2, s.dE = I.eigvals[p.1.1.2]?.getD 0 - I.eigvals[p.1.2.2]?.getD 0 ∧ s.gf2 ≠ [] ∧ ∀ g ∈ s.gf2, ShapedGf n g

theorem mkNSigma_good {n : ℕ} {N : ℤ} {I : Sct} {k : NId × NId} {spins : ℕ × ℕ} {e h : Option NGf2} {s : NSigma} (he : ∀ g ∈ e, GoodGf n N I k g)
    (hh : ∀ g ∈ h, GoodGf n N I k g) (hs : mkNSigma spins e h = .ok s) : GoodEntry n N I (k, [s]) := by
  unfold mkNSigma at hs
  split at hs
  · simp at hs
  · rename_i g l hgl
    simp only [Except.ok.injEq] at hs
    have hall : ∀ g' ∈ g :: l, GoodGf n N I k g' := by
      intro g' hg'
      rw [← hgl] at hg'
      rcases List.mem_append.mp hg' with h1 | h1
      · exact he g' (by simpa using h1)
      · exact hh g' (by simpa using h1)
    have hg := hall g (by simp)
    refine ⟨hg.N1, hg.N2, hg.l1, hg.l2, by simp, fun s' hs' => ?_⟩
    simp only [List.mem_singleton] at hs'
    subst hs' hs
    exact ⟨hg.dE, by simp, fun g' hg' => (hall g' hg').sh⟩

theorem appendN_keys {α : Type} (sd : List ((NId × NId) × List α)) (p : (NId × NId) × α) (q : NId × NId) :
    q ∈ (appendN sd p).map Prod.fst ↔ q = p.1 ∨ q ∈ sd.map Prod.fst := by
  unfold appendN dictSet
  split
  · rename_i h
    have : ∀ v : List α, (sd.map fun r => if r.1 = p.1 then (p.1, v) else r).map Prod.fst = sd.map Prod.fst := by
      intro v
      rw [List.map_map]
      refine List.map_congr_left fun r _ => ?_
      simp only [Function.comp]
      split
      · rename_i h'; exact h'.symm
      · rfl
    rw [this]
    constructor
    · exact Or.inr
    · rintro (rfl | h')
      · exact h
      · exact h'
  · simp [or_comm]

theorem appendN_good {n : ℕ} {N : ℤ} {I : Sct} {sd : List ((NId × NId) × List NSigma)} (hsd : ∀ p ∈ sd, GoodEntry n N I p) {k : NId × NId} {s : NSigma}
    (hs : GoodEntry n N I (k, [s])) : ∀ p ∈ appendN sd (k, s), GoodEntry n N I p := by
  intro p hp
  rcases mem_dictSet hp with h | rfl
  · exact hsd p h
  · cases hd : dictGet sd k with
    | error e => simpa using hs
    | ok l =>
      have hl := hsd _ (dictGet_mem_of_ok hd)
      refine ⟨hs.1, hs.2.1, hs.2.2.1, hs.2.2.2.1, by simp, fun t ht => ?_⟩
      simp only [List.mem_append, List.mem_singleton] at ht
      rcases ht with ht | rfl
      · exact hl.2.2.2.2.2 t ht
      · exact hs.2.2.2.2.2 t (by simp)

theorem optGet_good {n : ℕ} {N : ℤ} {I : Sct} {l : List ((NId × NId) × NGf2)} (hl : ∀ q ∈ l, GoodGf n N I q.1 q.2) (k : NId × NId) :
    ∀ g ∈ (dictGet l k).toOption, GoodGf n N I k g := by
  intro g hg
  cases hd : dictGet l k with
  | error e => rw [hd] at hg; simp [Except.toOption] at hg
  | ok g' =>
    rw [hd] at hg
    simp only [Except.toOption, Option.mem_def, Option.some.injEq] at hg
    subst hg
    exact hl _ (dictGet_mem_of_ok hd)

theorem cotnlSpin_good {junk n : ℕ} {N : ℤ} {es : Espace ℕ} (hes : ∀ M J, nGet es M = .ok J → J.eigvals ≠ []) {sd sd' : List ((NId × NId) × List NSigma)}
    {spins : ℕ × ℕ} (h : cotnlSpin junk n es N sd spins = .ok sd') :
    (sd' = sd ∧ ¬ (N + 1 < 2 * n ∨ N - 1 > 0)) ∨ ∃ I, nGet es N = .ok I ∧ ((∀ p ∈ sd, GoodEntry n N I p) → ∀ p ∈ sd', GoodEntry n N I p) ∧
      ∀ f i, f < I.eigvals.length → i < I.eigvals.length → ((N, f), (N, i)) ∈ sd'.map Prod.fst := by
  rw [cotnlSpin_bind] at h
  obtain ⟨ge, hge, h⟩ := ebind_ok h
  obtain ⟨gh, hgh, h⟩ := ebind_ok h
  by_cases hc : N + 1 < 2 * n ∨ N - 1 > 0
  · right
    have main : ∃ I, nGet es N = .ok I ∧ (∀ q ∈ ge, GoodGf n N I q.1 q.2) ∧ (∀ q ∈ gh, GoodGf n N I q.1 q.2) ∧
        ∀ f i, f < I.eigvals.length → i < I.eigvals.length → ((N, f), (N, i)) ∈ ge.map Prod.fst ++ gh.map Prod.fst := by
      by_cases h1 : N + 1 < 2 * n
      · rw [if_pos h1] at hge
        obtain ⟨I, hI, hg, hk⟩ := nExcite2_good hes hge
        by_cases h2 : N - 1 > 0
        · rw [if_pos h2] at hgh
          obtain ⟨I', hI', hg', hk'⟩ := nExcite2_good hes hgh
          rw [hI] at hI'
          cases hI'
          exact ⟨I, hI, hg, hg', fun f i hf hi => List.mem_append_left _ (hk f i hf hi)⟩
        · rw [if_neg h2] at hgh
          simp only [pure, Except.pure, Except.ok.injEq] at hgh
          subst hgh
          exact ⟨I, hI, hg, by simp, fun f i hf hi => List.mem_append_left _ (hk f i hf hi)⟩
      · rw [if_neg h1] at hge
        simp only [pure, Except.pure, Except.ok.injEq] at hge
        subst hge
        rw [if_pos (hc.resolve_left h1)] at hgh
        obtain ⟨I', hI', hg', hk'⟩ := nExcite2_good hes hgh
        exact ⟨I', hI', by simp, hg', fun f i hf hi => by simpa using hk' f i hf hi⟩
    obtain ⟨I, hI, h1, h2, h3⟩ := main
    refine ⟨I, hI, fun hsd => ?_, fun f i hf hi => ?_⟩
    · refine forM'_inv (fun sd => ∀ p ∈ sd, GoodEntry n N I p) ?_ h hsd
      intro st k st' _ hb hst
      obtain ⟨s, hs, hb⟩ := ebind_ok hb
      simp only [pure, Except.pure, Except.ok.injEq] at hb
      subst hb
      exact appendN_good hst (mkNSigma_good (optGet_good h1 k) (optGet_good h2 k) hs)
    · have hk : ((N, f), (N, i)) ∈ (ge.map Prod.fst ++ gh.map Prod.fst).dedup := List.mem_dedup.mpr (h3 f i hf hi)
      obtain ⟨l1, l2, hl⟩ := List.append_of_mem hk
      rw [hl] at h
      obtain ⟨s1, -, h⟩ := forM'_append_ok h
      obtain ⟨s2, hs2, h⟩ := forM'_cons_ok h
      obtain ⟨σ, -, hs2⟩ := ebind_ok hs2
      simp only [pure, Except.pure, Except.ok.injEq] at hs2
      refine forM'_inv (fun sd => ((N, f), (N, i)) ∈ sd.map Prod.fst) ?_ h (by rw [← hs2]; exact (appendN_keys _ _ _).mpr (Or.inl rfl))
      intro st k st' _ hb hst
      obtain ⟨s, hs, hb⟩ := ebind_ok hb
      simp only [pure, Except.pure, Except.ok.injEq] at hb
      subst hb
      exact (appendN_keys _ _ _).mpr (Or.inr hst)
  · left
    push Not at hc
    rw [if_neg (by omega)] at hge
    rw [if_neg (by omega)] at hgh
    simp only [pure, Except.pure, Except.ok.injEq] at hge hgh
    subst hge hgh
    simp only [List.map_nil, List.append_nil, List.dedup_nil, forM', Except.ok.injEq] at h
    exact ⟨h.symm, by omega⟩

theorem nGround_min {es : Espace ℕ} {N : ℕ} {e : WithTop ℝ} (h : nGround es = .ok (some N, e)) :
    (∀ p ∈ es, p.2.eigvals ≠ []) ∧ ∃ (e0 : ℝ) (sct : Sct), e = (e0 : ℝ) ∧ (N, sct) ∈ es ∧ e0 ∈ sct.eigvals := by
  have hmin : ∀ (l : List ℝ) (a : ℝ), l.foldl min a ∈ a :: l := by
    intro l
    induction l with
    | nil => intro a; simp
    | cons b l ih =>
      intro a
      rw [List.foldl_cons]
      have := ih (min a b)
      rcases List.mem_cons.mp this with h | h
      · rcases min_choice a b with h' | h' <;> rw [h, h'] <;> simp
      · simp [h]
  unfold nGround at h
  constructor
  · intro p hp
    obtain ⟨s', t', hb⟩ := forM'_mem _ _ h p hp
    intro h0
    simp [h0] at hb
  · have := forM'_inv (fun st : Option ℕ × WithTop ℝ => ∀ N, st.1 = some N → ∃ (e0 : ℝ) (sct : Sct), st.2 = (e0 : ℝ) ∧ (N, sct) ∈ es ∧ e0 ∈ sct.eigvals) ?_ h
      (by simp)
    · exact this N rfl
    · intro st p st' hp hb hst
      cases he : p.2.eigvals with
      | nil => simp [he] at hb
      | cons a l =>
        simp only [he, pure, Except.pure, Except.ok.injEq] at hb
        subst hb
        intro N
        split
        · intro hN
          simp only [Option.some.injEq] at hN
          subst hN
          refine ⟨l.foldl min a, p.2, rfl, hp, ?_⟩
          rw [he]
          exact hmin l a
        · exact hst N

/-- **C149**, part: when the function looks for the ground state itself, no positive cutoff makes it fail, because the elastic
transition of the ground state is always within the cutoff: if it returns elements without a cutoff, it returns a dictionary with one. -/
theorem C149_ground_partial {junk n : ℕ} {es : Espace ℕ} (hes : (es.map Prod.fst).Nodup) {egs x : ℝ} (hx : 0 < x)
    {sd : List ((NId × NId) × List NSigma)} (h : cotnlBuild junk n es none (some egs) none = .ok sd) (hne : sd ≠ []) :
    ∃ out, cotnlBuild junk n es none (some egs) (some x) = .ok out := by
  classical
  rw [cotnlBuild_bind] at h ⊢
  obtain ⟨⟨oN, e⟩, hgr, h⟩ := ebind_ok h
  cases oN with
  | none => simp at h
  | some N =>
    rw [hgr]
    simp only at h
    obtain ⟨sd0, hsd0, h⟩ := ebind_ok h
    simp only [pure, Except.pure, Except.ok.injEq] at h
    simp only [bind, Except.bind]
    rw [hsd0]
    simp only
    rw [h]
    obtain ⟨hall, e0, S, rfl, hS, he0⟩ := nGround_min hgr
    have hget : nGet es (N : ℤ) = .ok S := by
      unfold nGet
      rw [if_pos (by positivity), Int.toNat_natCast]
      exact dictGet_mem hes hS
    have hes' : ∀ M J, nGet es M = .ok J → J.eigvals ≠ [] := by
      intro M J hM
      unfold nGet at hM
      split at hM
      · exact hall _ (dictGet_mem_of_ok hM)
      · simp at hM
    have inv : (∀ p ∈ sd0, GoodEntry n N S p) ∧ (sd0 = [] ∨ ∀ f i, f < S.eigvals.length → i < S.eigvals.length → (((N : ℤ), f), ((N : ℤ), i)) ∈ sd0.map Prod.fst) := by
      refine forM'_inv (fun sd0 : List ((NId × NId) × List NSigma) => (∀ p ∈ sd0, GoodEntry n N S p) ∧
        (sd0 = [] ∨ ∀ f i, f < S.eigvals.length → i < S.eigvals.length → (((N : ℤ), f), ((N : ℤ), i)) ∈ sd0.map Prod.fst)) ?_ hsd0 (by simp)
      intro st spins st' _ hb hst
      rcases cotnlSpin_good hes' hb with ⟨rfl, -⟩ | ⟨I, hI, h1, h2⟩
      · exact hst
      · rw [hget] at hI
        cases hI
        exact ⟨h1 hst.1, Or.inr h2⟩
    have hmem : ∀ p, p ∈ sd ↔ p ∈ sd0 := fun p => by rw [← h]; exact (List.mergeSort_perm _ _).mem_iff
    have hgood : ∀ p ∈ sd, GoodEntry n N S p := fun p hp => inv.1 p ((hmem p).mp hp)
    have hknown : KnownIds es sd := by
      intro p hp id hid
      have hg := hgood p hp
      simp only [List.mem_cons, List.not_mem_nil, or_false] at hid
      rcases hid with rfl | rfl
      · exact ⟨S, _, by rw [hg.1]; exact hget, List.getElem?_eq_getElem hg.2.2.1⟩
      · exact ⟨S, _, by rw [hg.2.1]; exact hget, List.getElem?_eq_getElem hg.2.2.2.1⟩
    have hshape : ShapedDict n sd := fun p hp => ⟨(hgood p hp).2.2.2.2.1, fun s hs => ((hgood p hp).2.2.2.2.2 s hs).2⟩
    refine ⟨_, nScreen_eq hshape hknown ?_⟩
    obtain ⟨i, hi, hie⟩ := List.getElem_of_mem he0
    have hkey : (((N : ℤ), i), ((N : ℤ), i)) ∈ sd0.map Prod.fst := by
      rcases inv.2 with h0 | h0
      · exfalso
        refine hne ?_
        rw [← h, h0, List.mergeSort_nil]
      · exact h0 i i hi hi
    obtain ⟨p, hp, hpk⟩ := List.mem_map.mp hkey
    refine ⟨p, (hmem p).mpr hp, ?_⟩
    have hg := inv.1 p hp
    have hnear : NearId es e0 x ((N : ℤ), i) := ⟨S, e0, hget, by rw [List.getElem?_eq_getElem hi, hie], by simpa using hx⟩
    rw [WithinCut, hpk]
    refine ⟨?_, hnear, hnear⟩
    obtain ⟨s, l, hl⟩ := List.exists_cons_of_ne_nil hg.2.2.2.2.1
    refine ⟨s, by rw [hl]; rfl, ?_⟩
    rw [(hg.2.2.2.2.2 s (by rw [hl]; simp)).1, hpk, sub_self, abs_zero]
    exact hx

/-! ### Example -/

/-- Two states of a sector; the energy of both is zero. -/
noncomputable def exScreenSpace : Espace ℕ := [(1, ⟨.total [1, 2], 2, [0, 0], [fun k => if k = 0 then 1 else 0, fun k => if k = 1 then 1 else 0]⟩)]

/-- An element with one intermediate state of energy one. -/
noncomputable def exScreenSigma (v : List ℝ) : NSigma := ⟨(0, 0), [⟨true, [v], [v], [1], 0⟩], 0⟩

/-- Two elastic transitions: one over an intermediate state that both sites reach with the same sign, one over a state that they reach
with opposite signs, as for the antisymmetric orbital of two sites. -/
noncomputable def exScreenDict : List ((NId × NId) × List NSigma) :=
  [(((1, 0), (1, 0)), [exScreenSigma [1 / 2, 1 / 2]]), (((1, 1), (1, 1)), [exScreenSigma [1 / 2, -1 / 2]])]

theorem exScreen_shaped : ShapedDict 2 exScreenDict := by
  intro p hp
  simp only [exScreenDict, List.mem_cons, List.not_mem_nil, or_false] at hp
  rcases hp with rfl | rfl
  all_goals
    refine ⟨by simp, fun s hs => ?_⟩
    simp only [List.mem_cons, List.not_mem_nil, or_false] at hs
    subst hs
    refine ⟨by simp [exScreenSigma], fun g hg => ?_⟩
    simp only [exScreenSigma, List.mem_cons, List.not_mem_nil, or_false] at hg
    subst hg
    exact ⟨rfl, rfl, by simp, by simp, by simp⟩

theorem exScreen_known : KnownIds exScreenSpace exScreenDict := by
  intro p hp id hid
  simp only [exScreenDict, List.mem_cons, List.not_mem_nil, or_false] at hp
  have hg : nGet exScreenSpace 1 = .ok (exScreenSpace[0]).2 := rfl
  rcases hp with rfl | rfl <;> simp only [List.mem_cons, List.not_mem_nil, or_false, or_self] at hid <;> subst hid
  · exact ⟨_, 0, hg, rfl⟩
  · exact ⟨_, 0, hg, rfl⟩

theorem exScreen_within {p : (NId × NId) × List NSigma} (hp : p ∈ exScreenDict) {x : ℝ} (hx : 0 < x) : WithinCut exScreenSpace 0 x p.1 p.2 := by
  simp only [exScreenDict, List.mem_cons, List.not_mem_nil, or_false] at hp
  have hg : nGet exScreenSpace 1 = .ok (exScreenSpace[0]).2 := rfl
  rcases hp with rfl | rfl
  · exact ⟨⟨_, rfl, by simpa [exScreenSigma] using hx⟩, ⟨_, 0, hg, rfl, by simpa using hx⟩, ⟨_, 0, hg, rfl, by simpa using hx⟩⟩
  · exact ⟨⟨_, rfl, by simpa [exScreenSigma] using hx⟩, ⟨_, 0, hg, rfl, by simpa using hx⟩, ⟨_, 0, hg, rfl, by simpa using hx⟩⟩

/-- C149 is false of the code: for every positive cutoff, however large, the second transition of the example is removed although its two
states have the energy of the ground state, and although its amplitude for leads coupled to one site only is as large as the one of the
transition that is kept. -/
theorem C149_refuted {x : ℝ} (hx : 0 < x) : ∃ out, nScreen exScreenDict (some ((0 : ℝ) : WithTop ℝ)) exScreenSpace x = .ok out ∧
    out.map Prod.fst = [((1, 0), (1, 0))] ∧ exScreenDict.map Prod.fst = [((1, 0), (1, 0)), ((1, 1), (1, 1))] ∧
    (∀ p ∈ exScreenDict, ∀ s ∈ p.2, s.call 0 [[1, 0], [1, 0]] 1 0 = .ok ((1 / 4) ^ 2)) := by
  classical
  have hrow : ∀ v : List ℝ, rowsOf ⟨true, [v], [v], [1], 0⟩ = [(v, v, 1)] := fun v => rfl
  have s1 : Strong ([1 / 2, 1 / 2], [1 / 2, 1 / 2], 1) := by
    unfold Strong; norm_num
  have s2 : ¬ Strong ([1 / 2, -1 / 2], [1 / 2, -1 / 2], 1) := by
    unfold Strong; norm_num
  have w1 : weedList [exScreenSigma [1 / 2, 1 / 2]] ≠ [] := by
    unfold weedList weed exScreenSigma
    simp only [List.map_cons, List.map_nil, List.filter_cons, List.filter_nil, hrow, List.mem_singleton, exists_eq_left, s1, decide_true, if_true]
    simp
  have w2 : weedList [exScreenSigma [1 / 2, -1 / 2]] = [] := by
    unfold weedList weed exScreenSigma
    simp only [List.map_cons, List.map_nil, List.filter_cons, List.filter_nil, hrow, List.mem_singleton, exists_eq_left, s2, decide_false]
    simp
  refine ⟨_, nScreen_eq exScreen_shaped exScreen_known ⟨_, List.mem_cons_self, exScreen_within List.mem_cons_self hx⟩, ?_, rfl, ?_⟩
  · have hf : (exScreenDict.filter fun p => decide (WithinCut exScreenSpace 0 x p.1 p.2)) = exScreenDict :=
      List.filter_eq_self.mpr fun p hp => by simpa using exScreen_within hp hx
    rw [hf]
    simp only [exScreenDict, List.map_cons, List.map_nil, List.filter_cons, List.filter_nil, w2, w1, ne_eq, not_false_eq_true, decide_true, if_true,
      not_true_eq_false, decide_false, Bool.false_eq_true, if_false]
  · intro p hp s hs
    have h := (exScreen_shaped p hp).2 s hs
    rw [sigma_call (n := 2) (a := [1, 0]) (b := [1, 0]) (e := 1) (i := 0) h.2 rfl rfl rfl rfl 0]
    simp only [exScreenDict, List.mem_cons, List.not_mem_nil, or_false] at hp
    rcases hp with rfl | rfl <;> simp only [List.mem_cons, List.not_mem_nil, or_false] at hs <;> subst hs
    · simp only [ampSigma, exScreenSigma, ampGf, List.map_cons, List.map_nil, hrow]
      norm_num
    · simp only [ampSigma, exScreenSigma, ampGf, List.map_cons, List.map_nil, hrow]
      norm_num

/-- The hypotheses of `C149_partial` and `C149_uniform_partial` are met by the example with couplings of strength one and two. -/
example : ∃ out, nScreen exScreenDict (some ((0 : ℝ) : WithTop ℝ)) exScreenSpace 1 = .ok out ∧ (out.map Prod.fst).Sublist (exScreenDict.map Prod.fst) :=
  let ⟨out, h, h', _⟩ := C149_partial exScreen_shaped exScreen_known ⟨_, List.mem_cons_self, exScreen_within List.mem_cons_self one_pos⟩
  ⟨out, h, h'⟩

example : ∃ w w', (exScreenSigma [1 / 2, 1 / 2]).call 0 [[2, 2], [1, 1]] 1 0 = .ok (w ^ 2) ∧
    (weed (exScreenSigma [1 / 2, 1 / 2])).call 0 [[2, 2], [1, 1]] 1 0 = .ok (w' ^ 2) ∧ |w - w'| ≤ pathCount (exScreenSigma [1 / 2, 1 / 2]) * (|1 * 2| * 1e-10 / 1) :=
  C149_uniform_partial (n := 2) (e := 1) (i := 0) (a := 1) (b := 2) ((exScreen_shaped _ List.mem_cons_self).2 _ List.mem_cons_self).2 rfl rfl one_pos
    (by simp [exScreenSigma])

theorem oneState_ground : nGround (oneState 2) = .ok (some 0, ((0 : ℝ) : WithTop ℝ)) := by
  have h : List.range (2 * 2 + 1) = [0, 1, 2, 3, 4] := rfl
  unfold nGround oneState
  rw [h]
  have e1 : ¬ (((1 : ℕ) : ℝ) : WithTop ℝ) < ((0 : ℝ) : WithTop ℝ) := by rw [WithTop.coe_lt_coe]; norm_num
  have e2 : ¬ (((2 : ℕ) : ℝ) : WithTop ℝ) < ((0 : ℝ) : WithTop ℝ) := by rw [WithTop.coe_lt_coe]; norm_num
  have e3 : ¬ (((3 : ℕ) : ℝ) : WithTop ℝ) < ((0 : ℝ) : WithTop ℝ) := by rw [WithTop.coe_lt_coe]; norm_num
  have e4 : ¬ (((4 : ℕ) : ℝ) : WithTop ℝ) < ((0 : ℝ) : WithTop ℝ) := by rw [WithTop.coe_lt_coe]; norm_num
  have e0 : (((0 : ℕ) : ℝ) : WithTop ℝ) = ((0 : ℝ) : WithTop ℝ) := by norm_num
  simp only [List.map_cons, List.map_nil, forM', List.foldl_nil, pure, Except.pure, e0, WithTop.coe_lt_top, if_true, e1, e2, e3, e4, if_false]

/-- The hypotheses of `C149_ground_partial` are met by two sites with one state in each sector. -/
example : ∃ sd out, cotnlBuild 0 2 (oneState 2) none (some 0) none = .ok sd ∧ sd ≠ [] ∧ cotnlBuild 0 2 (oneState 2) none (some 0) (some 1) = .ok out := by
  have gI : dictGet (oneState 2) 0 = .ok (oneSct 2 0) := oneState_get (by norm_num)
  have gJ : dictGet (oneState 2) 1 = .ok (oneSct 2 1) := oneState_get (by norm_num)
  have hI : NSctOk 2 0 (oneSct 2 0) (gs 32 4 0) := oneSct_ok (n := 2) (by norm_num) (by norm_num)
  have hJ : NSctOk 2 1 (oneSct 2 1) (gs 32 4 1) := oneSct_ok (n := 2) (by norm_num) (by norm_num)
  obtain ⟨sd, h1, h2, h3⟩ := cotnlBuild_flat (junk := 0) (n := 2) (N := 0) (K := oneSct 2 0) (sK := []) (by norm_num) ⟨gI, hI⟩ (fun _ => ⟨gJ, hJ⟩) (by norm_num) none
  have h4 : cotnlBuild 0 2 (oneState 2) none (some 0) none = .ok sd := by
    rw [← h1, cotnlBuild_bind, oneState_ground]
    unfold cotnlBuild
    simp only [bind, Except.bind, pure, Except.pure, Option.map_none]
  have h5 : sd ≠ [] := by
    rintro rfl
    have : flatD ([] : List ((NId × NId) × List NSigma)) = 0 := rfl
    rw [this] at h3
    simp only [show (((0 : ℕ) : ℤ) + 1 < 2 * ((2 : ℕ) : ℤ) ∨ ((0 : ℕ) : ℤ) - 1 > 0) from by norm_num, if_true] at h3
    have hc := congrArg Multiset.card h3
    have : ndindex2 2 2 = [(0, 0), (0, 1), (1, 0), (1, 1)] := rfl
    rw [this] at hc
    simp [oneSct, ndindex2] at hc
  obtain ⟨out, h6⟩ := C149_ground_partial (es := oneState 2) (by simp [oneState, List.map_map, Function.comp_def, List.nodup_range]) one_pos h4 h5
  exact ⟨sd, out, h4, h5, h6⟩

end Edpyt
