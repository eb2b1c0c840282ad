import Verif.Proof.Espace
import Verif.Props.EspaceDim
/-!
Properties of `build_espace` and `solve_sector`: C25, C28, C29, C71.
-/
namespace Edpyt
open Spec

variable {a : HamArgs}

/-- **C71.** `solve_sector` reaches ARPACK only with admissible parameters: whenever `1 ≤ k ≤ d` and LAPACK
is not chosen (`k ≠ d` and `d > 512`), `0 < nev < ncv ≤ n`. -/
theorem C71_arpack_arguments {d k : ℕ} (hk : 1 ≤ k) (hkd : k ≤ d) (hl : ¬ (k = d ∨ d ≤ 512)) :
    0 < k ∧ k < arpackNcv d k ∧ arpackNcv d k ≤ d := by
  have := arpack_args_ok (d := d) (k := k) (by omega) (by omega) (by omega)
  exact ⟨this.2.1, this.2.2⟩

/-- **C71.** For every sector and every requested number `1 ≤ k ≤ d`, `solve_sector` succeeds and every
run returns the lowest `k` eigenpairs: `k` ascending eigenvalues with their orthonormal eigenvectors. -/
theorem C71_solve_sector (ha : a.Valid) {w p q : ℕ} (hw : a.n ≤ w) (hp : p ≤ a.n) (hq : q ≤ a.n) {up dw : List ℕ}
    (hup : generateStates w a.n (p : ℤ) = .ok up) (hdw : generateStates w a.n (q : ℤ) = .ok dw) {k : ℕ} (hk : 1 ≤ k)
    (hkd : k ≤ up.length * dw.length) :
    (∃ r, SolveSector a (.spin up dw) (up.length * dw.length) (some k) r) ∧
    ∀ r, SolveSector a (.spin up dw) (up.length * dw.length) (some k) r →
      ∃ wv, r = .ok wv ∧ wv.1.length = k ∧ wv.2.length = k ∧ LowestPairs a up dw k wv.1 wv.2 := by
  refine ⟨solveSector_exists ha hw hp hq hup hdw k, ?_⟩
  intro r hr
  rcases solveSector_spec ha hw hp hq hup hdw (by omega) hr with ⟨w, v, h, rfl⟩ | ⟨h, -⟩
  · refine ⟨_, rfl, ?_, ?_, h⟩
    all_goals
      obtain ⟨D, w', v', h1, h2, rfl, rfl⟩ := h
      simp [h2.wlen, h2.vlen, h1.size, hkd]
  · omega

/-- The states enumerated for particle numbers `p`. -/
abbrev sectorStates (w n p : ℕ) : List ℕ := gs w n p

theorem solve_item_spec (ha : a.Valid) {w : ℕ} (hw : a.n ≤ w) {x : (ℕ × ℕ) × SectorStates × ℕ}
    (hx : x ∈ (ndindex2 (a.n + 1) (a.n + 1)).map (szItem w a.n)) {k : ℕ} (hk : 0 < k) {wl : List ℝ} {v : List (ℕ → ℝ)}
    (h : SolveSector a x.2.1 x.2.2 (some k) (.ok (wl, v))) :
    LowestPairs a (gs w a.n x.1.1) (gs w a.n x.1.2) k wl v ∧ wl ≠ [] := by
  obtain ⟨q, hq, rfl⟩ := List.mem_map.mp hx
  obtain ⟨h1, h2⟩ := mem_ndindex2.mp hq
  have g1 := generateStates_gs (w := w) (show q.1 ≤ a.n by omega)
  have g2 := generateStates_gs (w := w) (show q.2 ≤ a.n by omega)
  rcases solveSector_spec ha hw (by omega) (by omega) g1 g2 hk h with ⟨w', v', hl, e⟩ | ⟨-, -, e⟩
  · simp only [Except.ok.injEq, Prod.mk.injEq] at e
    obtain ⟨rfl, rfl⟩ := e
    refine ⟨hl, ?_⟩
    obtain ⟨D, w1, v1, f1, f2, rfl, -⟩ := hl
    have : 0 < D.size := by
      rw [f1.size, gs_length (by omega), gs_length (by omega)]
      exact Nat.mul_pos (Nat.choose_pos (by omega)) (Nat.choose_pos (by omega))
    intro hnil
    have := congrArg List.length hnil
    simp [f2.wlen] at this
    omega
  · cases e

theorem forall₂_mem_right {α β : Type} {R : α → β → Prop} {l : List α} {m : List β} (h : List.Forall₂ R l m) {y : β}
    (hy : y ∈ m) : ∃ x ∈ l, R x y := by
  induction h with
  | nil => simp at hy
  | cons hr _ ih =>
    rcases List.mem_cons.mp hy with rfl | hy
    · exact ⟨_, by simp, hr⟩
    · obtain ⟨x, hx, hr'⟩ := ih hy
      exact ⟨x, by simp [hx], hr'⟩

/-- **C28.** Every successful run of `build_espace` (any solver results meeting the contract, any
`neig_sector`) returns, in lexicographic sector order, exactly the sectors with `neig ≠ 0`; each holds the
lowest `neig` eigenpairs of its Hamiltonian, `min(neig, dim)` of them; and `egs` is the minimum of all
returned eigenvalues (infinity if there are none). -/
theorem C28_build_espace (ha : a.Valid) {w : ℕ} (hw : a.n ≤ w) (neig : List ℕ) (es : Espace (ℕ × ℕ)) (egs : WithTop ℝ)
    (h : BuildEspace w a (some neig) (.ok (es, egs))) :
    es.map Prod.fst = (ndindex2 (a.n + 1) (a.n + 1)).filter (fun q => decide (neig[q.1 * (a.n + 1) + q.2]?.getD 0 ≠ 0)) ∧
    (∀ p ∈ es, p.2.states = .spin (sectorStates w a.n p.1.1) (sectorStates w a.n p.1.2) ∧
      p.2.d = a.n.choose p.1.1 * a.n.choose p.1.2 ∧
      LowestPairs a (sectorStates w a.n p.1.1) (sectorStates w a.n p.1.2) (neig[p.1.1 * (a.n + 1) + p.1.2]?.getD 0)
        p.2.eigvals p.2.eigvecs ∧
      p.2.eigvals.length = min (neig[p.1.1 * (a.n + 1) + p.1.2]?.getD 0) p.2.d ∧
      p.2.eigvecs.length = p.2.eigvals.length) ∧
    ((es = [] ∧ egs = ⊤) ∨ ∃ E : ℝ, egs = E ∧ IsLeast {x | ∃ p ∈ es, x ∈ p.2.eigvals} E) := by
  simp only [BuildEspace, neigOrDefault, szIterSectors_eq, EspaceLoop] at h
  obtain ⟨-, new, h1, h2, h3⟩ := espaceLoop_ok (P := fun q k wl v => LowestPairs a (gs w a.n q.1) (gs w a.n q.2) k wl v) _
    (fun x hx k wl v hk hs => solve_item_spec ha hw hx hk hs)
    (by rw [List.map_map]; exact (nodup_ndindex2 _ _).map fun x y h => h) _ _ (by simp) h
  simp only [List.nil_append] at h1 h2
  subst h1
  rw [List.filter_map] at h3
  have h3' : List.Forall₂ _ ((ndindex2 (a.n + 1) (a.n + 1)).filter _) es := List.forall₂_map_left_iff.mp h3
  refine ⟨?_, ?_, ?_⟩
  · have : List.Forall₂ (fun x y => x = y) ((ndindex2 (a.n + 1) (a.n + 1)).filter
        (fun q => decide (neig[q.1 * (a.n + 1) + q.2]?.getD 0 ≠ 0))) (es.map Prod.fst) := by
      rw [List.forall₂_map_right_iff]
      exact h3'.imp fun x p hp => hp.1.symm
    exact (List.forall₂_eq_eq_eq ▸ this).symm
  · intro p hp
    obtain ⟨q, hq, r1, r2, r3, r4, r5⟩ := forall₂_mem_right h3' hp
    obtain ⟨b1, b2⟩ := mem_ndindex2.mp (List.mem_of_mem_filter hq)
    have r1' : p.1 = q := r1
    have hd : p.2.d = a.n.choose q.1 * a.n.choose q.2 := by
      rw [r3]; simp only [szItem]; rw [gs_length (by omega), gs_length (by omega)]
    rw [r1']
    refine ⟨r2, hd, r4, ?_, ?_⟩
    · obtain ⟨D, w', v', f1, f2, f3, f4⟩ := r4
      rw [f3, hd, List.length_take, f2.wlen, f1.size]
      simp only [szItem]
      rw [gs_length (by omega), gs_length (by omega)]
    · obtain ⟨D, w', v', f1, f2, f3, f4⟩ := r4
      rw [f3, f4, List.length_take, List.length_take, f2.wlen, f2.vlen]
  · have hegs : egs = minE es := by rw [h2]; simp
    have hne : ∀ p ∈ es, p.2.eigvals ≠ [] := by
      intro p hp
      obtain ⟨q, hq, r1, r2, r3, r4, r5⟩ := forall₂_mem_right h3' hp
      exact r5
    by_cases he : es = []
    · left; exact ⟨he, by rw [hegs, he]; rfl⟩
    · right
      obtain ⟨p, hp, x, hx, e⟩ := minE_mem he hne
      refine ⟨x, hegs.trans e, ⟨p, hp, hx⟩, ?_⟩
      rintro y ⟨p', hp', hy⟩
      have := minE_le hp' hy
      rw [e] at this
      exact_mod_cast this

/-- **C29.** The ground state energy does not depend on how many eigenvalues are requested, as long as it
is at least one per sector: any two successful runs return the same `egs`. -/
theorem C29_egs_independent (ha : a.Valid) {w : ℕ} (hw : a.n ≤ w) (neig neig' : List ℕ) (es es' : Espace (ℕ × ℕ))
    (egs egs' : WithTop ℝ) (h : BuildEspace w a (some neig) (.ok (es, egs))) (h' : BuildEspace w a (some neig') (.ok (es', egs')))
    (hpos : ∀ i, i < (a.n + 1) * (a.n + 1) → 1 ≤ neig[i]?.getD 0) (hpos' : ∀ i, i < (a.n + 1) * (a.n + 1) → 1 ≤ neig'[i]?.getD 0) :
    egs = egs' := by
  obtain ⟨k1, s1, m1⟩ := C28_build_espace ha hw neig es egs h
  obtain ⟨k2, s2, m2⟩ := C28_build_espace ha hw neig' es' egs' h'
  have hidx : ∀ q ∈ ndindex2 (a.n + 1) (a.n + 1), q.1 * (a.n + 1) + q.2 < (a.n + 1) * (a.n + 1) := by
    intro q hq
    obtain ⟨b1, b2⟩ := mem_ndindex2.mp hq
    calc q.1 * (a.n + 1) + q.2 < (q.1 + 1) * (a.n + 1) := by rw [Nat.succ_mul]; omega
      _ ≤ _ := Nat.mul_le_mul_right _ (by omega)
  rw [List.filter_eq_self.mpr (fun q hq => by have := hpos _ (hidx q hq); simp; omega)] at k1
  rw [List.filter_eq_self.mpr (fun q hq => by have := hpos' _ (hidx q hq); simp; omega)] at k2
  have hmem : ((0, 0) : ℕ × ℕ) ∈ ndindex2 (a.n + 1) (a.n + 1) := mem_ndindex2.mpr ⟨by simp, by simp⟩
  -- every eigenvalue of one run is bounded below by one of the other
  have key : ∀ (n1 n2 : List ℕ) (e1 e2 : Espace (ℕ × ℕ)),
      (∀ i, i < (a.n + 1) * (a.n + 1) → 1 ≤ n2[i]?.getD 0) →
      e1.map Prod.fst = ndindex2 (a.n + 1) (a.n + 1) → e2.map Prod.fst = ndindex2 (a.n + 1) (a.n + 1) →
      (∀ p ∈ e1, LowestPairs a (gs w a.n p.1.1) (gs w a.n p.1.2) (n1[p.1.1 * (a.n + 1) + p.1.2]?.getD 0) p.2.eigvals p.2.eigvecs) →
      (∀ p ∈ e2, LowestPairs a (gs w a.n p.1.1) (gs w a.n p.1.2) (n2[p.1.1 * (a.n + 1) + p.1.2]?.getD 0) p.2.eigvals p.2.eigvecs) →
      ∀ p ∈ e1, ∀ x ∈ p.2.eigvals, ∃ p' ∈ e2, ∃ y ∈ p'.2.eigvals, y ≤ x := by
    intro n1 n2 e1 e2 hn2 hk1 hk2 l1 l2 p hp x hx
    have hq : p.1 ∈ e2.map Prod.fst := by rw [hk2, ← hk1]; exact List.mem_map_of_mem hp
    obtain ⟨p', hp', e⟩ := List.mem_map.mp hq
    refine ⟨p', hp', ?_⟩
    obtain ⟨D, wl, vl, f1, f2, f3, -⟩ := l1 p hp
    have l2' := l2 p' hp'
    rw [e] at l2'
    obtain ⟨D', wl', vl', g1, g2, g3, -⟩ := l2'
    obtain ⟨hs, hv⟩ := f1.agree g1
    have hw' := f2.unique g2 hs hv
    rw [f3] at hx
    have hxm := List.mem_of_mem_take hx
    have hpos2 := hn2 (p.1.1 * (a.n + 1) + p.1.2) (hidx p.1 (by rw [← hk1]; exact List.mem_map_of_mem hp))
    have hne : wl ≠ [] := List.ne_nil_of_mem hxm
    obtain ⟨y, ys, rfl⟩ := List.exists_cons_of_ne_nil hne
    refine ⟨y, ?_, ?_⟩
    · rw [g3, ← hw']
      obtain ⟨k, hk⟩ : ∃ k, n2[p.1.1 * (a.n + 1) + p.1.2]?.getD 0 = k + 1 := ⟨_, (Nat.succ_pred_eq_of_pos hpos2).symm⟩
      rw [hk, List.take_succ_cons]
      simp
    · have := f2.sorted
      rw [List.pairwise_cons] at this
      rcases List.mem_cons.mp hxm with rfl | h
      · exact le_refl _
      · exact this.1 x h
  have ne1 : es ≠ [] := by intro hc; rw [hc] at k1; rw [← k1] at hmem; simp at hmem
  have ne2 : es' ≠ [] := by intro hc; rw [hc] at k2; rw [← k2] at hmem; simp at hmem
  rcases m1 with ⟨hc, -⟩ | ⟨E, rfl, hE⟩
  · exact absurd hc ne1
  rcases m2 with ⟨hc, -⟩ | ⟨E', rfl, hE'⟩
  · exact absurd hc ne2
  congr 1
  apply le_antisymm
  · obtain ⟨p, hp, hx⟩ := hE'.1
    obtain ⟨p', hp', y, hy, hle⟩ := key neig' neig es' es hpos k2 k1 (fun p hp => (s2 p hp).2.2.1) (fun p hp => (s1 p hp).2.2.1) p hp E' hx
    exact (hE.2 ⟨p', hp', hy⟩).trans hle
  · obtain ⟨p, hp, hx⟩ := hE.1
    obtain ⟨p', hp', y, hy, hle⟩ := key neig neig' es es' hpos' k1 k2 (fun p hp => (s1 p hp).2.2.1) (fun p hp => (s2 p hp).2.2.1) p hp E hx
    exact (hE'.2 ⟨p', hp', hy⟩).trans hle

/-- `neig_sector` requests at most the dimension of every sector. -/
def NeigBounded (n : ℕ) (neig : List ℕ) : Prop :=
  neig.length = (n + 1) * (n + 1) ∧ ∀ p q, p ≤ n → q ≤ n → neig[p * (n + 1) + q]?.getD 0 ≤ n.choose p * n.choose q

/-- **C25, the part that holds.** For `2 ≤ n ≤ 32` sites `build_espace` never raises, and has a run, for
every admissible `neig_sector`. -/
theorem C25_build_espace_partial (ha : a.Valid) {w : ℕ} (hw : a.n ≤ w) (neig : List ℕ) (hn : NeigBounded a.n neig) :
    (∃ res, BuildEspace w a (some neig) (.ok res)) ∧ ∀ r, BuildEspace w a (some neig) r → ∃ res, r = .ok res := by
  simp only [BuildEspace, neigOrDefault, szIterSectors_eq, EspaceLoop]
  have := espaceLoop_no_error (a := a) (idx := fun q : ℕ × ℕ => q.1 * (a.n + 1) + q.2) (neig := neig)
    ((ndindex2 (a.n + 1) (a.n + 1)).map (szItem w a.n)) ?_ ?_ ([], ⊤)
  · exact ⟨this.2, this.1⟩
  · intro x hx
    obtain ⟨q, hq, rfl⟩ := List.mem_map.mp hx
    obtain ⟨b1, b2⟩ := mem_ndindex2.mp hq
    rw [hn.1]
    calc q.1 * (a.n + 1) + q.2 < (q.1 + 1) * (a.n + 1) := by rw [Nat.succ_mul]; omega
      _ ≤ _ := Nat.mul_le_mul_right _ (by omega)
  · intro x hx k hk hk0
    obtain ⟨q, hq, rfl⟩ := List.mem_map.mp hx
    obtain ⟨b1, b2⟩ := mem_ndindex2.mp hq
    have g1 := generateStates_gs (w := w) (show q.1 ≤ a.n by omega)
    have g2 := generateStates_gs (w := w) (show q.2 ≤ a.n by omega)
    refine ⟨?_, solveSector_exists ha hw (by omega) (by omega) g1 g2 k⟩
    intro e he
    rcases solveSector_spec ha hw (by omega) (by omega) g1 g2 hk0 he with ⟨w', v', -, e'⟩ | ⟨hlt, -, -⟩
    · cases e'
    · have := hn.2 q.1 q.2 (by omega) (by omega)
      have hk' : neig[q.1 * (a.n + 1) + q.2]? = some k := hk
      rw [hk', Option.getD_some] at this
      rw [gs_length (by omega), gs_length (by omega)] at hlt
      omega

/-- The default (`neig_sector=None`) requests all eigenvalues and is admissible. -/
theorem C25_default_neig (n : ℕ) : ∃ l, neigOrDefault n none .sz = .ok l ∧ NeigBounded n l := by
  refine ⟨_, by simp only [neigOrDefault]; rw [getEspaceDim_sz], ?_, ?_⟩
  · simp [clipDim, length_ndindex2]
  · intro p q hp hq
    have hlt : p * (n + 1) + q < (ndindex2 (n + 1) (n + 1)).length := by
      rw [length_ndindex2]
      calc p * (n + 1) + q < (p + 1) * (n + 1) := by rw [Nat.succ_mul]; omega
        _ ≤ _ := Nat.mul_le_mul_right _ (by omega)
    have hdm := divmod_split (n := n + 1) (b := p) (i := q) (by omega)
    simp [clipDim, List.getElem?_eq_getElem hlt, getElem_ndindex2, hdm.1, hdm.2, getSectorDim, binom_natCast]

/-- **C25 is false for one site.** With a plain interaction array every run of `build_espace` on a
one-site problem raises `IndexError` (`todense` pops from an empty list). -/
theorem C25_refuted (hn : a.n = 1) (hU : a.V.U.isSome) (hx : a.V.Jx = none) (hp : a.V.Jp = none) (w : ℕ)
    (r : Except PyErr (Espace (ℕ × ℕ) × WithTop ℝ)) (h : BuildEspace w a none r) : r = .error .indexError := by
  obtain ⟨l, hl, hlb⟩ := C25_default_neig a.n
  have hl' := hl
  simp only [BuildEspace, hl, szIterSectors_eq, EspaceLoop] at h
  have hl2 : l = [1, 1, 1, 1] := by
    rw [hn] at hl'
    have : neigOrDefault 1 none .sz = .ok [1, 1, 1, 1] := by decide
    rw [this] at hl'
    exact (Except.ok.inj hl').symm
  subst hl2
  have hnd : ndindex2 (a.n + 1) (a.n + 1) = [(0, 0), (0, 1), (1, 0), (1, 1)] := by rw [hn]; rfl
  rw [hnd] at h
  obtain ⟨U, hU⟩ := Option.isSome_iff_exists.mp hU
  have step : ∀ st' r', EspaceStep a (fun q : ℕ × ℕ => q.1 * (a.n + 1) + q.2) [1, 1, 1, 1] ([], ⊤) (szItem w a.n (0, 0)) r' →
      r' = .error .indexError ∧ r' ≠ .ok st' := by
    intro st' r' hs
    have key : ∀ r1, SolveSector a (szItem w a.n (0, 0)).2.1 (szItem w a.n (0, 0)).2.2 (some 1) r1 → r1 = .error .indexError := by
      intro r1 hr1
      have hd : (szItem w a.n (0, 0)).2.2 = 1 := by simp only [szItem]; rw [gs_length (by omega)]; simp
      simp only [SolveSector, hd, Option.getD_some, lt_irrefl, if_false, true_or, if_true] at hr1
      obtain ⟨r2, hr2, rfl⟩ := hr1
      have hbuild : ∀ r3, a.Build (szItem w a.n (0, 0)).2.1 r3 → ∃ diag, r3 = .ok [Op.loc diag] := by
        rintro r3 ⟨jk, bj, hb⟩
        simp only [BuildMbHam, szItem, hU] at hb
        obtain ⟨diag, -, hb⟩ := hb
        exact ⟨diag, by rw [hb]; simp [mbHamSpin, hn, hx, hp, bind, Except.bind, pure, Except.pure]⟩
      rcases hr2 with ⟨e, he, -⟩ | ⟨ops, hb, hr2⟩
      · obtain ⟨_, h⟩ := hbuild _ he; cases h
      · obtain ⟨diag, h⟩ := hbuild _ hb
        obtain rfl := Except.ok.inj h
        have ht : todense [Op.loc diag] = .error .indexError := by simp [todense, Op.dense2]
        rcases hr2 with ⟨e, he, rfl⟩ | ⟨D, w', v', he, -⟩
        · rw [ht] at he; rw [← Except.error.inj he]; rfl
        · rw [ht] at he; cases he
    have hidx : getItem [1, 1, 1, 1] (((szItem w a.n (0, 0)).1.1 * (a.n + 1) + (szItem w a.n (0, 0)).1.2 : ℕ) : ℤ) = .ok 1 := by
      simp [szItem, getItem, pyIndex]
    simp only [EspaceStep, hidx] at hs
    rcases hs with ⟨e, he, rfl⟩ | ⟨w', v', he, -⟩
    · rw [Except.error.inj (key _ he)]; exact ⟨rfl, by simp⟩
    · cases key _ he
  rcases h with ⟨st', h1, -⟩ | ⟨e, h1, rfl⟩
  · exact absurd rfl (step st' _ h1).2
  · rw [Except.error.inj (step ([], ⊤) _ h1).1]

/-- The item yielded by the iterator over total particle numbers. -/
def nItem (w n : ℕ) (k : ℕ) : ℕ × SectorStates × ℕ := (k, .total (gs w (2 * n) k), (gs w (2 * n) k).length)

theorem nIterSectors_eq (w n : ℕ) : nIterSectors w n = .ok ((List.range (2 * n + 1)).map (nItem w n)) := by
  unfold nIterSectors
  rw [forM'_concat _ (fun k => [nItem w n k])]
  · rw [← List.map_eq_flatMap]; rfl
  · intro acc k hk
    rw [generateStates_gs (by have := List.mem_range.mp hk; omega)]
    rfl

/-- **C25 is false for `symmetry='N'` with a plain interaction array**, for every number of sites: the
operator list has only the diagonal and `todense` raises `IndexError`. -/
theorem C25_refuted_N (hU : a.V.U.isSome) (hx : a.V.Jx = none) (hp : a.V.Jp = none) (w : ℕ)
    (r : Except PyErr (Espace ℕ × WithTop ℝ)) (h : NBuildEspace w a none r) : r = .error .indexError := by
  have hl : neigOrDefault a.n none .N = .ok ((List.range (2 * a.n + 1)).map fun k => (2 * a.n).choose k) := by
    simp only [neigOrDefault]; rw [getEspaceDim_N]; simp [clipDim]
  simp only [NBuildEspace, hl, nIterSectors_eq, EspaceLoop, List.range_succ_eq_map, List.map_cons] at h
  obtain ⟨U, hU⟩ := Option.isSome_iff_exists.mp hU
  have key : ∀ r1, SolveSector a (nItem w a.n 0).2.1 (nItem w a.n 0).2.2 (some 1) r1 → r1 = .error .indexError := by
    intro r1 hr1
    have hd : (nItem w a.n 0).2.2 = 1 := by simp only [nItem]; rw [gs_length (by omega)]; simp
    simp only [SolveSector, hd, Option.getD_some, lt_irrefl, if_false, true_or, if_true] at hr1
    obtain ⟨r2, hr2, rfl⟩ := hr1
    have hbuild : ∀ r3, a.Build (nItem w a.n 0).2.1 r3 → ∃ diag, r3 = .ok [Op.loc diag] := by
      rintro r3 ⟨jk, bj, hb⟩
      simp only [BuildMbHam, nItem, hU] at hb
      obtain ⟨diag, -, hb⟩ := hb
      exact ⟨diag, by rw [hb]; simp [mbHamTotal, hx, hp, pure, Except.pure]⟩
    rcases hr2 with ⟨e, he, -⟩ | ⟨ops, hb, hr2⟩
    · obtain ⟨_, h⟩ := hbuild _ he; cases h
    · obtain ⟨diag, h⟩ := hbuild _ hb
      obtain rfl := Except.ok.inj h
      have ht : todense [Op.loc diag] = .error .indexError := by simp [todense, Op.dense2]
      rcases hr2 with ⟨e, he, rfl⟩ | ⟨D, w', v', he, -⟩
      · rw [ht] at he; rw [← Except.error.inj he]; rfl
      · rw [ht] at he; cases he
  have step : ∀ l r', EspaceStep a (fun q : ℕ => q) ((2 * a.n).choose 0 :: l) ([], ⊤) (nItem w a.n 0) r' → r' = .error .indexError := by
    intro l r' hs
    have hidx : getItem ((2 * a.n).choose 0 :: l) (((nItem w a.n 0).1 : ℕ) : ℤ) = .ok 1 := by
      rw [getItem_natCast _ _ (by simp [nItem])]; simp [nItem]
    simp only [EspaceStep, hidx] at hs
    rcases hs with ⟨e, he, rfl⟩ | ⟨w', v', he, -⟩
    · rw [Except.error.inj (key _ he)]
    · cases key _ he
  rcases h with ⟨st', h1, -⟩ | ⟨e, h1, rfl⟩
  · have := step _ _ h1; cases this
  · exact step _ _ h1

/-- Non-vacuity: two sites, unit hopping, on-site repulsion 4, half-filling mode. -/
def exampleArgs : HamArgs :=
  ⟨2, fun _ i j => if i = j then 0 else 1, .array fun i j => if i = j then 4 else 0, none, true, 0⟩

theorem exampleArgs_valid : exampleArgs.Valid := by
  refine ⟨le_refl 2, by simp [exampleArgs], rfl, ?_, by simp [exampleArgs, VArg.array], by simp [exampleArgs, VArg.array], by simp [exampleArgs, VArg.array]⟩
  intro s i j _ _
  simp only [exampleArgs, eq_comm]

example : ∃ es egs, BuildEspace 64 exampleArgs (some [1, 2, 1, 2, 4, 2, 1, 2, 1]) (.ok (es, egs)) ∧ es.length = 9 := by
  have hb : NeigBounded 2 [1, 2, 1, 2, 4, 2, 1, 2, 1] := by
    refine ⟨rfl, ?_⟩
    intro p q hp hq
    interval_cases p <;> interval_cases q <;> decide
  obtain ⟨⟨⟨es, egs⟩, h⟩, -⟩ := C25_build_espace_partial exampleArgs_valid (w := 64) (by simp [exampleArgs]) _ hb
  refine ⟨es, egs, h, ?_⟩
  have := (C28_build_espace exampleArgs_valid (by simp [exampleArgs]) _ es egs h).1
  have h2 := congrArg List.length this
  rw [List.length_map] at h2
  rw [h2]
  rfl

example : ∃ r, BuildEspace 64 ⟨1, fun _ _ _ => 0, .array fun _ _ => 2, none, true, 0⟩ none r ∧ r = .error .indexError := by
  refine ⟨_, ?_, rfl⟩
  have : neigOrDefault 1 none .sz = .ok [1, 1, 1, 1] := by decide
  simp only [BuildEspace, this, szIterSectors_eq, EspaceLoop]
  right
  refine ⟨_, ?_, rfl⟩
  have hidx : getItem [1, 1, 1, 1] (((szItem 64 1 (0, 0)).1.1 * (1 + 1) + (szItem 64 1 (0, 0)).1.2 : ℕ) : ℤ) = .ok 1 := by
    simp [szItem, getItem, pyIndex]
  simp only [EspaceStep, hidx]
  left
  refine ⟨_, ?_, rfl⟩
  have hd : (szItem 64 1 (0, 0)).2.2 = 1 := by simp only [szItem]; rw [gs_length (by omega)]; simp
  simp only [SolveSector, hd, Option.getD_some, lt_irrefl, if_false, true_or, if_true]
  obtain ⟨diag, hdiag⟩ : ∃ diag, BuildHamLocal 1 (fun _ _ _ => (0 : ℝ)) (fun _ _ => 2) none true 0 (gs 64 1 0) (gs 64 1 0) diag :=
    ⟨_, _, Interleaving.sequential _, rfl⟩
  refine ⟨.error .indexError, Or.inr ⟨[Op.loc diag], ⟨⟨fun _ => 0, fun _ => 0⟩, 0, ?_⟩, Or.inl ⟨_, ?_, rfl⟩⟩, rfl⟩
  · simp only [BuildMbHam, VArg.array, szItem]
    exact ⟨diag, hdiag, by simp [mbHamSpin, bind, Except.bind, pure, Except.pure]⟩
  · simp [todense, Op.dense2]

end Edpyt
