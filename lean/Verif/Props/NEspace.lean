import Verif.Proof.NEspace
import Verif.Props.NTransitions
import Verif.Props.FreeSpectrum
/-!
`build_espace(H, V, symmetry='N')`: C168.
-/
namespace Edpyt
open Spec Matrix

variable {a : HamArgs}

/-- The eigenstates of all sectors of fixed particle number. -/
abbrev NIdx (n : ℕ) := (N : Fin (n + n + 1)) × Fin ((n + n).choose N)

/-- The sector of `N` electrons. -/
def nSctAt (es : Espace ℕ) (N : ℕ) : Sct :=
  match dictGet es N with
  | .ok s => s
  | .error _ => ⟨.total [], 0, [], []⟩

/-- The eigenvector `k` of a sector of fixed particle number as a Fock space vector. -/
def Sct.ketTotal (s : Sct) (m k : ℕ) : Finset (Fin m) → ℝ :=
  match s.states with
  | .total st => ketN m st (s.eigvecs[k]?.getD 0)
  | .spin _ _ => 0

/-- Eigenvector and eigenvalue number `x`. -/
def nKet (n : ℕ) (es : Espace ℕ) (x : NIdx n) : Finset (Fin (n + n)) → ℝ := (nSctAt es x.1).ketTotal (n + n) x.2
def nVal (n : ℕ) (es : Espace ℕ) (x : NIdx n) : ℝ := (nSctAt es x.1).eigvals[(x.2 : ℕ)]?.getD 0

theorem nGs (w n N : ℕ) (hN : N ≤ n + n) : generateStates w (n + n) (N : ℤ) = .ok (gs w (n + n) N) := generateStates_gs hN

theorem nItem_eq (w n N : ℕ) : nItem w n N = (N, .total (gs w (n + n) N), (gs w (n + n) N).length) := by unfold nItem; rw [two_mul]

theorem nSolve_item (ha : a.NValid) {w : ℕ} (hw : a.n + a.n ≤ w) {x : ℕ × SectorStates × ℕ} (hx : x ∈ (List.range (2 * a.n + 1)).map (nItem w a.n))
    {k : ℕ} (hk : 0 < k) {wl : List ℝ} {v : List (ℕ → ℝ)} (h : SolveSector a x.2.1 x.2.2 (some k) (.ok (wl, v))) :
    LowestPairsN a (gs w (a.n + a.n) x.1) k wl v ∧ wl ≠ [] := by
  obtain ⟨N, hN, rfl⟩ := List.mem_map.mp hx
  have hN' : N ≤ a.n + a.n := by have := List.mem_range.mp hN; omega
  rw [nItem_eq] at h ⊢
  rcases nSolveSector_spec ha hw hN' (nGs w a.n N hN') hk h with ⟨w', v', hl, e⟩ | ⟨-, -, e⟩
  · simp only [Except.ok.injEq, Prod.mk.injEq] at e
    obtain ⟨rfl, rfl⟩ := e
    refine ⟨hl, ?_⟩
    obtain ⟨D, w1, v1, f1, f2, rfl, -⟩ := hl
    have : 0 < D.size := by rw [f1.size, gs_length hN']; exact Nat.choose_pos hN'
    intro hnil
    have := congrArg List.length hnil
    simp [f2.wlen] at this
    omega
  · cases e

/-- **C168** Every successful run of `build_espace(…, neig_sector, symmetry='N')` returns the sectors of 0, 1, …, 2n electrons with `neig ≠ 0` in this order;
each holds the lowest `min(neig, dim)` eigenpairs of `hamN` on its basis states, and `egs` is the least returned eigenvalue. -/
theorem C168_sectors (ha : a.NValid) {w : ℕ} (hw : a.n + a.n ≤ w) (neig : List ℕ) (es : Espace ℕ) (egs : WithTop ℝ)
    (h : NBuildEspace w a (some neig) (.ok (es, egs))) :
    es.map Prod.fst = (List.range (2 * a.n + 1)).filter (fun N => decide (neig[N]?.getD 0 ≠ 0)) ∧
    (∀ p ∈ es, p.2.states = .total (gs w (a.n + a.n) p.1) ∧ p.2.d = (a.n + a.n).choose p.1 ∧
      LowestPairsN a (gs w (a.n + a.n) p.1) (neig[p.1]?.getD 0) p.2.eigvals p.2.eigvecs ∧
      p.2.eigvals.length = min (neig[p.1]?.getD 0) p.2.d ∧ p.2.eigvecs.length = p.2.eigvals.length) ∧
    ((es = [] ∧ egs = ⊤) ∨ ∃ E : ℝ, egs = E ∧ IsLeast {x | ∃ p ∈ es, x ∈ p.2.eigvals} E) := by
  simp only [NBuildEspace, neigOrDefault, nIterSectors_eq, EspaceLoop] at h
  obtain ⟨-, new, h1, h2, h3⟩ := espaceLoop_ok (P := fun N k wl v => LowestPairsN a (gs w (a.n + a.n) N) k wl v) _
    (fun x hx k wl v hk hs => nSolve_item ha hw hx hk hs)
    (by rw [List.map_map]; exact (List.nodup_range).map fun x y h => h) _ _ (by simp) h
  simp only [List.nil_append] at h1 h2
  subst h1
  rw [List.filter_map] at h3
  have h3' : List.Forall₂ _ ((List.range (2 * a.n + 1)).filter _) es := List.forall₂_map_left_iff.mp h3
  refine ⟨?_, ?_, ?_⟩
  · have : List.Forall₂ (fun x y => x = y) ((List.range (2 * a.n + 1)).filter
        (fun N => decide (neig[N]?.getD 0 ≠ 0))) (es.map Prod.fst) := by
      rw [List.forall₂_map_right_iff]
      exact h3'.imp fun x p hp => hp.1.symm
    exact (List.forall₂_eq_eq_eq ▸ this).symm
  · intro p hp
    obtain ⟨q, hq, r1, r2, r3, r4, r5⟩ := forall₂_mem_right h3' hp
    have b1 : q ≤ a.n + a.n := by have := List.mem_range.mp (List.mem_of_mem_filter hq); omega
    have r1' : p.1 = q := r1
    rw [nItem_eq] at r2 r3 r4
    have hd : p.2.d = (a.n + a.n).choose q := by rw [r3]; exact gs_length b1
    rw [r1']
    refine ⟨r2, hd, r4, ?_, ?_⟩
    · obtain ⟨D, w', v', f1, f2, f3, f4⟩ := r4
      rw [f3, hd, List.length_take, f2.wlen, f1.size]
      simp only
      rw [gs_length b1]
    · obtain ⟨D, w', v', f1, f2, f3, f4⟩ := r4
      rw [f3, f4, List.length_take, List.length_take, f2.wlen, f2.vlen]
  · have hegs : egs = minE es := by rw [h2]; simp
    have hne : ∀ p ∈ es, p.2.eigvals ≠ [] := by
      intro p hp
      obtain ⟨q, hq, r1, r2, r3, r4, r5⟩ := forall₂_mem_right h3' hp
      exact r5
    by_cases he : es = []
    · left; exact ⟨he, by rw [hegs, he]; rfl⟩
    · right
      obtain ⟨p, hp, x, hx, e⟩ := minE_mem he hne
      refine ⟨x, hegs.trans e, ⟨p, hp, hx⟩, ?_⟩
      rintro y ⟨p', hp', hy⟩
      have := minE_le hp' hy
      rw [e] at this
      exact_mod_cast this

/-- The default numbers of eigenvalues. -/
def nDims (n : ℕ) : List ℕ := (List.range (2 * n + 1)).map fun k => (2 * n).choose k

theorem nBuild_none (w : ℕ) (r) : NBuildEspace w a none r ↔ NBuildEspace w a (some (nDims a.n)) r := by
  have hl : neigOrDefault a.n none .N = .ok (nDims a.n) := by simp only [neigOrDefault]; rw [getEspaceDim_N]; simp [clipDim, nDims]
  simp only [NBuildEspace, hl]
  simp only [neigOrDefault]

theorem nDims_get {n N : ℕ} (hN : N ≤ n + n) : (nDims n)[N]? = some ((n + n).choose N) := by
  unfold nDims
  rw [List.getElem?_map, List.getElem?_range (by omega), two_mul]; rfl

/-- **C168** The construction succeeds: a run exists and no run raises, for every list of non-negative numbers not larger than the sector dimensions. -/
theorem C168_runs (ha : a.NValid) {w : ℕ} (hw : a.n + a.n ≤ w) (neig : List ℕ) (hl : 2 * a.n + 1 ≤ neig.length)
    (hle : ∀ N, N ≤ a.n + a.n → neig[N]?.getD 0 ≤ (a.n + a.n).choose N) :
    (∀ r, NBuildEspace w a (some neig) r → ∃ res, r = .ok res) ∧ ∃ res, NBuildEspace w a (some neig) (.ok res) := by
  simp only [NBuildEspace, neigOrDefault, nIterSectors_eq, EspaceLoop]
  refine espaceLoop_no_error _ ?_ ?_ _
  · intro x hx
    obtain ⟨N, hN, rfl⟩ := List.mem_map.mp hx
    have := List.mem_range.mp hN
    simp only [nItem]; omega
  · intro x hx k hk hpos
    obtain ⟨N, hN, rfl⟩ := List.mem_map.mp hx
    have hN' : N ≤ a.n + a.n := by have := List.mem_range.mp hN; omega
    rw [nItem_eq] at hk ⊢
    refine ⟨fun e he => ?_, nSolveSector_exists ha hw hN' (nGs w a.n N hN') k⟩
    rcases nSolveSector_spec ha hw hN' (nGs w a.n N hN') hpos he with ⟨_, _, -, h⟩ | ⟨h1, -, -⟩
    · cases h
    · have := hle N hN'
      simp only at hk
      rw [hk, Option.getD_some] at this
      rw [gs_length hN'] at h1
      omega

/-- **C168** The same for the default numbers: without `neig_sector` the call always succeeds. -/
theorem C168_default_runs (ha : a.NValid) {w : ℕ} (hw : a.n + a.n ≤ w) :
    (∀ r, NBuildEspace w a none r → ∃ res, r = .ok res) ∧ ∃ res, NBuildEspace w a none (.ok res) := by
  simp only [nBuild_none]
  refine C168_runs ha hw _ (by simp [nDims]) fun N hN => ?_
  rw [nDims_get hN]; exact le_rfl

/-- Shape of the default run. -/
theorem nEspace_at (ha : a.NValid) {w : ℕ} (hw : a.n + a.n ≤ w) {es : Espace ℕ} {egs : WithTop ℝ} (h : NBuildEspace w a none (.ok (es, egs))) :
    es.map Prod.fst = List.range (2 * a.n + 1) ∧ ∀ N, N ≤ a.n + a.n → ∃ D, (N, nSctAt es N) ∈ es ∧ dictGet es N = .ok (nSctAt es N) ∧
      (nSctAt es N).states = .total (gs w (a.n + a.n) N) ∧ (nSctAt es N).d = (a.n + a.n).choose N ∧
      IsSectorHamN a (gs w (a.n + a.n) N) D ∧ Eigh D (nSctAt es N).eigvals (nSctAt es N).eigvecs := by
  rw [nBuild_none] at h
  obtain ⟨c1, c2, -⟩ := C168_sectors ha hw _ _ _ h
  have hk : es.map Prod.fst = List.range (2 * a.n + 1) := by
    rw [c1, List.filter_eq_self]
    intro N hN
    have hN' : N ≤ a.n + a.n := by have := List.mem_range.mp hN; omega
    rw [nDims_get hN', decide_eq_true_eq]
    exact (Nat.choose_pos hN').ne'
  refine ⟨hk, fun N hN => ?_⟩
  obtain ⟨s, hs⟩ := dictGet_of_key (es := es) (q := N) (by rw [hk, List.mem_range]; omega)
  have e : nSctAt es N = s := by unfold nSctAt; rw [hs]
  rw [e]
  have hm := dictGet_mem_of_ok hs
  obtain ⟨d1, d2, ⟨D, w', v', f1, f2, f3, f4⟩, d4, d5⟩ := c2 _ hm
  refine ⟨D, hm, hs, d1, d2, f1, ?_⟩
  simp only at f3 f4
  rw [nDims_get hN, Option.getD_some, List.take_of_length_le (by rw [f2.wlen, f1.size, gs_length hN])] at f3
  rw [nDims_get hN, Option.getD_some, List.take_of_length_le (by rw [f2.vlen, f1.size, gs_length hN])] at f4
  rw [f3, f4]
  exact f2

theorem gsN_list (ha : a.NValid) {w N : ℕ} (hw : a.n + a.n ≤ w) (hN : N ≤ a.n + a.n) : SectorList (a.n + a.n) N (gs w (a.n + a.n) N) :=
  sectorList_of_generate ha.le hw hN (nGs w a.n N hN)

/-- **C168** Without `neig_sector` the returned vectors are an orthonormal eigenbasis of `hamN` on the whole Fock space, the vector `k` of the sector `N` is
supported on states of `N` electrons, the eigenvalues of each sector ascend, and `egs` is the least eigenvalue. -/
theorem C168_eigenbasis (ha : a.NValid) {w : ℕ} (hw : a.n + a.n ≤ w) {es : Espace ℕ} {egs : WithTop ℝ} (h : NBuildEspace w a none (.ok (es, egs))) :
    es.map Prod.fst = List.range (2 * a.n + 1) ∧ NEspaceOk a.n es ∧ EigBasis a.hamN (nKet a.n es) (nVal a.n es) ∧
      (∀ (x : NIdx a.n) S, nKet a.n es x S ≠ 0 → S.card = x.1) ∧ (∀ p ∈ es, p.2.eigvals.Pairwise (· ≤ ·)) ∧
      ∃ E : ℝ, egs = E ∧ IsLeast (Set.range (nVal a.n es)) E := by
  obtain ⟨hk, hat⟩ := nEspace_at ha hw h
  have hket : ∀ x : NIdx a.n, nKet a.n es x = ketN (a.n + a.n) (gs w (a.n + a.n) x.1) ((nSctAt es x.1).eigvecs[(x.2 : ℕ)]?.getD 0) := by
    intro x
    obtain ⟨D, -, -, hs, -⟩ := hat x.1 (by have := x.1.2; omega)
    unfold nKet Sct.ketTotal
    rw [hs]
  refine ⟨hk, ?_, ⟨?_, ?_, ?_⟩, ?_, ?_, ?_⟩
  · intro N hN
    obtain ⟨D, -, hg, hs, hd, -⟩ := hat N (by omega)
    refine ⟨_, _, hg, hs, ?_, ?_⟩
    · rw [two_mul]; exact gsN_list ha hw (by omega)
    · rw [hd, gs_length (by omega)]
  · rw [Fintype.card_sigma, Fintype.card_finset, Fintype.card_fin]
    simp only [Fintype.card_fin]
    rw [← Finset.sum_range (fun i => (a.n + a.n).choose i), Nat.sum_range_choose]
  · rintro ⟨N, k⟩ ⟨N', k'⟩
    rw [hket, hket]
    have b := N.2
    have b' := N'.2
    have sL := gsN_list ha hw (N := N) (by omega)
    by_cases hq : N = N'
    · subst hq
      obtain ⟨D, -, -, -, -, f1, f2⟩ := hat N (by omega)
      rw [ketN_inner sL]
      have hs : D.size = (gs w (a.n + a.n) N).length := f1.size
      have hk1 : (k : ℕ) < (nSctAt es N).eigvecs.length := by rw [f2.vlen, hs, gs_length (by omega)]; exact k.2
      have hk2 : (k' : ℕ) < (nSctAt es N).eigvecs.length := by rw [f2.vlen, hs, gs_length (by omega)]; exact k'.2
      have := f2.orth k k' hk1 hk2
      rw [hs] at this
      rw [List.getElem?_eq_getElem hk1, List.getElem?_eq_getElem hk2]
      simp only [Option.getD_some]
      rw [this]
      congr 1
      simp [Fin.ext_iff]
    · rw [if_neg (by intro hh; apply hq; simp only [Sigma.mk.injEq] at hh; exact hh.1)]
      exact ketN_perp sL (gsN_list ha hw (by omega)) (fun e => hq (Fin.ext e)) _ _
  · rintro ⟨N, k⟩
    have b := N.2
    obtain ⟨D, -, -, -, -, f1, f2⟩ := hat N (by omega)
    rw [hket]
    apply sectorN_eigen (gsN_list ha hw (by omega)) f1
    intro r hr
    have hs : D.size = (gs w (a.n + a.n) N).length := f1.size
    have hk1 : (k : ℕ) < (nSctAt es N).eigvecs.length := by rw [f2.vlen, hs, gs_length (by omega)]; exact k.2
    have hk2 : (k : ℕ) < (nSctAt es N).eigvals.length := by rw [f2.wlen, hs, gs_length (by omega)]; exact k.2
    have := f2.eig k hk1 hk2 r hr
    simp only [nVal]
    rw [List.getElem?_eq_getElem hk1, List.getElem?_eq_getElem hk2]
    exact this
  · intro x S hS
    rw [hket] at hS
    exact ketN_support (gsN_list ha hw (by have := x.1.2; omega)) _ hS
  · intro p hp
    have hpk : p.1 ≤ a.n + a.n := by
      have : p.1 ∈ List.range (2 * a.n + 1) := hk ▸ List.mem_map.mpr ⟨p, hp, rfl⟩
      have := List.mem_range.mp this; omega
    obtain ⟨D, hm, hg, -, -, -, f2⟩ := hat p.1 hpk
    have nd : (es.map Prod.fst).Nodup := by rw [hk]; exact List.nodup_range
    have : p.2 = nSctAt es p.1 := by
      have := List.inj_on_of_nodup_map nd hp hm rfl
      exact (Prod.ext_iff.mp this).2
    rw [this]
    exact f2.sorted
  · obtain ⟨-, -, c3⟩ := C168_sectors ha hw _ _ _ ((nBuild_none w _).mp h)
    rcases c3 with ⟨he, -⟩ | ⟨E, hE, ⟨p, hp, hx⟩, hleast⟩
    · rw [he] at hk; simp at hk
    · refine ⟨E, hE, ?_, ?_⟩
      · have hpk : p.1 ≤ a.n + a.n := by
          have : p.1 ∈ List.range (2 * a.n + 1) := hk ▸ List.mem_map.mpr ⟨p, hp, rfl⟩
          have := List.mem_range.mp this; omega
        obtain ⟨D, hm, hg, -, -, f1, f2⟩ := hat p.1 hpk
        have nd : (es.map Prod.fst).Nodup := by rw [hk]; exact List.nodup_range
        have he : p.2 = nSctAt es p.1 := (Prod.ext_iff.mp (List.inj_on_of_nodup_map nd hp hm rfl)).2
        rw [he] at hx
        obtain ⟨i, hi, e⟩ := List.getElem_of_mem hx
        have hi' : i < (a.n + a.n).choose p.1 := by rw [f2.wlen, f1.size, gs_length hpk] at hi; exact hi
        refine ⟨⟨⟨p.1, by omega⟩, ⟨i, hi'⟩⟩, ?_⟩
        simp only [nVal]
        rw [List.getElem?_eq_getElem hi]; exact e
      · rintro y ⟨x, rfl⟩
        have b := x.1.2
        obtain ⟨D, hm, -, -, -, f1, f2⟩ := hat x.1 (by omega)
        have hi : (x.2 : ℕ) < (nSctAt es x.1).eigvals.length := by rw [f2.wlen, f1.size, gs_length (by omega)]; exact x.2.2
        refine hleast ⟨_, hm, ?_⟩
        simp only [nVal]
        rw [List.getElem?_eq_getElem hi]
        exact List.getElem_mem hi

/-! ### The one-body part -/

theorem loopAdd_congr {n : ℕ} {f g : ℕ → ℝ} (h : ∀ i, i < n → f i = g i) (x : ℝ) : loopAdd n f x = loopAdd n g x := by
  unfold loopAdd
  apply List.foldl_ext
  intro y i hi
  rw [h i (List.mem_range.mp hi)]

/-- **C168** Hopping and the spin-up levels have no effect at all: two one-body parts with the same diagonal `H[1]` give the same runs. -/
theorem C168_ignores_hopping (a : HamArgs) (H' : ℕ → ℕ → ℕ → ℝ) (hH : ∀ i, i < a.n → H' 1 i i = a.H 1 i i) (w : ℕ) (neig : Option (List ℕ)) (r) :
    NBuildEspace w { a with H := H' } neig r ↔ NBuildEspace w a neig r := by
  have e1 : ∀ (U : ℕ → ℕ → ℝ) z s, nLocalEntry a.n H' U z a.hf a.mu s = nLocalEntry a.n a.H U z a.hf a.mu s := by
    intro U z s
    unfold nLocalEntry
    simp only
    congr 1
    exact loopAdd_congr (fun i hi => by rw [hH i hi]) _
  have e2 : ∀ L r, HamArgs.Build { a with H := H' } (.total L) r ↔ a.Build (.total L) r := by
    intro L r
    unfold HamArgs.Build BuildMbHam NBuildHamLocal nLocalOps
    simp only [e1]
    cases a.V.U <;> exact Iff.rfl
  have e3 : ∀ L d k r, SolveSector { a with H := H' } (.total L) d k r ↔ SolveSector a (.total L) d k r := by
    intro L d k r
    unfold SolveSector SolveLapack SolveArpack
    simp only [e2]
  have e4 : ∀ (l : List ℕ) (xs : List (ℕ × SectorStates × ℕ)), (∀ x ∈ xs, ∃ L, x.2.1 = .total L) → ∀ st r,
      ForR (EspaceStep { a with H := H' } (fun q => q) l) xs st r ↔ ForR (EspaceStep a (fun q => q) l) xs st r := by
    intro l xs
    induction xs with
    | nil => intro _ st r; rfl
    | cons x xs ih =>
      intro hx st r
      obtain ⟨L, hL⟩ := hx x (by simp)
      have hs : ∀ st r, EspaceStep { a with H := H' } (fun q => q) l st x r ↔ EspaceStep a (fun q => q) l st x r := by
        intro st r
        unfold EspaceStep
        simp only [hL, e3]
      unfold ForR
      simp only [hs, ih (fun y hy => hx y (by simp [hy]))]
  unfold NBuildEspace EspaceLoop
  simp only [nIterSectors_eq]
  cases neigOrDefault a.n neig .N with
  | error e => exact Iff.rfl
  | ok l =>
    simp only
    refine e4 l _ ?_ _ _
    intro x hx
    obtain ⟨N, -, rfl⟩ := List.mem_map.mp hx
    exact ⟨_, rfl⟩

/-! ### Comparison with `symmetry='sz'` -/

/-- What both constructions agree on: spin-independent levels, no hopping and no spin exchange above `1e-7`. -/
structure HamArgs.Agree (a : HamArgs) : Prop where
  diag : ∀ i, i < a.n → a.H 0 i i = a.H 1 i i
  hop : ∀ s i j, i < a.n → j < a.n → i ≠ j → |a.H s i j| ≤ 1 / 10 ^ 7
  ex : ∀ A ∈ a.V.Jx, ∀ i j, i < a.n → j < a.n → i ≠ j → |A i j| ≤ 1 / 10 ^ 7

theorem hamN_eq_ham (h : a.Agree) : a.hamN = a.ham := by
  have hk : (fun (_ : Bool) (i j : Fin a.n) => if i = j then a.H 1 i i + a.mu else 0) = fun s => kept (n := a.n) a.mu (a.H (if s then 1 else 0)) := by
    funext s i j
    rw [kept_apply]
    by_cases e : i = j
    · subst e
      cases s
      · simp [h.diag i i.2]
      · simp
    · rw [if_neg e, if_neg e, if_neg]
      exact not_lt.mpr (h.hop _ i j i.2 j.2 fun e' => e (Fin.ext e'))
  have hx : offdiag (n := a.n) (optMat a.V.Jx) = fun _ _ => 0 := by
    funext i j
    unfold offdiag
    rw [if_neg]
    rintro ⟨e, h1⟩
    cases hJ : a.V.Jx with
    | none =>
      rw [hJ] at h1
      simp only [optMat, Option.getD_none, abs_zero] at h1
      norm_num at h1
    | some A =>
      rw [hJ] at h1
      exact absurd h1 (not_lt.mpr (h.ex A (by rw [hJ]; rfl) i j i.2 j.2 fun e' => e (Fin.ext e')))
  unfold HamArgs.hamN HamArgs.ham codeExchange
  rw [hk, hx, exchange_split]
  have z1 : exchangeSame (K := ℝ) (n := a.n) (fun _ _ => 0) = 0 := by unfold exchangeSame; simp
  have z2 : exchangeFlip (K := ℝ) (n := a.n) (fun _ _ => 0) = 0 := by unfold exchangeFlip; simp
  rw [z1, z2]
  simp

/-- **C168**, what holds of "the spectrum does not depend on the symmetry": if the levels do not depend on the spin and hopping and spin exchange are negligible,
the eigenvalues of the sector of `N` electrons are those of all sectors `(nup, ndw)` with `nup + ndw = N`, and `egs` is the same.
Missing: hopping, spin-dependent levels and spin exchange (`C168_refuted_symmetry`, C19, C22). -/
theorem C168_same_spectrum_partial (ha : a.Valid) (hN : a.NValid) (hg : a.Agree) {w : ℕ} (hw : a.n + a.n ≤ w) {es : Espace (ℕ × ℕ)} {esN : Espace ℕ} {egs egsN : WithTop ℝ}
    (h : BuildEspace w a none (.ok (es, egs))) (h' : NBuildEspace w a none (.ok (esN, egsN))) :
    egsN = egs ∧ ∀ N, N ≤ a.n + a.n → ∀ f : ℝ → ℝ,
      ((nSctAt esN N).eigvals.map f).sum = ∑ u ∈ Finset.range (a.n + 1), ∑ d ∈ Finset.range (a.n + 1), if u + d = N then ((sctAt es (u, d)).eigvals.map f).sum else 0 := by
  obtain ⟨-, -, hB, hsup, -, E, rfl, hE⟩ := C168_eigenbasis hN hw h'
  have hB' := hB
  rw [hamN_eq_ham hg] at hB
  have he := buildEspace_eigen ha (by omega) h
  refine ⟨?_, fun N hN0 f => ?_⟩
  · obtain ⟨E', rfl⟩ := egs_real ha (by omega) h
    exact congrArg _ (hE.unique (esVal_least ha (by omega) h hB))
  · have hs := EigBasis.sum_eq he.basis.symm hB he.basis (fun x => ((x.1 : ℕ) : ℕ)) (fun y => (y.1.1 : ℕ) + (y.1.2 : ℕ)) (by
      intro x y hxy
      apply Finset.sum_eq_zero; intro S _
      by_contra hne
      apply hxy
      have h1 := hsup x S (left_ne_zero_of_mul hne)
      have hr := right_ne_zero_of_mul hne
      obtain ⟨up, dw, -, -, hok, -⟩ := he.toCompleteEspace.at (u := y.1.1) (d := y.1.2) (by have := y.1.1.2; omega) (by have := y.1.2.2; omega)
      simp only [esKet, hok.ket_eq] at hr
      obtain ⟨h2, h3⟩ := ket_support hok.hup hok.hdw _ hr
      have := card_spinCount S
      rw [h2, h3, h1] at this
      exact_mod_cast this) (fun q E => if q = N then f E else 0)
    have hat := (nEspace_at hN hw h').2
    have sumList : ∀ (l : List ℝ) (d : ℕ), l.length = d → (l.map f).sum = ∑ k : Fin d, f (l[(k : ℕ)]?.getD 0) := by
      intro l d hd
      subst hd
      rw [← List.sum_ofFn]
      congr 1
      apply List.ext_getElem (by simp)
      intro i h1 h2
      simp at h1
      simp [h1]
    have L : ∑ x : NIdx a.n, (if (x.1 : ℕ) = N then f (nVal a.n esN x) else 0) = ((nSctAt esN N).eigvals.map f).sum := by
      obtain ⟨D, -, -, -, -, f1, f2⟩ := hat N hN0
      rw [Fintype.sum_sigma, Finset.sum_eq_single (⟨N, by omega⟩ : Fin (a.n + a.n + 1)), sumList _ ((a.n + a.n).choose N) (by rw [f2.wlen, f1.size, gs_length hN0])]
      · simp [nVal]
      · intro b _ hb
        apply Finset.sum_eq_zero; intro k _
        rw [if_neg (fun e => hb (Fin.ext e))]
      · simp
    have R : ∑ y : EigIdx a.n, (if (y.1.1 : ℕ) + (y.1.2 : ℕ) = N then f (esVal a.n es y) else 0) =
        ∑ u ∈ Finset.range (a.n + 1), ∑ d ∈ Finset.range (a.n + 1), if u + d = N then ((sctAt es (u, d)).eigvals.map f).sum else 0 := by
      rw [Fintype.sum_sigma, Fintype.sum_prod_type, Finset.sum_range]
      apply Finset.sum_congr rfl; intro u _
      rw [Finset.sum_range]
      apply Finset.sum_congr rfl; intro d _
      obtain ⟨up, dw, -, -, -, -, -, hl⟩ := he.toCompleteEspace.at (u := u) (d := d) (by have := u.2; omega) (by have := d.2; omega)
      simp only
      by_cases hq : (u : ℕ) + d = N
      · simp only [if_pos hq, esVal]
        rw [sumList _ _ hl]
      · simp only [if_neg hq]; simp
    rw [← L, ← R]
    exact hs

/-- Two sites with hopping 1 and vanishing interaction arrays. -/
noncomputable def hopArgs : HamArgs := { freeArgs with V := ⟨some fun _ _ => 0, some fun _ _ => 0, some fun _ _ => 0⟩ }

theorem hopArgs_valid : hopArgs.Valid :=
  { freeArgs_valid with
    hU := rfl
    symmX := by intro A hA; cases hA; intros; rfl
    symmP := by intro A hA; cases hA; intros; rfl
    hJ := by intro h; simp [hopArgs] at h }

theorem hopArgs_nvalid : hopArgs.NValid :=
  ⟨by simp [hopArgs, freeArgs], rfl, Or.inl rfl, hopArgs_valid.symmX, hopArgs_valid.symmP⟩

theorem hopArgs_ham : hopArgs.ham = freeArgs.ham := by
  have hx : offdiag (n := 2) (optMat (K := ℝ) (some fun _ _ => 0)) = fun _ _ => 0 := by
    funext i j; exact offdiag_zero i j
  have h1 : codeExchange (n := 2) (K := ℝ) (some fun _ _ => 0) (some fun _ _ => 0) = codeExchange none none := by
    unfold codeExchange; rfl
  unfold HamArgs.ham
  exact congrArg _ h1

theorem hopArgs_hamN : hopArgs.hamN = 0 := by
  have hz : ∀ (z : Fin 2 → ℝ), hubbard (n := 2) (K := ℝ) false (fun _ _ _ => 0) z (fun _ _ => 0) = 0 := by
    intro z
    unfold hubbard kinetic onsiteU interSite
    simp
  have hx : spinExchange (K := ℝ) (n := 2) (fun _ _ => 0) = 0 := by unfold spinExchange; simp
  have hp : pairHopping (K := ℝ) (n := 2) (fun _ _ => 0) = 0 := by unfold pairHopping; simp
  have ho : offdiag (n := 2) (optMat (K := ℝ) (some fun _ _ => 0)) = fun _ _ => 0 := by
    funext i j; exact offdiag_zero i j
  have hd : (fun (_ : Bool) (i j : Fin 2) => if i = j then hopArgs.H 1 i i + hopArgs.mu else 0) = fun _ _ _ => (0 : ℝ) := by
    funext s i j; simp [hopArgs, freeArgs]
  unfold HamArgs.hamN
  change hubbard (n := 2) false (fun (_ : Bool) (i j : Fin 2) => if i = j then hopArgs.H 1 i i + hopArgs.mu else 0)
      (fun (i : Fin 2) => hopArgs.z.getD (fun _ => if hopArgs.hf then 1 else 0) i) (fun _ _ => 0) +
    (spinExchange (offdiag (n := 2) (optMat (K := ℝ) (some fun _ _ => 0))) + pairHopping (offdiag (n := 2) (optMat (K := ℝ) (some fun _ _ => 0)))) = 0
  rw [hd, hz, ho, hx, hp]; simp

/-- **C168 refuted**: "the symmetry used to block the Hamiltonian does not change its spectrum" is false with hopping. For two sites with hopping 1 and vanishing
interactions every run with `symmetry='sz'` finds the ground state energy -2 and every run with `symmetry='N'` finds 0. -/
theorem C168_refuted_symmetry : ∃ a : HamArgs, a.Valid ∧ a.NValid ∧ (∃ r, BuildEspace 64 a none (.ok r)) ∧ (∃ r, NBuildEspace 64 a none (.ok r)) ∧
    (∀ es egs, BuildEspace 64 a none (.ok (es, egs)) → egs = ((-2 : ℝ) : WithTop ℝ)) ∧ ∀ es egs, NBuildEspace 64 a none (.ok (es, egs)) → egs = ((0 : ℝ) : WithTop ℝ) := by
  refine ⟨hopArgs, hopArgs_valid, hopArgs_nvalid, ?_, (C168_default_runs hopArgs_nvalid (by simp [hopArgs, freeArgs])).2, ?_, ?_⟩
  · obtain ⟨l, hl, hlb⟩ := C25_default_neig hopArgs.n
    obtain ⟨⟨r, h⟩, -⟩ := C25_build_espace_partial hopArgs_valid (w := 64) (by simp [hopArgs, freeArgs]) l hlb
    refine ⟨r, ?_⟩
    simp only [BuildEspace, hl]
    simpa only [BuildEspace, neigOrDefault] using h
  · intro es egs h
    obtain ⟨E, rfl⟩ := egs_real hopArgs_valid (by simp [hopArgs, freeArgs]) h
    obtain ⟨es0, e0, h0⟩ := freeArgs_run
    have h1 := C158_ground freeArgs_valid (by simp [freeArgs]) freeArgs_free h0 (freeArgs_basis false) (freeArgs_basis true)
    obtain ⟨E0, rfl⟩ := egs_real freeArgs_valid (by simp [freeArgs]) h0
    have hb := (buildEspace_eigen freeArgs_valid (by simp [freeArgs]) h0).basis
    have l0 := esVal_least freeArgs_valid (by simp [freeArgs]) h0 hb
    rw [← hopArgs_ham] at hb
    have l1 := esVal_least hopArgs_valid (by simp [hopArgs, freeArgs]) h hb
    rw [l1.unique l0, h1, Fin.sum_univ_two]
    norm_num
  · intro es egs h
    obtain ⟨-, -, hB, -, -, E, rfl, ⟨x, hx⟩, -⟩ := C168_eigenbasis hopArgs_nvalid (by simp [hopArgs, freeArgs]) h
    have := hB.eig x
    rw [hopArgs_hamN, Matrix.zero_mulVec] at this
    have h1 := hB.orth x x
    rw [if_pos rfl] at h1
    have h2 : nVal hopArgs.n es x * (nKet hopArgs.n es x ⬝ᵥ nKet hopArgs.n es x) = 0 := by
      rw [← smul_eq_mul, ← dotProduct_smul, ← this, dotProduct_zero]
    rw [h1, mul_one, hx] at h2
    rw [h2]

/-- Two sites with levels 1 and -2, `U = 4` and pair hopping 1/2. -/
noncomputable def pairArgs : HamArgs :=
  ⟨2, fun _ i j => if i = j then (if i = 0 then 1 else -2) else 0, ⟨some fun i j => if i = j then 4 else 0, some fun _ _ => 0, some fun i j => if i = j then 0 else 1 / 2⟩, none, false, 0⟩

theorem pairArgs_valid : pairArgs.Valid := by
  refine ⟨le_refl 2, by simp [pairArgs], rfl, ?_, ?_, ?_, by simp [pairArgs]⟩
  · intro s i j _ _
    simp only [pairArgs, eq_comm (a := j) (b := i)]
    split
    · rename_i h; rw [h]
    · rfl
  · intro A hA; cases hA; intros; rfl
  · intro A hA; cases hA; intro i j _ _; simp only [eq_comm]

theorem pairArgs_nvalid : pairArgs.NValid := ⟨by simp [pairArgs], rfl, Or.inl rfl, pairArgs_valid.symmX, pairArgs_valid.symmP⟩

theorem pairArgs_agree : pairArgs.Agree := by
  refine ⟨fun i _ => rfl, ?_, ?_⟩
  · intro s i j _ _ h; simp [pairArgs, h]
  · intro A hA; cases hA; intros; norm_num

/-- Non-vacuity: both constructions run for `pairArgs` and find the same ground state energy. -/
example : ∃ es esN egs, BuildEspace 64 pairArgs none (.ok (es, egs)) ∧ NBuildEspace 64 pairArgs none (.ok (esN, egs)) ∧ NEspaceOk 2 esN := by
  obtain ⟨l, hl, hlb⟩ := C25_default_neig pairArgs.n
  obtain ⟨⟨⟨es, egs⟩, h0⟩, -⟩ := C25_build_espace_partial pairArgs_valid (w := 64) (by simp [pairArgs]) l hlb
  have h : BuildEspace 64 pairArgs none (.ok (es, egs)) := by
    simp only [BuildEspace, hl]
    simpa only [BuildEspace, neigOrDefault] using h0
  obtain ⟨⟨esN, egsN⟩, hN⟩ := (C168_default_runs pairArgs_nvalid (w := 64) (by simp [pairArgs])).2
  obtain ⟨e, -⟩ := C168_same_spectrum_partial pairArgs_valid pairArgs_nvalid pairArgs_agree (by simp [pairArgs]) h hN
  subst e
  exact ⟨es, esN, _, h, hN, (C168_eigenbasis pairArgs_nvalid (by simp [pairArgs]) hN).2.1⟩

end Edpyt
