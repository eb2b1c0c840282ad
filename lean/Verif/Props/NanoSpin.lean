import Verif.Model.NanoSpin
import Verif.Props.SpinLoop
import Verif.Props.Nano
import Verif.Props.SelfCausal
/-!
C142, C143: nanostructures with spin-dependent impurities.
-/
namespace Edpyt
open Spec Matrix

variable {m n N nb : ℕ}

theorem finM_ok {α : Type} {m : ℕ} {f : Fin m → Except PyErr α} {g : Fin m → α} : finM f = .ok g ↔ ∀ i, f i = .ok (g i) := by
  induction m with
  | zero => exact ⟨fun _ i => i.elim0, fun _ => by unfold finM; congr 1; funext i; exact i.elim0⟩
  | succ m ih =>
    unfold finM
    constructor
    · intro h
      cases h0 : f 0 with
      | error e => rw [h0] at h; cases h
      | ok a =>
        rw [h0] at h
        simp only [bind, Except.bind] at h
        cases h1 : finM fun i => f i.succ with
        | error e => rw [h1] at h; cases h
        | ok t =>
          rw [h1] at h
          simp only [pure, Except.pure, Except.ok.injEq] at h
          subst h
          intro i
          refine Fin.cases ?_ (fun i => ?_) i
          · simpa using h0
          · simpa using ih.mp h1 i
    · intro h
      have h1 := (ih (f := fun i => f i.succ) (g := fun i => g i.succ)).mpr fun i => h i.succ
      simp only [h 0, h1, bind, Except.bind, pure, Except.pure]
      congr 1
      exact Fin.cons_self_tail g

theorem chunkLoop_ok {κ : Type} [DecidableEq κ] (F : κ → (ℕ → ℂ) → Except PyErr (ℕ → ℂ)) (l : List κ) (hl : l.Nodup) {out out' : κ → ℕ → ℂ} (h : chunkLoop F l out = .ok out') :
    (∀ p ∈ l, F p (out p) = .ok (out' p)) ∧ ∀ p, p ∉ l → out' p = out p := by
  unfold chunkLoop at h
  induction l generalizing out with
  | nil => cases h; exact ⟨fun p hp => by simp at hp, fun _ _ => rfl⟩
  | cons a l ih =>
    rw [forM'] at h
    cases h0 : F a (out a) with
    | error e => rw [h0] at h; cases h
    | ok o =>
      rw [h0] at h
      simp only [bind, Except.bind, pure, Except.pure] at h
      obtain ⟨h1, h2⟩ := ih (List.nodup_cons.mp hl).2 h
      have ha := (List.nodup_cons.mp hl).1
      refine ⟨fun p hp => ?_, fun p hp => ?_⟩
      · rcases List.mem_cons.mp hp with rfl | hp
        · rw [h2 _ ha, Function.update_self, h0]
        · have : p ≠ a := fun e => ha (e ▸ hp)
          have := h1 p hp
          rwa [Function.update_of_ne ‹p ≠ a›] at this
      · have hpa : p ≠ a := fun e => hp (by simp [e])
        rw [h2 p (fun e => hp (List.mem_cons_of_mem _ e)), Function.update_of_ne hpa]

theorem chunkLoop_exists {κ : Type} [DecidableEq κ] (F : κ → (ℕ → ℂ) → Except PyErr (ℕ → ℂ)) (l : List κ) (out : κ → ℕ → ℂ) (h : ∀ p ∈ l, ∀ o, ∃ o', F p o = .ok o') :
    ∃ out', chunkLoop F l out = .ok out' := by
  unfold chunkLoop
  induction l generalizing out with
  | nil => exact ⟨_, rfl⟩
  | cons a l ih =>
    obtain ⟨o, ho⟩ := h a (by simp) (out a)
    obtain ⟨r, hr⟩ := ih (Function.update out a o) fun p hp => h p (List.mem_cons_of_mem _ hp)
    exact ⟨r, by rw [forM']; simp only [ho, bind, Except.bind, pure, Except.pure]; exact hr⟩

theorem body_ok (g : NanoLoc n) {len : ℕ} (hlen : g.idxInv.length = n) (hinv : ∀ i ∈ g.idxInv, i < len) (hneq : ∀ i ∈ g.idxNeq, i < n) (hm : ∀ i ∈ g.idxNeq, i < len) (sig : ℕ → ℂ) (z : ℂ)
    {out o : ℕ → ℂ} (h : g.body len sig z out = .ok o) : (g.dyson sig z).det ≠ 0 ∧ o = fun r => if r ∈ g.idxNeq then diagInv (g.dyson sig z) r else out r := by
  by_cases hd : (g.dyson sig z).det = 0
  · exfalso
    unfold NanoLoc.body at h
    rw [fancyIdx_ok sig hinv] at h
    have hsub : subDiag (g.freeInv z) (g.idxInv.map sig) = .ok (g.dyson sig z) := by
      unfold subDiag
      rw [if_pos (by simpa using hlen)]
      unfold NanoLoc.dyson dysonMat NanoLoc.freeInv
      congr 3
      funext i
      have : (i : ℕ) < g.idxInv.length := by rw [hlen]; exact i.2
      simp [List.getElem?_eq_getElem this]
    simp only [bind, Except.bind, hsub] at h
    have : linalgInv (g.dyson sig z) = .error .valueError := by
      unfold linalgInv
      rw [if_neg (by rw [hd]; simp)]
    rw [this] at h
    cases h
  · refine ⟨hd, ?_⟩
    rw [body_start g hlen hinv hneq sig z hd, scatter_ok _ _ _ hm] at h
    injection h with h
    exact h.symm

theorem spinChunks_nodup (k : ℕ) : ((List.range k).flatMap fun c => [(c, 0), (c, 1)]).Nodup := by
  rw [List.nodup_flatMap]
  refine ⟨fun c _ => by simp, ?_⟩
  refine List.nodup_range.imp ?_
  intro a b hab
  simp only [Function.onFun, List.disjoint_left]
  intro x hx hx'
  simp at hx hx'
  rcases hx with rfl | rfl <;> simp at hx' <;> exact hab hx'

/-- The value of a call with spin. -/
theorem callSpin_val (g : NanoLoc n) (hg : g.WF m) (hm : ∀ i ∈ g.idxNeq, i < m) (hm2 : 2 ≤ m) (sigma : ℕ → ℕ → ℕ → ℂ) (zs : List ℂ) (junk G : ℕ → ℕ → ℕ → ℂ)
    (h : g.callSpin m sigma zs junk = .ok G) {u : ℕ} (hu : u < m) {s : ℕ} (hs : s < 2) {c : ℕ} (hc : c < zs.length) :
    (g.dyson (fun r => sigma r s c) (zs[c]?.getD 0)).det ≠ 0 ∧ G u s c = diagInv (g.dyson (fun r => sigma r s c) (zs[c]?.getD 0)) (g.idxNeq[u]?.getD 0) := by
  unfold NanoLoc.callSpin at h
  rw [if_neg (by have : 0 < zs.length := by omega
                 positivity), if_neg (by omega)] at h
  cases h1 : chunkLoop (fun p : ℕ × ℕ => g.body m (fun r => sigma r p.2 p.1) (zs[p.1]?.getD 0)) ((List.range zs.length).flatMap fun c => [(c, 0), (c, 1)]) (fun p r => junk r p.2 p.1) with
  | error e => rw [h1] at h; cases h
  | ok o =>
    rw [h1, fancyIdx_ok _ hm] at h
    simp only [bind, Except.bind, pure, Except.pure, Except.ok.injEq] at h
    subst h
    have hmem : (c, s) ∈ (List.range zs.length).flatMap fun c => [(c, 0), (c, 1)] := by
      rw [List.mem_flatMap]
      refine ⟨c, List.mem_range.mpr hc, ?_⟩
      have : s = 0 ∨ s = 1 := by omega
      rcases this with rfl | rfl <;> simp
    obtain ⟨k1, k2⟩ := body_ok g hg.invLen hg.inv hg.neq hm _ _ ((chunkLoop_ok _ _ (spinChunks_nodup _) h1).1 _ hmem)
    refine ⟨k1, ?_⟩
    have hmn : g.idxNeq[u]?.getD 0 ∈ g.idxNeq := by
      rw [List.getElem?_eq_getElem (by rw [hg.neqLen]; exact hu)]; exact List.getElem_mem _
    simp only [k2, if_pos hmn]

theorem callSpin_exists (g : NanoLoc n) (hg : g.WF m) (hm : ∀ i ∈ g.idxNeq, i < m) (hm2 : 2 ≤ m) (sigma : ℕ → ℕ → ℕ → ℂ) (zs : List ℂ) (hz : zs ≠ []) (junk : ℕ → ℕ → ℕ → ℂ)
    (hdet : ∀ s < 2, ∀ c < zs.length, (g.dyson (fun r => sigma r s c) (zs[c]?.getD 0)).det ≠ 0) : ∃ G, g.callSpin m sigma zs junk = .ok G := by
  unfold NanoLoc.callSpin
  rw [if_neg (by have : 0 < zs.length := List.length_pos_iff.mpr hz
                 positivity), if_neg (by omega)]
  obtain ⟨o, ho⟩ := chunkLoop_exists (fun p : ℕ × ℕ => g.body m (fun r => sigma r p.2 p.1) (zs[p.1]?.getD 0)) ((List.range zs.length).flatMap fun c => [(c, 0), (c, 1)])
    (fun p r => junk r p.2 p.1) (by
      intro p hp out
      obtain ⟨c, hc, hp⟩ := List.mem_flatMap.mp hp
      have hd := hdet p.2 (by simp at hp; rcases hp with rfl | rfl <;> simp) p.1 (by simp at hp hc; rcases hp with rfl | rfl <;> simpa using hc)
      exact ⟨_, by rw [body_start g hg.invLen hg.inv hg.neq _ _ hd, scatter_ok _ _ _ hm]⟩)
  rw [ho, fancyIdx_ok _ hm]
  exact ⟨_, rfl⟩

/-! ### C143 -/

/-- **C143** (partial: at least two inequivalent sites, and they are the first ones) With self-energies of both spins the call returns, for each inequivalent site, spin and frequency, the diagonal
element of the inverse of `(z+mu)S - H - Hybrid(z) - Σ(z)` with the self-energy of that spin, whatever the output array held before. -/
theorem C143_dyson_partial (g : NanoLoc n) (hg : g.WF m) (hm : ∀ i ∈ g.idxNeq, i < m) (hm2 : 2 ≤ m) (sigma : ℕ → ℕ → ℕ → ℂ) (zs : List ℂ) (hz : zs ≠ []) (junk : ℕ → ℕ → ℕ → ℂ)
    (hdet : ∀ s < 2, ∀ c, ∀ hc : c < zs.length,
      (dysonMat g.H g.S (g.Hybrid zs[c]) (fun i => sigma (g.idxInv[(i : ℕ)]'(by rw [hg.invLen]; exact i.2)) s c) g.mu zs[c]).det ≠ 0) :
    ∃ G, g.callSpin m sigma zs junk = .ok G ∧ ∀ u, ∀ hu : u < g.idxNeq.length, ∀ s < 2, ∀ c, ∀ hc : c < zs.length, ∀ w,
      IsLocalGf (dysonMat g.H g.S (g.Hybrid zs[c]) (fun i => sigma (g.idxInv[(i : ℕ)]'(by rw [hg.invLen]; exact i.2)) s c) g.mu zs[c])
        ⟨g.idxNeq[u], hg.neq _ (List.getElem_mem hu)⟩ w ↔ w = G u s c := by
  have he : ∀ s c, ∀ hc : c < zs.length, dysonMat g.H g.S (g.Hybrid zs[c]) (fun i => sigma (g.idxInv[(i : ℕ)]'(by rw [hg.invLen]; exact i.2)) s c) g.mu zs[c] =
      g.dyson (fun r => sigma r s c) (zs[c]?.getD 0) := by
    intro s c hc
    unfold NanoLoc.dyson
    rw [List.getElem?_eq_getElem hc, Option.getD_some]
    congr 1
    funext i
    have : (i : ℕ) < g.idxInv.length := by rw [hg.invLen]; exact i.2
    simp [List.getElem?_eq_getElem this]
  obtain ⟨G, hG⟩ := callSpin_exists g hg hm hm2 sigma zs hz junk fun s hs c hc => by rw [← he s c hc]; exact hdet s hs c hc
  refine ⟨G, hG, fun u hu s hs c hc w => ?_⟩
  obtain ⟨k1, k2⟩ := callSpin_val g hg hm hm2 sigma zs junk G hG (u := u) (by rw [← hg.neqLen]; exact hu) hs hc
  rw [k2]
  simp only [he]
  have : g.idxNeq[u]?.getD 0 = g.idxNeq[u] := by rw [List.getElem?_eq_getElem hu, Option.getD_some]
  rw [this]
  exact diagInv_spec k1 _ w

/-- **C143** is false of the code when all sites are equivalent: the Green function of spin down is, at every frequency, what the output array held before. -/
theorem C143_refuted_one_site (g : NanoLoc n) (hg : g.WF 1) (h0 : g.idxNeq = [0]) (sigma : ℕ → ℕ → ℕ → ℂ) (zs : List ℂ) (hz : zs ≠ []) (junk : ℕ → ℕ → ℕ → ℂ)
    (hdet : ∀ c, ∀ hc : c < zs.length, (dysonMat g.H g.S (g.Hybrid zs[c]) (fun _ => sigma 0 0 c) g.mu zs[c]).det ≠ 0) :
    ∃ G, g.callSpin 1 sigma zs junk = .ok G ∧ ∀ c < zs.length, G 0 1 c = junk 0 1 c := by
  have hd : ∀ c, ∀ hc : c < zs.length, (g.dyson (fun s => sigma 0 s c) (zs[c]?.getD 0)).det ≠ 0 := by
    intro c hc
    have : g.dyson (fun s => sigma 0 s c) (zs[c]?.getD 0) = dysonMat g.H g.S (g.Hybrid zs[c]) (fun _ => sigma 0 0 c) g.mu zs[c] := by
      unfold NanoLoc.dyson
      rw [List.getElem?_eq_getElem hc, Option.getD_some]
      congr 1
      funext i
      have h2 : (i : ℕ) < g.idxInv.length := by rw [hg.invLen]; exact i.2
      rw [List.getElem?_eq_getElem h2, Option.getD_some]
      have := hg.inv _ (List.getElem_mem h2)
      have : g.idxInv[(i : ℕ)] = 0 := by omega
      rw [this]
    rw [this]; exact hdet c hc
  have hinv : ∀ i ∈ g.idxInv, i < 2 := fun i hi => by have := hg.inv i hi; omega
  have hneq2 : ∀ i ∈ g.idxNeq, i < 2 := by rw [h0]; simp
  unfold NanoLoc.callSpin
  rw [if_neg (by have : 0 < zs.length := List.length_pos_iff.mpr hz
                 omega), if_pos rfl]
  obtain ⟨o, ho⟩ := chunkLoop_exists (fun c => g.body 2 (fun s => sigma 0 s c) (zs[c]?.getD 0)) (List.range zs.length) (fun c s => junk 0 s c) (by
    intro c hc out
    exact ⟨_, by rw [body_start g hg.invLen hinv hg.neq _ _ (hd c (List.mem_range.mp hc)), scatter_ok _ _ _ hneq2]⟩)
  rw [ho, fancyIdx_ok _ (by rw [h0]; simp)]
  refine ⟨_, rfl, fun c hc => ?_⟩
  obtain ⟨-, k2⟩ := body_ok g hg.invLen hinv hg.neq hneq2 _ _ ((chunkLoop_ok _ _ List.nodup_range ho).1 c (List.mem_range.mpr hc))
  rw [h0]
  simp only [List.getElem?_cons_zero, Option.getD_some, if_true, k2]
  rw [if_neg (by rw [h0]; simp)]

/-! ### C142 -/

/-- A symmetry of the nanostructure: the permutation `π` of the sites leaves Hamiltonian, overlap and hybridisation unchanged and permutes the inequivalent sites as `σ`. -/
structure NanoLoc.SiteSym (g : NanoLoc n) (σ : Equiv.Perm (Fin m)) (π : Equiv.Perm (Fin n)) : Prop where
  H : ∀ i j, g.H (π i) (π j) = g.H i j
  S : ∀ i j, g.S (π i) (π j) = g.S i j
  hyb : ∀ z i j, g.Hybrid z (π i) (π j) = g.Hybrid z i j
  inv : ∀ (i : Fin n) (u : Fin m), g.idxInv[(i : ℕ)]? = some (u : ℕ) → g.idxInv[((π i : Fin n) : ℕ)]? = some ((σ u : Fin m) : ℕ)
  neq : ∀ (u : Fin m) (i : Fin n), g.idxNeq[(u : ℕ)]? = some (i : ℕ) → g.idxNeq[((σ u : Fin m) : ℕ)]? = some ((π i : Fin n) : ℕ)

/-- Impurity `q` is impurity `p` with the spins exchanged. -/
def SpinImp.Mirror (p q : SpinImp) : Prop := ∀ s, q.get (!s) = p.get s

/-- Numbers for each site and spin that are exchanged by `σ` together with the spins. -/
def Staggered {α : Type} (σ : Equiv.Perm (Fin m)) (x : Fin m → Bool → α) : Prop := ∀ u s, x (σ u) (!s) = x u s

/-- `solve` computes the exact Green functions of the impurity site. -/
def NanoExact (P : NanoSpinPar m n N) (nb : ℕ) (U : ℝ) : Prop := ∀ p gf, P.solve p = .ok gf → ∀ (s : Bool) (z : ℂ), z.im ≠ 0 →
  IsGreen P.beta (p.args (nb + 1) U).ham (ann ℝ (orb s (0 : Fin (nb + 1)))) (cre ℝ (orb s (0 : Fin (nb + 1)))) z (gf s z)

/-- A driver that calls the object with linear combinations of the arguments and results so far, as linear mixing and the Broyden methods do. -/
inductive NanoDrive (P : NanoSpinPar m n N) : NanoSpinState m n → Set (NanoRows m N) → NanoSpinState m n → Set (NanoRows m N) → Prop
  | nil (s vs) : NanoDrive P s vs s vs
  | call {s s' s'' vs vs'' d r} : d ∈ Submodule.span ℂ vs → s.call P d = .ok (s', .value r) → NanoDrive P s' (vs ∪ {d, r}) s'' vs'' → NanoDrive P s vs s'' vs''

theorem NanoLoc.SiteSym.ed {g : NanoLoc n} {σ : Equiv.Perm (Fin m)} {π : Equiv.Perm (Fin n)} (h : g.SiteSym σ π) (hg : g.WF m) {ed : List ℂ} (he : g.ed = .ok ed) :
    ed.length = m ∧ ∀ u : Fin m, ed[((σ u : Fin m) : ℕ)]?.getD 0 = ed[(u : ℕ)]?.getD 0 := by
  unfold NanoLoc.ed at he
  rw [fancyIdx_ok _ hg.neq] at he
  injection he with he
  subst he
  refine ⟨by simp [hg.neqLen], fun u => ?_⟩
  have hu : (u : ℕ) < g.idxNeq.length := by rw [hg.neqLen]; exact u.2
  have hi : g.idxNeq[(u : ℕ)] < n := hg.neq _ (List.getElem_mem hu)
  have hσ := h.neq u ⟨g.idxNeq[(u : ℕ)], hi⟩ (List.getElem?_eq_getElem hu)
  rw [List.getElem?_map, List.getElem?_map, hσ, List.getElem?_eq_getElem hu]
  simp only [Option.map_some, Option.getD_some, hi, dif_pos, Fin.is_lt, Fin.eta, h.H]

theorem NanoLoc.SiteSym.dyson {g : NanoLoc n} {σ : Equiv.Perm (Fin m)} {π : Equiv.Perm (Fin n)} (h : g.SiteSym σ π) (hg : g.WF m) {sig sig' : ℕ → ℂ} (hs : ∀ u : Fin m, sig' (σ u) = sig u) (z : ℂ)
    {i : ℕ} (hi : i < n) : diagInv (g.dyson sig' z) (π ⟨i, hi⟩) = diagInv (g.dyson sig z) i := by
  have e : g.dyson sig z = (g.dyson sig' z).submatrix π π := by
    ext i j
    unfold NanoLoc.dyson dysonMat
    simp only [Matrix.submatrix_apply, Matrix.sub_apply, Matrix.smul_apply, h.H, h.S, h.hyb]
    congr 1
    by_cases hij : i = j
    · subst hij
      simp only [Matrix.diagonal_apply_eq]
      have h2 : (i : ℕ) < g.idxInv.length := by rw [hg.invLen]; exact i.2
      have hu : g.idxInv[(i : ℕ)] < m := hg.inv _ (List.getElem_mem h2)
      rw [h.inv i ⟨g.idxInv[(i : ℕ)], hu⟩ (List.getElem?_eq_getElem h2), List.getElem?_eq_getElem h2]
      simp only [Option.getD_some]
      exact (hs ⟨_, hu⟩).symm
    · rw [Matrix.diagonal_apply_ne _ hij, Matrix.diagonal_apply_ne _ (fun e => hij (π.injective e))]
  unfold diagInv
  rw [dif_pos (π ⟨i, hi⟩).2, dif_pos hi, e, Matrix.inv_submatrix_equiv]
  rfl

theorem callSpin_stag (g : NanoLoc n) (hg : g.WF m) (hm : ∀ i ∈ g.idxNeq, i < m) (hm2 : 2 ≤ m) {σ : Equiv.Perm (Fin m)} {π : Equiv.Perm (Fin n)} (h : g.SiteSym σ π) {sig : Fin m → Bool → ℂ → ℂ}
    {zs : List ℂ} (hz : ∀ z ∈ zs, z.im ≠ 0) (hs : ∀ z : ℂ, z.im ≠ 0 → Staggered σ fun u s => sig u s z) {junk G : ℕ → ℕ → ℕ → ℂ} (hG : g.callSpin m (sigmaArr sig zs) zs junk = .ok G) {c : ℕ} (hc : c < zs.length) :
    Staggered σ fun u s => G u (spinIdx s) c := by
  intro u s
  have hlt : ∀ s, spinIdx s < 2 := by intro s; cases s <;> simp [spinIdx]
  have hu : (u : ℕ) < g.idxNeq.length := by rw [hg.neqLen]; exact u.2
  have hi : g.idxNeq[(u : ℕ)] < n := hg.neq _ (List.getElem_mem hu)
  have hσ := h.neq u ⟨g.idxNeq[(u : ℕ)], hi⟩ (List.getElem?_eq_getElem hu)
  simp only
  rw [(callSpin_val g hg hm hm2 _ zs junk G hG (σ u).2 (hlt (!s)) hc).2, (callSpin_val g hg hm hm2 _ zs junk G hG u.2 (hlt s) hc).2, hσ, List.getElem?_eq_getElem hu]
  simp only [Option.getD_some]
  refine h.dyson hg (fun v => ?_) _ hi
  have hzc : (zs[c]?.getD 0).im ≠ 0 := by rw [List.getElem?_eq_getElem hc]; exact hz _ (List.getElem_mem hc)
  have hb : ∀ s : Bool, (spinIdx s == 1) = s := by intro s; cases s <;> rfl
  unfold sigmaArr
  rw [dif_pos (σ v).2, dif_pos v.2, hb, hb]
  exact hs _ hzc v s

theorem matsList_length (beta : ℝ) (N : ℕ) : (matsList beta N).length = N := by simp [matsList]

theorem matsList_get {beta : ℝ} {N k : ℕ} (hk : k < N) : (matsList beta N)[k]?.getD 0 = matsZ beta k := by simp [matsList, hk]

theorem matsList_im {beta : ℝ} (hb : 0 < beta) {N : ℕ} : ∀ z ∈ matsList beta N, z.im ≠ 0 := by
  intro z hz
  obtain ⟨k, -, rfl⟩ := List.mem_map.mp hz
  exact matsZ_im hb k

theorem delta_stag {L : NanoSpinLoc m n} (hg : L.g.WF m) (hm : ∀ i ∈ L.g.idxNeq, i < m) (hm2 : 2 ≤ m) {σ : Equiv.Perm (Fin m)} {π : Equiv.Perm (Fin n)} (h : L.g.SiteSym σ π)
    {sig : Fin m → Bool → ℂ → ℂ} (hsig : L.sigma = some sig) (hs : ∀ z : ℂ, z.im ≠ 0 → Staggered σ fun u s => sig u s z) {beta : ℝ} (hb : 0 < beta) {junk : ℕ → ℕ → ℕ → ℂ} {D : NanoRows m N}
    (hD : L.delta N beta junk = .ok D) : Staggered σ D := by
  unfold NanoSpinLoc.delta at hD
  rw [hsig] at hD
  simp only at hD
  cases hG : L.g.callSpin m (sigmaArr sig (matsList beta N)) (matsList beta N) junk with
  | error e => rw [hG] at hD; cases hD
  | ok G =>
    cases he : L.g.ed with
    | error e => rw [hG, he] at hD; cases hD
    | ok ed =>
      obtain ⟨k1, k2⟩ := h.ed hg he
      rw [hG, he] at hD
      simp only [bind, Except.bind, pure, Except.pure] at hD
      rw [if_pos k1] at hD
      injection hD with hD
      subst hD
      intro u s
      funext k
      have hGk := callSpin_stag L.g hg hm hm2 h (matsList_im hb) hs hG (c := k) (by rw [matsList_length]; exact k.2) u s
      simp only at hGk ⊢
      rw [hGk, k2 u]
      have := hs _ (matsZ_im hb k) u s
      simp only at this
      rw [this]

theorem SpinImp.get_fit (k : ℕ) (p : SpinImp) (ek vk : Bool → ℕ → ℝ) (s : Bool) : (p.step k (.fit ek vk)).get s = (p.get s).step k (.fit (ek s) (vk s)) := by
  cases s <;> simp [SpinImp.step, SpinImp.each, SpinImp.put, SpinImp.get, Imp.run, spinIdx]

theorem SpinImp.get_update (k : ℕ) (p : SpinImp) (mu : ℝ) (s : Bool) : (p.step k (.update mu)).get s = (p.get s).step k (.update mu) := by
  cases s <;> simp [SpinImp.step, SpinImp.get, Imp.step, spinIdx]

/-- Exact Green functions of mirrored impurities. -/
theorem SpinImp.Mirror.relabel {p q : SpinImp} (h : p.Mirror q) (U : ℝ) (k : ℕ) : (p.args k U).Relabel true (Equiv.refl _) (q.args k U).H (q.args k U).V none := by
  refine ⟨fun s i j => ?_, fun _ _ => rfl, Or.inl ⟨rfl, rfl⟩, Or.inl ⟨rfl, rfl⟩, Or.inl ⟨rfl, rfl⟩⟩
  have := congrArg Imp.H (h s)
  cases s
  · exact congrFun (congrFun this i) j
  · exact congrFun (congrFun this i) j

theorem SpinImp.Mirror.sigma {p q : SpinImp} {f : Bool → Bool} (h : p.Mirror q) (hok : q.Ok nb f) (hn : 1 ≤ nb) (hn' : nb ≤ 31) {U beta : ℝ} {gf gf' : Bool → ℂ → ℂ}
    (hg : ∀ (s : Bool) (z : ℂ), z.im ≠ 0 → IsGreen beta (p.args (nb + 1) U).ham (ann ℝ (orb s (0 : Fin (nb + 1)))) (cre ℝ (orb s (0 : Fin (nb + 1)))) z (gf s z))
    (hg' : ∀ (s : Bool) (z : ℂ), z.im ≠ 0 → IsGreen beta (q.args (nb + 1) U).ham (ann ℝ (orb s (0 : Fin (nb + 1)))) (cre ℝ (orb s (0 : Fin (nb + 1)))) z (gf' s z)) {z : ℂ} (hz : z.im ≠ 0) (s : Bool) :
    q.sigma (nb + 1) gf' (!s) z = p.sigma (nb + 1) gf s z := by
  obtain ⟨es, hes⟩ := eigenEspace_exists (hok.valid hn hn' U)
  have k1 := (h.relabel U (nb + 1)).green (beta := beta) (hg s z hz)
  have hx : xor s true = !s := by cases s <;> rfl
  rw [hx] at k1
  have e : gf' (!s) z = gf s z := ((hes.basis.green beta _ _ hz _).mp (hg' (!s) z hz)).trans ((hes.basis.green beta _ _ hz _).mp k1).symm
  unfold SpinImp.sigma Imp.sigma
  rw [h s, e]

/-- What the loop keeps. -/
structure NanoSpinState.Af (nb : ℕ) (σ : Equiv.Perm (Fin m)) (π : Equiv.Perm (Fin n)) (s : NanoSpinState m n) : Prop where
  ok : ∀ u, ∃ f, (s.imps u).Ok nb f
  mirror : ∀ u, (s.imps u).Mirror (s.imps (σ u))
  wf : s.loc.g.WF m
  first : ∀ i ∈ s.loc.g.idxNeq, i < m
  sym : s.loc.g.SiteSym σ π

/-- The self-energies of the lattice object are staggered. -/
def NanoSpinLoc.Stag (L : NanoSpinLoc m n) (σ : Equiv.Perm (Fin m)) : Prop := ∃ sig, L.sigma = some sig ∧ ∀ z : ℂ, z.im ≠ 0 → Staggered σ fun u s => sig u s z

section
variable {σ : Equiv.Perm (Fin m)} {π : Equiv.Perm (Fin n)} {P : NanoSpinPar m n N} {U : ℝ}

theorem solveAll_af {s s' : NanoSpinState m n} (hw : s.loc.g.WF m) (hf : ∀ i ∈ s.loc.g.idxNeq, i < m) (hs : s.loc.g.SiteSym σ π) (hP : P.ni = nb + 1) (hn : 1 ≤ nb) (hn' : nb ≤ 31)
    (hex : NanoExact P nb U) {imps : Fin m → SpinImp} (hok : ∀ u, ∃ f, (imps u).Ok nb f) (hmir : ∀ u, (imps u).Mirror (imps (σ u))) (h : s.solveAll P imps = .ok s') :
    s'.Af nb σ π ∧ s'.loc.Stag σ ∧ s'.imps = imps ∧ s'.loc.g = s.loc.g := by
  unfold NanoSpinState.solveAll at h
  cases hg : finM fun u => P.solve (imps u) with
  | error e => rw [hg] at h; cases h
  | ok gf =>
    rw [hg] at h
    simp only [bind, Except.bind, pure, Except.pure, Except.ok.injEq] at h
    subst h
    refine ⟨⟨hok, hmir, hw, hf, hs⟩, ⟨_, rfl, fun z hz u t => ?_⟩, rfl, rfl⟩
    obtain ⟨f, hf⟩ := hok (σ u)
    have hgu := finM_ok.mp hg
    simp only
    rw [hP]
    exact (hmir u).sigma hf hn hn' (hex _ _ (hgu u)) (hex _ _ (hgu (σ u))) hz t

theorem levels_sym {L : NanoSpinLoc m n} (hg : L.g.WF m) (h : L.g.SiteSym σ π) {ed : Fin m → ℝ} (he : L.levels = .ok ed) (u : Fin m) : ed (σ u) = ed u := by
  unfold NanoSpinLoc.levels at he
  cases h1 : L.g.ed with
  | error e => rw [h1] at he; cases he
  | ok l =>
    obtain ⟨k1, k2⟩ := h.ed hg h1
    rw [h1] at he
    simp only [bind, Except.bind, pure, Except.pure] at he
    rw [if_pos k1] at he
    injection he with he
    subst he
    simp only [k2 u]

theorem ebind_ok {α β : Type} {x : Except PyErr α} {f : α → Except PyErr β} {y : β} (h : (x >>= f) = .ok y) : ∃ a, x = .ok a ∧ f a = .ok y := by
  cases x with
  | error e => cases h
  | ok a => exact ⟨a, rfl, h⟩

theorem NanoSpinState.Af.dmftStep {s s' : NanoSpinState m n} (h : s.Af nb σ π) (hP : P.ni = nb + 1) (hn : 1 ≤ nb) (hn' : nb ≤ 31) (hex : NanoExact P nb U) {d : NanoRows m N} (hd : Staggered σ d)
    (hr : s.dmftStep P d = .ok s') : s'.Af nb σ π ∧ s'.loc.Stag σ := by
  unfold NanoSpinState.dmftStep at hr
  obtain ⟨b, hb, hr⟩ := ebind_ok hr
  obtain ⟨ed, he, hr⟩ := ebind_ok hr
  have hfit : ∀ u t, P.fit ((s.imps u).get t) (d u t) = .ok (if t then (b u).2 else (b u).1) := by
    intro u t
    obtain ⟨up, h1, h2⟩ := ebind_ok (finM_ok.mp hb u)
    obtain ⟨dw, h3, h4⟩ := ebind_ok h2
    have : b u = (up, dw) := by injection h4 with h4; exact h4.symm
    rw [this]
    cases t
    · exact h1
    · exact h3
  have key := fun h1 h2 => solveAll_af h.wf h.first h.sym hP hn hn' hex h1 h2 hr
  have h1 := key (fun u => (h.ok u).elim fun f hf => ⟨_, SpinImp.step_ok' (SpinImp.step_ok' hf hP _) hP _⟩)
  refine (fun h2 => ⟨(h1 h2).1, (h1 h2).2.1⟩) fun u => ?_
  intro t
  have e : (if (!t) = true then (b (σ u)).2 else (b (σ u)).1) = if t = true then (b u).2 else (b u).1 := by
    have h1 := hfit (σ u) (!t)
    rw [h.mirror u t, hd u t, hfit u t] at h1
    injection h1 with h1
    exact h1.symm
  simp only [SpinImp.get_update, SpinImp.get_fit]
  rw [h.mirror u t, levels_sym h.wf h.sym he u]
  have e1 : (if (!t) = true then (b (σ u)).2.1 else (b (σ u)).1.1) = if t = true then (b u).2.1 else (b u).1.1 := by
    have := congrArg Prod.fst e
    cases t <;> simpa using this
  have e2 : (if (!t) = true then (b (σ u)).2.2 else (b (σ u)).1.2) = if t = true then (b u).2.2 else (b u).1.2 := by
    have := congrArg Prod.snd e
    cases t <;> simpa using this
  rw [e1, e2]

theorem NanoSpinState.Af.step {s s' : NanoSpinState m n} (h : s.Af nb σ π) (hP : P.ni = nb + 1) (hb : 0 < P.beta) (hn : 1 ≤ nb) (hn' : nb ≤ 31) (hm2 : 2 ≤ m) (hex : NanoExact P nb U)
    {d r : NanoRows m N} {o : Option ℝ} (hd : Staggered σ d) (hr : s.step P d = .ok (s', o, r)) : s'.Af nb σ π ∧ s'.loc.Stag σ ∧ Staggered σ r := by
  unfold NanoSpinState.step at hr
  obtain ⟨s1, h1, hr⟩ := ebind_ok hr
  obtain ⟨k1, k2⟩ := h.dmftStep hP hn hn' hex hd h1
  have fin : ∀ s2 : NanoSpinState m n, s2.Af nb σ π → s2.loc.Stag σ → ∀ x, s2.loc.delta N P.beta P.junk = .ok x → Staggered σ x := by
    rintro s2 p2 ⟨sig, e1, e2⟩ x hx
    exact delta_stag p2.wf p2.first hm2 p2.sym e1 e2 hb hx
  cases ha : P.adjust with
  | none =>
    rw [ha] at hr
    obtain ⟨x, hx, hr⟩ := ebind_ok hr
    injection hx with hx
    subst hx
    obtain ⟨x, hx, hr⟩ := ebind_ok hr
    simp only [pure, Except.pure, Except.ok.injEq, Prod.mk.injEq] at hr
    obtain ⟨rfl, -, rfl⟩ := hr
    exact ⟨k1, k2, fin _ k1 k2 _ hx⟩
  | some root =>
    rw [ha] at hr
    obtain ⟨mu, hmu, hr⟩ := ebind_ok hr
    obtain ⟨oc, hoc, hr⟩ := ebind_ok hr
    obtain ⟨y, hy, hr⟩ := ebind_ok hr
    injection hy with hy
    subst hy
    obtain ⟨x, hx, hr⟩ := ebind_ok hr
    simp only [pure, Except.pure, Except.ok.injEq, Prod.mk.injEq] at hr
    obtain ⟨rfl, -, rfl⟩ := hr
    have k1' : NanoSpinState.Af nb σ π { s1 with loc := { s1.loc with g := { s1.loc.g with mu := mu } } } :=
      ⟨k1.ok, k1.mirror, ⟨k1.wf.invLen, k1.wf.neqLen, k1.wf.inv, k1.wf.neq, k1.wf.nodup, k1.wf.unique⟩, k1.first, ⟨k1.sym.H, k1.sym.S, k1.sym.hyb, k1.sym.inv, k1.sym.neq⟩⟩
    exact ⟨k1', k2, fin _ k1' k2 _ hx⟩

/-- One call, whatever its outcome. -/
theorem NanoSpinState.Af.call {s s' : NanoSpinState m n} (h : s.Af nb σ π) (hP : P.ni = nb + 1) (hb : 0 < P.beta) (hn : 1 ≤ nb) (hn' : nb ≤ 31) (hm2 : 2 ≤ m) (hex : NanoExact P nb U)
    {d : NanoRows m N} {out : NanoSpinOut m N} (hd : Staggered σ d) (hr : s.call P d = .ok (s', out)) : s'.Af nb σ π ∧ s'.loc.Stag σ ∧ ∀ r, out = .value r → Staggered σ r := by
  unfold NanoSpinState.call at hr
  obtain ⟨⟨s1, o, dn⟩, h1, hr⟩ := ebind_ok hr
  obtain ⟨k1, k2, k3⟩ := h.step hP hb hn hn' hm2 hex hd h1
  have k1' : NanoSpinState.Af nb σ π { s1 with it := s1.it + 1 } := ⟨k1.ok, k1.mirror, k1.wf, k1.first, k1.sym⟩
  cases o with
  | none =>
    simp only [pure, Except.pure, Except.ok.injEq, Prod.mk.injEq] at hr
    obtain ⟨rfl, rfl⟩ := hr
    exact ⟨k1, k2, fun r hr => by cases hr⟩
  | some o =>
    simp only [pure, Except.pure] at hr
    split at hr
    · simp only [Except.ok.injEq, Prod.mk.injEq] at hr
      obtain ⟨rfl, rfl⟩ := hr
      exact ⟨k1, k2, fun r hr => by cases hr⟩
    · split at hr
      · simp only [Except.ok.injEq, Prod.mk.injEq] at hr
        obtain ⟨rfl, rfl⟩ := hr
        exact ⟨k1', k2, fun r hr => by cases hr⟩
      · simp only [Except.ok.injEq, Prod.mk.injEq] at hr
        obtain ⟨rfl, rfl⟩ := hr
        exact ⟨k1', k2, fun r hr => by injection hr with hr; subst hr; exact k3⟩

/-- The staggered arrays. -/
def stagRows (N : ℕ) (σ : Equiv.Perm (Fin m)) : Submodule ℂ (NanoRows m N) where
  carrier := {r | Staggered σ r}
  add_mem' {a b} ha hb := fun u s => by
    have h1 := ha u s
    have h2 := hb u s
    simp only [Pi.add_apply] at *
    rw [h1, h2]
  zero_mem' := fun _ _ => rfl
  smul_mem' c a ha := fun u s => by
    have h1 := ha u s
    simp only [Pi.smul_apply] at *
    rw [h1]

theorem span_stag {vs : Set (NanoRows m N)} (h : ∀ v ∈ vs, Staggered σ v) {d : NanoRows m N} (hd : d ∈ Submodule.span ℂ vs) : Staggered σ d :=
  (Submodule.span_le.mpr (show vs ⊆ (stagRows N σ : Set (NanoRows m N)) from h)) hd

theorem NanoDrive.af (hP : P.ni = nb + 1) (hb : 0 < P.beta) (hn : 1 ≤ nb) (hn' : nb ≤ 31) (hm2 : 2 ≤ m) (hex : NanoExact P nb U) {s s' : NanoSpinState m n} {vs vs' : Set (NanoRows m N)}
    (hr : NanoDrive P s vs s' vs') (h : s.Af nb σ π) (hvs : ∀ v ∈ vs, Staggered σ v) : s'.Af nb σ π ∧ ∀ v ∈ vs', Staggered σ v := by
  induction hr with
  | nil => exact ⟨h, hvs⟩
  | @call s1 s2 s3 vs vs3 d r hd hc _ ih =>
    have hd' := span_stag hvs hd
    obtain ⟨k1, -, k3⟩ := h.call hP hb hn hn' hm2 hex hd' hc
    refine ih k1 fun v hv => ?_
    rcases hv with hv | hv
    · exact hvs v hv
    · rcases hv with rfl | rfl
      · exact hd'
      · exact k3 _ rfl

end

theorem forM'_mem {α σ' : Type} (f : σ' → α → Except PyErr σ') (l : List α) {s t : σ'} (h : forM' f l s = .ok t) : ∀ a ∈ l, ∃ s' t', f s' a = .ok t' := by
  induction l generalizing s with
  | nil => intro a ha; simp at ha
  | cons b l ih =>
    rw [forM'] at h
    intro a ha
    split at h
    · rename_i s' h1
      rcases List.mem_cons.mp ha with rfl | ha
      · exact ⟨_, _, h1⟩
      · exact ih h a ha
    · cases h

/-- The value of a call without spin. -/
theorem call_val (g : NanoLoc n) (hg : g.WF m) (hm : ∀ i ∈ g.idxNeq, i < m) (hm2 : 2 ≤ m) (sigma : ℕ → ℕ → ℂ) (zs : List ℂ) (junk G : ℕ → ℕ → ℂ) (h : g.call m sigma zs junk = .ok G) {u : ℕ} (hu : u < m)
    {c : ℕ} (hc : c < zs.length) : G u c = diagInv (g.dyson (fun r => sigma r c) (zs[c]?.getD 0)) (g.idxNeq[u]?.getD 0) := by
  have hz : zs ≠ [] := by rintro rfl; simp at hc
  have hdet : ∀ c < zs.length, (g.dyson (fun r => sigma r c) (zs[c]?.getD 0)).det ≠ 0 := by
    intro c hc
    have h' := h
    unfold NanoLoc.call at h'
    simp only at h'
    rw [if_neg (by have : 0 < zs.length := by omega
                   positivity), if_neg (by omega)] at h'
    obtain ⟨o, h1, -⟩ := ebind_ok h'
    obtain ⟨s, t, h2⟩ := forM'_mem _ _ h1 c (List.mem_range.mpr hc)
    obtain ⟨o', h3, -⟩ := ebind_ok h2
    exact (body_ok g hg.invLen hg.inv hg.neq hm _ _ h3).1
  obtain ⟨G', e1, e2⟩ := call_eq g hg.invLen hg.inv hg.neq hm sigma zs hz (Or.inl hm2) junk hdet
  rw [h] at e1
  injection e1 with e1
  subst e1
  exact e2 u (by rw [hg.neqLen]; exact hu) c hc

/-- The hybridisation without spin of a lattice with a symmetric self-energy. -/
theorem Delta_sym {g : NanoLoc n} (hg : g.WF m) (hm : ∀ i ∈ g.idxNeq, i < m) (hm2 : 2 ≤ m) {σ : Equiv.Perm (Fin m)} {π : Equiv.Perm (Fin n)} (h : g.SiteSym σ π) {sig : ℕ → ℕ → ℂ} {zs : List ℂ}
    {junk D : ℕ → ℕ → ℂ} (hs : ∀ (u : Fin m) c, sig (σ u) c = sig u c) (hD : g.Delta m sig zs junk = .ok D) (u : Fin m) {c : ℕ} (hc : c < zs.length) : D (σ u) c = D u c := by
  unfold NanoLoc.Delta at hD
  obtain ⟨G, hG, hD⟩ := ebind_ok hD
  obtain ⟨ed, he, hD⟩ := ebind_ok hD
  injection hD with hD
  subst hD
  have hu : (u : ℕ) < g.idxNeq.length := by rw [hg.neqLen]; exact u.2
  have hi : g.idxNeq[(u : ℕ)] < n := hg.neq _ (List.getElem_mem hu)
  have hσ := h.neq u ⟨g.idxNeq[(u : ℕ)], hi⟩ (List.getElem?_eq_getElem hu)
  simp only [nanoWeiss]
  rw [(h.ed hg he).2 u, hs u c, call_val g hg hm hm2 _ zs junk G hG (σ u).2 hc, call_val g hg hm hm2 _ zs junk G hG u.2 hc, hσ, List.getElem?_eq_getElem hu]
  simp only [Option.getD_some]
  have e := h.dyson hg (sig := fun r => sig r c) (sig' := fun r => sig r c) (fun v => hs v c) (zs[c]?.getD 0) hi
  rw [e]

theorem run_ok_ex {p : SpinImp} {f : Bool → Bool} (h : p.Ok nb f) {k : ℕ} (hk : k = nb + 1) (ops : List SpinOp) : ∃ f, (p.run k ops).Ok nb f := by
  subst hk
  exact ⟨_, SpinImp.run_ok h ops⟩

theorem magnetic_mirror (k : ℕ) (p : SpinImp) (ek vk : ℕ → ℝ) (mu ed sign field : ℝ) :
    (p.run k (dmftStepMagnetic ek vk mu ed sign field)).Mirror (p.run k (dmftStepMagnetic ek vk mu ed (-sign) field)) := by
  intro t
  cases t <;> simp [SpinImp.run, dmftStepMagnetic, SpinImp.step, SpinImp.put, SpinImp.get, Imp.step, spinIdx, sub_eq_add_neg]

section
variable {σ : Equiv.Perm (Fin m)} {π : Equiv.Perm (Fin n)} {P : NanoSpinPar m n N} {U : ℝ}

/-- What the antiferromagnetic seed sets up. -/
theorem initializeMagnetic_af {s s' : NanoSpinState m n} (hw : s.loc.g.WF m) (hf : ∀ i ∈ s.loc.g.idxNeq, i < m) (hs : s.loc.g.SiteSym σ π) (hP : P.ni = nb + 1) (hb : 0 < P.beta) (hn : 1 ≤ nb)
    (hn' : nb ≤ 31) (hm2 : 2 ≤ m) (hex : NanoExact P nb U) {Sigma : Fin m → ℂ → ℂ} {sign : Fin m → ℝ} {field U' : ℝ} {mu : Option ℝ} {ek0 vk0 : ℕ → ℝ} (hok : ∀ u, ∃ f, (s.imps u).Ok nb f)
    (himp : ∀ u, s.imps (σ u) = s.imps u) (hsig : ∀ u, Sigma (σ u) = Sigma u) (hsign : ∀ u, sign (σ u) = -sign u) {d : NanoRows m N}
    (hr : s.initializeMagnetic P U' Sigma sign field mu ek0 vk0 = .ok (s', d)) : s'.Af nb σ π ∧ s'.loc.Stag σ ∧ Staggered σ d := by
  unfold NanoSpinState.initializeMagnetic at hr
  obtain ⟨⟨s1, delta⟩, h1, hr⟩ := ebind_ok hr
  obtain ⟨s2, h2, hr⟩ := ebind_ok hr
  obtain ⟨d', hd, hr⟩ := ebind_ok hr
  simp only [pure, Except.pure, Except.ok.injEq, Prod.mk.injEq] at hr
  obtain ⟨rfl, rfl⟩ := hr
  unfold NanoSpinState.initialize at h1
  obtain ⟨ed, he, h1⟩ := ebind_ok h1
  obtain ⟨D, hD, h1⟩ := ebind_ok h1
  simp only [pure, Except.pure, Except.ok.injEq, Prod.mk.injEq] at h1
  obtain ⟨rfl, rfl⟩ := h1
  have hw' : NanoLoc.WF { s.loc.g with mu := mu.getD (U' / 2) } m := ⟨hw.invLen, hw.neqLen, hw.inv, hw.neq, hw.nodup, hw.unique⟩
  have hs' : NanoLoc.SiteSym { s.loc.g with mu := mu.getD (U' / 2) } σ π := ⟨hs.H, hs.S, hs.hyb, hs.inv, hs.neq⟩
  have hed := levels_sym hw' hs' he
  have hdl : ∀ u, (fun k : Fin N => D (σ u : Fin m) k) = fun k : Fin N => D u k := by
    intro u
    funext k
    refine Delta_sym hw' hf hm2 hs' (fun v c => ?_) hD u (by rw [matsList_length]; exact k.2)
    rw [dif_pos (σ v).2, dif_pos v.2, hsig v]
  unfold NanoSpinState.magneticStep at h2
  obtain ⟨b, hbb, h2⟩ := ebind_ok h2
  obtain ⟨ed', he', h2⟩ := ebind_ok h2
  have hbs : ∀ u, b (σ u) = b u := by
    intro u
    have k1 := finM_ok.mp hbb (σ u)
    have k2 := finM_ok.mp hbb u
    simp only [himp u, hed u, hdl u] at k1 k2
    rw [k2] at k1
    injection k1 with k1
    exact k1.symm
  have hed' := levels_sym hw' hs' he'
  have key := fun a b c d e => solveAll_af (U := U) (σ := σ) (π := π) a b c hP hn hn' hex d e h2
  obtain ⟨k1, k2, -, -⟩ := key hw' hf hs' (fun u => (hok u).elim fun f hf => (run_ok_ex hf hP _).elim fun f' hf' => run_ok_ex hf' hP _) (fun u => by
    simp only [himp u, hed u, hed' u, hbs u, hsign u]
    exact magnetic_mirror _ _ _ _ _ _ _ _)
  obtain ⟨sg, e1, e2⟩ := k2
  exact ⟨k1, ⟨sg, e1, e2⟩, delta_stag k1.wf k1.first hm2 k1.sym e1 e2 hb hd⟩

end

/-! ### The main theorems of C142 -/

/-- **C142** On a nanostructure with the symmetry `π`, an antiferromagnetic seed (the field has opposite signs on the sites exchanged by the symmetry) stays antiferromagnetic: whatever linear
mixing calls the object with afterwards, the hybridisation it computes, the self-energies and the Green function of the lattice at any frequencies of spin up on the image of a site equal those
of spin down on the site. -/
theorem C142_staggered (P : NanoSpinPar m n N) (U : ℝ) (hP : P.ni = nb + 1) (hb : 0 < P.beta) (hn : 1 ≤ nb) (hn' : nb ≤ 31) (hm2 : 2 ≤ m) (hex : NanoExact P nb U)
    (σ : Equiv.Perm (Fin m)) (π : Equiv.Perm (Fin n)) (s s1 s2 : NanoSpinState m n) (hw : s.loc.g.WF m) (hf : ∀ i ∈ s.loc.g.idxNeq, i < m) (hs : s.loc.g.SiteSym σ π)
    (ek0 vk0 : ℕ → ℝ) (hist : Fin m → List SpinOp) (himp : ∀ u, s.imps u = spinAfter nb ek0 vk0 (hist u)) (hhist : ∀ u, hist (σ u) = hist u)
    (Sigma : Fin m → ℂ → ℂ) (hsig : ∀ u, Sigma (σ u) = Sigma u) (sign : Fin m → ℝ) (hsign : ∀ u, sign (σ u) = -sign u) (U' field : ℝ) (mu : Option ℝ) (ek1 vk1 : ℕ → ℝ) (d0 : NanoRows m N)
    (h0 : s.initializeMagnetic P U' Sigma sign field mu ek1 vk1 = .ok (s1, d0)) (vs : Set (NanoRows m N)) (hr : NanoDrive P s1 {d0} s2 vs) :
    (∀ v ∈ vs, ∀ u t, v (σ u) (!t) = v u t) ∧ ∀ d ∈ Submodule.span ℂ vs, ∀ s3 out, s2.call P d = .ok (s3, out) →
      (∀ r, out = .value r → ∀ u t, r (σ u) (!t) = r u t) ∧
      ∃ sig, s3.loc.sigma = some sig ∧ (∀ u t (z : ℂ), z.im ≠ 0 → sig (σ u) (!t) z = sig u t z) ∧
        ∀ zs : List ℂ, (∀ z ∈ zs, z.im ≠ 0) → ∀ junk G, s3.loc.g.callSpin m (sigmaArr sig zs) zs junk = .ok G → ∀ u t, ∀ c < zs.length, G (σ u : Fin m) (spinIdx (!t)) c = G u (spinIdx t) c := by
  obtain ⟨k1, -, k3⟩ := initializeMagnetic_af hw hf hs hP hb hn hn' hm2 hex (fun u => ⟨_, himp u ▸ spinAfter_ok nb ek0 vk0 (hist u)⟩) (fun u => by rw [himp, himp, hhist]) hsig hsign h0
  obtain ⟨k4, k5⟩ := hr.af hP hb hn hn' hm2 hex k1 (fun v hv => by rw [Set.mem_singleton_iff.mp hv]; exact k3)
  refine ⟨k5, fun d hd s3 out hc => ?_⟩
  obtain ⟨k6, ⟨sig, e1, e2⟩, k8⟩ := k4.call hP hb hn hn' hm2 hex (span_stag k5 hd) hc
  exact ⟨k8, sig, e1, fun u t z hz => e2 z hz u t, fun zs hz junk G hG u t c hc => callSpin_stag s3.loc.g k6.wf k6.first hm2 k6.sym hz e2 hG hc u t⟩

/-- **C142** The local moments alternate: in the impurity problem of the image of a site the orbitals are occupied by spin up as those of the site by spin down. -/
theorem C142_moments (P : NanoSpinPar m n N) (U : ℝ) (hP : P.ni = nb + 1) (hb : 0 < P.beta) (hn : 1 ≤ nb) (hn' : nb ≤ 31) (hm2 : 2 ≤ m) (hex : NanoExact P nb U)
    (σ : Equiv.Perm (Fin m)) (π : Equiv.Perm (Fin n)) (s s1 s2 : NanoSpinState m n) (hw : s.loc.g.WF m) (hf : ∀ i ∈ s.loc.g.idxNeq, i < m) (hs : s.loc.g.SiteSym σ π)
    (ek0 vk0 : ℕ → ℝ) (hist : Fin m → List SpinOp) (himp : ∀ u, s.imps u = spinAfter nb ek0 vk0 (hist u)) (hhist : ∀ u, hist (σ u) = hist u)
    (Sigma : Fin m → ℂ → ℂ) (hsig : ∀ u, Sigma (σ u) = Sigma u) (sign : Fin m → ℝ) (hsign : ∀ u, sign (σ u) = -sign u) (U' field : ℝ) (mu : Option ℝ) (ek1 vk1 : ℕ → ℝ) (d0 : NanoRows m N)
    (h0 : s.initializeMagnetic P U' Sigma sign field mu ek1 vk1 = .ok (s1, d0)) (vs : Set (NanoRows m N)) (hr : NanoDrive P s1 {d0} s2 vs) (u : Fin m) {es es' : Espace (ℕ × ℕ)} {egs egs' beta : ℝ}
    (hes : EigenEspace (nb + 1) ((s2.imps u).args (nb + 1) U).ham es) (hes' : EigenEspace (nb + 1) ((s2.imps (σ u)).args (nb + 1) U).ham es') {occ occ' : List OccSct}
    (hocc : List.Forall₂ OccView es occ) (hocc' : List.Forall₂ OccView es' occ') :
    ∃ Up Dw As Up' Dw' As', getOccupation occ egs beta (nb + 1) = .ok (Up, Dw, As) ∧ getOccupation occ' egs' beta (nb + 1) = .ok (Up', Dw', As') ∧
      ∀ k : Fin (nb + 1), Up' k = Dw k ∧ Dw' k = Up k := by
  obtain ⟨k1, -, k3⟩ := initializeMagnetic_af hw hf hs hP hb hn hn' hm2 hex (fun u => ⟨_, himp u ▸ spinAfter_ok nb ek0 vk0 (hist u)⟩) (fun u => by rw [himp, himp, hhist]) hsig hsign h0
  obtain ⟨k4, -⟩ := hr.af hP hb hn hn' hm2 hex k1 (fun v hv => by rw [Set.mem_singleton_iff.mp hv]; exact k3)
  obtain ⟨Up, Dw, As, Up', Dw', As', e1, e2, e3⟩ := C113_occupation (egs := egs) (egs' := egs') (beta := beta) ((k4.mirror u).relabel U (nb + 1)) hes hocc hes' hocc'
  exact ⟨Up, Dw, As, Up', Dw', As', e1, e2, fun k => e3 k⟩

/-- **C132** (partial: couplings that are zero or above the cut) The self-energy of each spin of a spin-dependent impurity from the exact Green functions is causal. -/
theorem C132_spin_partial {ek0 vk0 : ℕ → ℝ} {beta : ℝ} (hn : 1 ≤ nb) (hn' : nb ≤ 31) (U : ℝ) (ops : List SpinOp) (sp : Bool) (hf : freshAfter ops sp = true)
    (hv : ∀ k < nb, (spinAfter nb ek0 vk0 ops).vk sp k = 0 ∨ 1 / 10 ^ 7 < |(spinAfter nb ek0 vk0 ops).vk sp k|) {z : ℂ} (hz : 0 < z.im) {gf : Bool → ℂ → ℂ}
    (hg : IsGreen (ι := Finset (Fin (nb + 1 + (nb + 1)))) beta ((spinAfter nb ek0 vk0 ops).args (nb + 1) U).ham (ann ℝ (orb sp (0 : Fin (nb + 1)))) (cre ℝ (orb sp (0 : Fin (nb + 1)))) z (gf sp z)) :
    ((spinAfter nb ek0 vk0 ops).sigma (nb + 1) gf sp z).im ≤ 0 := by
  have ha := (spinAfter_ok nb ek0 vk0 ops).valid hn hn' U
  obtain ⟨es, hes⟩ := eigenEspace_exists ha
  obtain ⟨G, -, h2⟩ := C93_gf2_exact (junk := 0) (beta := beta) (egs := 0) ha.le hes sp
  have ez : z = (z.re : ℂ) + Complex.I * (z.im : ℂ) := by rw [mul_comm]; exact (Complex.re_add_im z).symm
  have hG : ∀ i j : Fin (nb + 1), IsGreen (ι := Finset (Fin (nb + 1 + (nb + 1)))) beta ((spinAfter nb ek0 vk0 ops).args (nb + 1) U).ham (ann ℝ (orb sp i)) (cre ℝ (orb sp j)) z
      ((Matrix.of fun i j : Fin (nb + 1) => (G i j).call z.re z.im) i j) := by
    intro i j
    have := (h2 i j z.re z.im hz.ne' _).mpr rfl
    rw [← ez] at this
    exact this
  have h0 : gf sp z = (Matrix.of fun i j : Fin (nb + 1) => (G i j).call z.re z.im) 0 0 := by
    have := (h2 (0 : Fin (nb + 1)) (0 : Fin (nb + 1)) z.re z.im hz.ne' (gf sp z)).mp
    rw [← ez] at this
    exact this hg
  have hd := C114_dyson hn hn' U ops sp hf hv hz.ne' hG h0
  obtain ⟨-, hc⟩ := green_causal hes.basis beta (c := fun i : Fin (nb + 1) => ann ℝ (orb sp i)) (anti_orb sp) hz hG
  exact local_causal (siam_symm _ _ _) hd hc

/-! ### Non-vacuity: the Hubbard dimer with an antiferromagnetic seed -/

open Classical in
/-- Exact solver with one bath site, a fit that always gives the bath site at zero with coupling one, no adjustment. -/
noncomputable def exactNano : NanoSpinPar 2 2 1 :=
  ⟨2, 1, 0, 20, some 1, fun _ _ => .ok (fun _ => 0, fun _ => 1),
    fun p => if h : ∃ gf : Bool → ℂ → ℂ, ∀ (s : Bool) (z : ℂ), z.im ≠ 0 →
        IsGreen 1 (p.args (1 + 1) 3).ham (ann ℝ (orb s (0 : Fin (1 + 1)))) (cre ℝ (orb s (0 : Fin (1 + 1)))) z (gf s z) then .ok h.choose else .error .valueError,
    none, fun _ => .ok 1, fun _ _ _ => 0⟩

theorem exactNano_exact : NanoExact exactNano 1 3 := by
  intro p gf h
  simp only [exactNano] at h
  split at h
  · rename_i hx
    injection h with h
    subst h
    exact hx.choose_spec
  · cases h

theorem exactNano_solve {ops : List SpinOp} (hf : ∀ t, freshAfter ops t = true) (hv : ∀ t, (spinAfter 1 (fun _ => 0) (fun _ => 1) ops).vk t = fun _ => 1) :
    ∃ gf, exactNano.solve (spinAfter 1 (fun _ => 0) (fun _ => 1) ops) = .ok gf ∧ ∀ t (z : ℂ), 0 < z.im → ((spinAfter 1 (fun _ => 0) (fun _ => 1) ops).sigma 2 gf t z).im ≤ 0 := by
  obtain ⟨es, hes⟩ := eigenEspace_exists ((spinAfter_ok 1 (fun _ => 0) (fun _ => 1) ops).valid le_rfl (by norm_num) 3)
  have hx : ∃ gf : Bool → ℂ → ℂ, ∀ (s : Bool) (z : ℂ), z.im ≠ 0 →
      IsGreen 1 ((spinAfter 1 (fun _ => 0) (fun _ => 1) ops).args (1 + 1) 3).ham (ann ℝ (orb s (0 : Fin (1 + 1)))) (cre ℝ (orb s (0 : Fin (1 + 1)))) z (gf s z) :=
    ⟨fun s z => _, fun s z hz => (hes.basis.green 1 _ _ hz _).mpr rfl⟩
  refine ⟨_, dif_pos hx, fun t z hz => ?_⟩
  refine C132_spin_partial le_rfl (by norm_num) 3 ops t (hf t) (fun k _ => Or.inr ?_) hz (hx.choose_spec t z hz.ne')
  rw [hv t]
  norm_num

/-- The permutation that exchanges the sites of the dimer is a symmetry. -/
theorem dimerLoc_sym : dimerLoc.SiteSym (Equiv.swap (0 : Fin 2) 1) (Equiv.swap (0 : Fin 2) 1) := by
  refine ⟨?_, ?_, ?_, ?_, ?_⟩
  · intro i j; fin_cases i <;> fin_cases j <;> simp [dimerLoc]
  · intro i j; fin_cases i <;> fin_cases j <;> simp [dimerLoc]
  · intro z i j; rfl
  · intro i u; fin_cases i <;> fin_cases u <;> simp [dimerLoc]
  · intro u i; fin_cases i <;> fin_cases u <;> simp [dimerLoc]

theorem exactNano_progress (s : NanoSpinState 2 2) (hg : s.loc.g = dimerLoc) {ops : Fin 2 → List SpinOp} (hf : ∀ u t, freshAfter (ops u) t = true)
    (hv : ∀ u t, (spinAfter 1 (fun _ => 0) (fun _ => 1) (ops u)).vk t = fun _ => 1) :
    ∃ s' d, s.solveAll exactNano (fun u => spinAfter 1 (fun _ => 0) (fun _ => 1) (ops u)) = .ok s' ∧ s'.loc.delta 1 exactNano.beta exactNano.junk = .ok d ∧ s'.loc.g = dimerLoc ∧ s'.it = s.it ∧
      s'.imps = fun u => spinAfter 1 (fun _ => 0) (fun _ => 1) (ops u) := by
  choose gf h1 h2 using fun u => exactNano_solve (hf u) (hv u)
  have e1 : finM (fun u => exactNano.solve (spinAfter 1 (fun _ => 0) (fun _ => 1) (ops u))) = .ok gf := finM_ok.mpr h1
  let sig : Fin 2 → Bool → ℂ → ℂ := fun u => (spinAfter 1 (fun _ => 0) (fun _ => 1) (ops u)).sigma 2 (gf u)
  obtain ⟨G, hG⟩ := callSpin_exists dimerLoc dimerLoc_wf (by simp [dimerLoc]) le_rfl (sigmaArr sig (matsList exactNano.beta 1)) (matsList exactNano.beta 1) (by simp [matsList]) exactNano.junk (by
    intro t ht c hc
    rw [matsList_length] at hc
    obtain rfl : c = 0 := by omega
    rw [matsList_get one_pos]
    have hz : 0 < (matsZ exactNano.beta (0 : ℕ)).im := by simp [matsZ, exactNano, matsFreq, Real.pi_pos]
    refine C104_nonsingular (dimerLoc_causal hz _ fun r => ?_)
    unfold sigmaArr
    split
    · rw [matsList_get one_pos]
      exact h2 _ _ _ hz
    · simp)
  have hed : dimerLoc.ed = .ok [0, 0] := by
    unfold NanoLoc.ed
    rw [fancyIdx_ok _ dimerLoc_wf.neq]
    simp [dimerLoc]
  have hd : ∃ d, (⟨dimerLoc, some sig⟩ : NanoSpinLoc 2 2).delta 1 exactNano.beta exactNano.junk = .ok d := by
    unfold NanoSpinLoc.delta
    simp only [hG, hed, bind, Except.bind]
    exact ⟨_, rfl⟩
  obtain ⟨d, hd⟩ := hd
  refine ⟨⟨fun u => spinAfter 1 (fun _ => 0) (fun _ => 1) (ops u), gf, ⟨s.loc.g, some sig⟩, s.it⟩, d, ?_, by rw [hg]; exact hd, hg, rfl, rfl⟩
  unfold NanoSpinState.solveAll
  rw [e1]
  rfl

/-- The hypotheses of C142 are met by a seeded run of the dimer that makes a call and returns. -/
example : ∃ (s s1 s2 : NanoSpinState 2 2) (d0 : NanoRows 2 1) (vs : Set (NanoRows 2 1)) (d r : NanoRows 2 1) (sign : Fin 2 → ℝ),
    exactNano.ni = 1 + 1 ∧ 0 < exactNano.beta ∧ NanoExact exactNano 1 3 ∧ s.loc.g.WF 2 ∧ (∀ i ∈ s.loc.g.idxNeq, i < 2) ∧ s.loc.g.SiteSym (Equiv.swap (0 : Fin 2) 1) (Equiv.swap (0 : Fin 2) 1) ∧
    (∀ u, s.imps u = spinAfter 1 (fun _ => 0) (fun _ => 1) []) ∧ (∀ u, sign (Equiv.swap (0 : Fin 2) 1 u) = -sign u) ∧ sign 0 = 1 ∧
    s.initializeMagnetic exactNano 3 (fun _ _ => 0) sign (1 / 2) (some 0) (fun _ => 0) (fun _ => 1) = .ok (s1, d0) ∧ d ∈ Submodule.span ℂ {d0} ∧ s1.call exactNano d = .ok (s2, .value r) ∧
    NanoDrive exactNano s1 {d0} s2 vs ∧ (s1.imps 0).H 0 0 0 ≠ (s1.imps 0).H 1 0 0 := by
  let sign : Fin 2 → ℝ := ![1, -1]
  let s : NanoSpinState 2 2 := ⟨fun _ => spinAfter 1 (fun _ => 0) (fun _ => 1) [], fun _ _ _ => 0, ⟨dimerLoc, none⟩, 0⟩
  have hed : dimerLoc.ed = .ok [0, 0] := by
    unfold NanoLoc.ed
    rw [fancyIdx_ok _ dimerLoc_wf.neq]
    simp [dimerLoc]
  have hlev : ∀ x, (⟨dimerLoc, x⟩ : NanoSpinLoc 2 2).levels = .ok fun _ => 0 := by
    intro x
    unfold NanoSpinLoc.levels
    simp only [hed, bind, Except.bind]
    rw [if_pos (show [(0 : ℂ), 0].length = 2 from rfl)]
    simp only [pure, Except.pure]
    congr 1
    funext u
    fin_cases u <;> rfl
  have hbeta : exactNano.beta = 1 := rfl
  obtain ⟨D, hD, -⟩ := C105_delta_partial dimerLoc dimerLoc_wf (by simp [dimerLoc]) (fun r c => if h : r < 2 then (fun _ _ => 0 : Fin 2 → ℂ → ℂ) ⟨r, h⟩ ((matsList exactNano.beta 1)[c]?.getD 0) else 0)
    (matsList exactNano.beta 1) (by simp [matsList]) (Or.inl le_rfl) (fun r c => exactNano.junk r 0 c) rfl (by
      intro c hc
      refine dimerLoc_causal ?_ _ fun r => by split <;> simp
      simp [matsList, matsZ, hbeta, matsFreq]
      positivity)
  let ops0 : Fin 2 → List SpinOp := fun u => [.update (0 - 0), .resetBath (fun _ => 0) (fun _ => 1)] ++ dmftStepMagnetic (fun _ => 0) (fun _ => 1) 0 0 (sign u) (1 / 2)
  let si : NanoSpinState 2 2 := ⟨fun _ => spinAfter 1 (fun _ => 0) (fun _ => 1) [.update (0 - 0), .resetBath (fun _ => 0) (fun _ => 1)], fun _ _ _ => 0, ⟨dimerLoc, some fun _ _ _ => 0⟩, 0⟩
  have hvk : ∀ (u : Fin 2) (t : Bool), (spinAfter 1 (fun _ => 0) (fun _ => 1) (ops0 u)).vk t = fun _ => 1 := fun u t =>
    ((spin_magnetic (nb := 1) (ek0 := fun _ => 0) (vk0 := fun _ => 1) [.update (0 - 0), .resetBath (fun _ => 0) (fun _ => 1)] (fun _ => 0) (fun _ => 1) 0 0 (sign u) (1 / 2)).1 t).2
  have hfr : ∀ u t, freshAfter (ops0 u) t = true := by
    intro u t
    cases t <;> simp [ops0, freshAfter, dmftStepMagnetic, SpinOp.fresh]
  obtain ⟨s1, d0, a1, a2, a3, a4, a5⟩ := exactNano_progress si rfl hfr hvk
  have hi : s.initialize (N := 1) exactNano 3 (fun _ _ => 0) (some 0) (fun _ => 0) (fun _ => 1) = .ok (si, fun u k => D u k) := by
    unfold NanoSpinState.initialize
    have e : ({ s.loc.g with mu := (some (0 : ℝ)).getD (3 / 2) } : NanoLoc 2) = dimerLoc := rfl
    simp only [e, hlev, bind, Except.bind, hD]
    rfl
  have hmag : si.magneticStep exactNano (fun u k => D u k) sign (1 / 2) = .ok s1 := by
    unfold NanoSpinState.magneticStep
    have e : finM (fun u => exactNano.fit ((si.imps u).get false) ((fun (u : Fin 2) (k : Fin 1) => D u k) u)) = .ok fun _ => (fun _ => 0, fun _ => 1) := finM_ok.mpr fun _ => rfl
    rw [e]
    simp only [bind, Except.bind]
    rw [show si.loc.levels = .ok fun _ => 0 from hlev _]
    rw [← a1]
    simp only
    congr 1
  have hinit : s.initializeMagnetic exactNano 3 (fun _ _ => 0) sign (1 / 2) (some 0) (fun _ => 0) (fun _ => 1) = .ok (s1, d0) := by
    unfold NanoSpinState.initializeMagnetic
    rw [hi]
    simp only [bind, Except.bind]
    rw [hmag]
    simp only
    rw [a2]
    rfl
  let ops1 : Fin 2 → List SpinOp := fun u => ops0 u ++ [.fit (fun _ _ => 0) (fun _ _ => 1), .update (0 - 0)]
  have hvk1 : ∀ (u : Fin 2) (t : Bool), (spinAfter 1 (fun _ => 0) (fun _ => 1) (ops1 u)).vk t = fun _ => 1 := by
    intro u t
    have e : spinAfter 1 (fun _ => 0) (fun _ => 1) (ops1 u) = ((spinAfter 1 (fun _ => 0) (fun _ => 1) (ops0 u)).step 2 (.fit (fun _ _ => 0) (fun _ _ => 1))).step 2 (.update (0 - 0)) := by
      simp only [ops1, spinAfter, SpinImp.run, List.foldl_append]; rfl
    rw [e]
    cases t <;> simp [SpinImp.step, SpinImp.each, SpinImp.put, SpinImp.get, Imp.run, Imp.step]
  have hfr1 : ∀ u t, freshAfter (ops1 u) t = true := by
    intro u t
    simp [ops1, freshAfter, SpinOp.fresh]
  obtain ⟨s2, d1, b1, b2, b3, b4, b5⟩ := exactNano_progress s1 a3 hfr1 hvk1
  have hst : s1.dmftStep exactNano d0 = .ok s2 := by
    unfold NanoSpinState.dmftStep
    have e : finM (fun u => do
        let up ← exactNano.fit ((s1.imps u).get false) (d0 u false)
        let dw ← exactNano.fit ((s1.imps u).get true) (d0 u true)
        pure (up, dw)) = .ok fun _ => ((fun _ => 0, fun _ => 1), (fun _ => 0, fun _ => 1)) := finM_ok.mpr fun _ => rfl
    rw [e]
    simp only [bind, Except.bind]
    rw [show s1.loc.levels = .ok fun _ => 0 by rw [← hlev s1.loc.sigma, ← a3]]
    rw [← b1, a3]
    simp only
    congr 1
    funext u
    rw [a5]
    simp only [ops1, spinAfter, SpinImp.run, List.foldl_append, ite_self]
    rfl
  have hcall : s1.call exactNano d0 = .ok ({ s2 with it := s2.it + 1 }, .value d1) := by
    unfold NanoSpinState.call NanoSpinState.step
    rw [hst]
    simp only [bind, Except.bind, pure, Except.pure, exactNano] at b2 ⊢
    rw [b2]
    simp only
    rw [if_neg (not_lt.mpr (Real.sqrt_nonneg _))]
    exact if_neg (show ¬ s2.it + 1 > 20 by rw [b4, a4]; simp [si])
  refine ⟨s, s1, _, d0, _, d0, d1, sign, rfl, one_pos, exactNano_exact, dimerLoc_wf, by simp [s, dimerLoc], dimerLoc_sym, fun _ => rfl, ?_, rfl, hinit, Submodule.subset_span rfl, hcall,
    .call (Submodule.subset_span rfl) hcall (.nil _ _), ?_⟩
  · intro u
    fin_cases u <;> simp [sign]
  · rw [a5]
    obtain ⟨-, -, -, c1, c2⟩ := spin_magnetic (nb := 1) (ek0 := fun _ => 0) (vk0 := fun _ => 1) [.update (0 - 0), .resetBath (fun _ => 0) (fun _ => 1)] (fun _ => 0) (fun _ => 1) 0 0 (sign 0) (1 / 2)
    simp only [ops0]
    rw [c1, c2]
    simp [sign]
    norm_num

end Edpyt
