import Verif.Props.DedPass
import Verif.Props.OccTruncated
/-!
Property C137: what `build_espace` determines although the eigenvectors of degenerate levels are arbitrary.
-/
namespace Edpyt
open Spec Matrix

section
variable {ι : Type} [Fintype ι] [DecidableEq ι] {H : Matrix ι ι ℝ} {κ κ' : Type} [Fintype κ] [DecidableEq κ] [Fintype κ'] [DecidableEq κ'] {u : κ → ι → ℝ} {E : κ → ℝ} {u' : κ' → ι → ℝ} {E' : κ' → ℝ}

/-- Eigenvectors of a symmetric matrix at different eigenvalues are orthogonal. -/
theorem EigBasis.perp (hH : Hᵀ = H) (h : EigBasis H u E) (h' : EigBasis H u' E') (a : κ) (b : κ') (g : ℝ → ℝ) : g (E a) * (u a ⬝ᵥ u' b) = g (E' b) * (u a ⬝ᵥ u' b) := by
  have h1 : u a ⬝ᵥ (H *ᵥ u' b) = E' b * (u a ⬝ᵥ u' b) := by rw [h'.eig, dotProduct_smul, smul_eq_mul]
  have h2 : u a ⬝ᵥ (H *ᵥ u' b) = E a * (u a ⬝ᵥ u' b) := by
    rw [Matrix.dotProduct_mulVec, ← Matrix.mulVec_transpose, hH, h.eig, smul_dotProduct, smul_eq_mul]
  by_cases hz : u a ⬝ᵥ u' b = 0
  · rw [hz, mul_zero, mul_zero]
  · have : E a = E' b := mul_right_cancel₀ hz (h2.symm.trans h1)
    rw [this]

/-- The trace of `g(H) A` in any basis of eigenvectors. -/
theorem EigBasis.trace_indep (hH : Hᵀ = H) (h : EigBasis H u E) (h' : EigBasis H u' E') (g : ℝ → ℝ) (A : Matrix ι ι ℝ) :
    ∑ a, g (E a) * (u a ⬝ᵥ (A *ᵥ u a)) = ∑ b, g (E' b) * (u' b ⬝ᵥ (A *ᵥ u' b)) := by
  have h1 : ∀ a, g (E a) * (u a ⬝ᵥ (A *ᵥ u a)) = ∑ b, g (E' b) * ((u a ⬝ᵥ u' b) * (u' b ⬝ᵥ (A *ᵥ u a))) := by
    intro a
    have : u a ⬝ᵥ (A *ᵥ u a) = ∑ b, (u a ⬝ᵥ u' b) * (u' b ⬝ᵥ (A *ᵥ u a)) := by
      conv_lhs => rw [← h'.expand (A *ᵥ u a)]
      rw [dotProduct_sum]
      exact Finset.sum_congr rfl fun b _ => by rw [dotProduct_smul, smul_eq_mul, mul_comm]
    rw [this, Finset.mul_sum]
    exact Finset.sum_congr rfl fun b _ => by rw [← mul_assoc, h.perp hH h' a b g, mul_assoc]
  simp only [h1]
  rw [Finset.sum_comm]
  refine Finset.sum_congr rfl fun b _ => ?_
  rw [← Finset.mul_sum]
  congr 1
  have h2 : A *ᵥ u' b = ∑ a, (u a ⬝ᵥ u' b) • (A *ᵥ u a) := by
    conv_lhs => rw [← h.expand (u' b)]
    rw [Matrix.mulVec_sum]
    exact Finset.sum_congr rfl fun a _ => Matrix.mulVec_smul _ _ _
  rw [h2, dotProduct_sum]
  exact Finset.sum_congr rfl fun a _ => by rw [dotProduct_smul, smul_eq_mul]
end

variable {n : ℕ} {H : Matrix (Finset (Fin (n + n))) (Finset (Fin (n + n))) ℝ} {es es1 : Espace (ℕ × ℕ)}

theorem sctSum_zip (F : ℝ → (Finset (Fin (n + n)) → ℝ) → ℝ) (I : Sct) (h : I.eigvals.length = I.eigvecs.length) :
    sctSum n F I = ((I.eigvals.zip I.eigvecs).map fun p => F p.1 (ket n I.states.ups I.states.dws p.2)).sum := by
  unfold sctSum Sct.ket
  generalize I.eigvals = l at *
  generalize I.eigvecs = v at *
  induction l generalizing v with
  | nil => simp
  | cons x l ih =>
    cases v with
    | nil => simp at h
    | cons y v =>
      simp only [List.length_cons, add_left_inj] at h
      rw [List.length_cons, Finset.sum_range_succ']
      simp only [List.getElem?_cons_succ, List.zip_cons_cons, List.map_cons, List.sum_cons]
      rw [ih v h]
      simp [add_comm]

theorem list_filter_sum {α : Type} (l : List α) (p : α → Bool) (f : α → ℝ) : ((l.filter p).map f).sum = (l.map fun x => if p x then f x else 0).sum := by
  induction l with
  | nil => rfl
  | cons x l ih => by_cases h : p x <;> simp [List.filter_cons, h, ih]

/-- A sum over the screened states as a sum over all. -/
theorem screen_sum (h : EspaceOk es) (egs bs cutoff : ℝ) {es' : Espace (ℕ × ℕ)} (hs : screenEspace es egs bs cutoff = .ok es') (F : ℝ → (Finset (Fin (n + n)) → ℝ) → ℝ) :
    (es'.map fun p => sctSum n F p.2).sum = (es.map fun p => sctSum n (fun E x => if keepE egs bs cutoff E then F E x else 0) p.2).sum := by
  rw [screenEspace_eq egs bs cutoff es h.pairs h.nodup] at hs
  injection hs with hs; subst hs
  rw [List.map_map, list_filter_sum]
  congr 1
  refine List.map_congr_left fun p hp => ?_
  rw [sctSum_zip _ p.2 (h.pairs p hp)]
  have e : sctSum n F (screenedSct egs bs cutoff p.2) = ((p.2.eigvals.zip p.2.eigvecs).map fun q => if keepE egs bs cutoff q.1 then F q.1 (ket n p.2.states.ups p.2.states.dws q.2) else 0).sum := by
    rw [sctSum_zip _ _ (by simp [screenedSct])]
    simp only [screenedSct]
    rw [← List.unzip_fst, ← List.unzip_snd, List.zip_unzip, survivors, list_filter_sum]
  simp only [Function.comp]
  rw [← e]
  by_cases hk : survivors egs bs cutoff p.2 = []
  · simp [hk, sctSum, screenedSct]
  · simp [hk]

/-- A sum over all states does not depend on the eigenvectors. -/
theorem espace_sum_indep (hH : Hᵀ = H) (h : EigenEspace n H es) (h1 : EigenEspace n H es1) (g : ℝ → ℝ) (A : Matrix (Finset (Fin (n + n))) (Finset (Fin (n + n))) ℝ) :
    (es.map fun p => sctSum n (fun E x => g E * (x ⬝ᵥ (A *ᵥ x))) p.2).sum = (es1.map fun p => sctSum n (fun E x => g E * (x ⬝ᵥ (A *ᵥ x))) p.2).sum := by
  have key : ∀ es, EigenEspace n H es → (es.map fun p => sctSum n (fun E x => g E * (x ⬝ᵥ (A *ᵥ x))) p.2).sum = ∑ x, g (esVal n es x) * (esKet n es x ⬝ᵥ (A *ᵥ esKet n es x)) :=
    fun es h => (sum_espace h.toCompleteEspace (fun E x => g E * (x ⬝ᵥ (A *ᵥ x)))).symm
  rw [key _ h, key _ h1]
  exact h.basis.trace_indep hH h1.basis g A

/-- The occupations from a screened espace, for two choices of the eigenvectors. -/
theorem occupation_indep (h : EigenEspace n H es) (h1 : EigenEspace n H es1) (egs bs cutoff beta : ℝ) {es' es1' : Espace (ℕ × ℕ)}
    (hs : screenEspace es egs bs cutoff = .ok es') (hs1 : screenEspace es1 egs bs cutoff = .ok es1') {occ occ1 : List OccSct} (hocc : List.Forall₂ OccView es' occ)
    (hocc1 : List.Forall₂ OccView es1' occ1) : ∃ U D As U1 D1 As1, getOccupation occ egs beta n = .ok (U, D, As) ∧ getOccupation occ1 egs beta n = .ok (U1, D1, As1) ∧
      ∀ k : Fin n, U k = U1 k ∧ D k = D1 k := by
  have hH : Hᵀ = H := h.basis.symm
  have key : ∀ {es es' : Espace (ℕ × ℕ)} {occ : List OccSct}, EigenEspace n H es → screenEspace es egs bs cutoff = .ok es' → List.Forall₂ OccView es' occ →
      ∃ U D As, getOccupation occ egs beta n = .ok (U, D, As) ∧ ∀ k : Fin n,
        U k = (es.map fun p => sctSum n (fun E x => (if keepE egs bs cutoff E then Real.exp (-beta * (E - egs)) else 0) * (x ⬝ᵥ (num ℝ (orb false k) *ᵥ x))) p.2).sum /
          (es.map fun p => sctSum n (fun E x => (if keepE egs bs cutoff E then Real.exp (-beta * (E - egs)) else 0) * (x ⬝ᵥ ((1 : Matrix _ _ ℝ) *ᵥ x))) p.2).sum ∧
        D k = (es.map fun p => sctSum n (fun E x => (if keepE egs bs cutoff E then Real.exp (-beta * (E - egs)) else 0) * (x ⬝ᵥ (num ℝ (orb true k) *ᵥ x))) p.2).sum /
          (es.map fun p => sctSum n (fun E x => (if keepE egs bs cutoff E then Real.exp (-beta * (E - egs)) else 0) * (x ⬝ᵥ ((1 : Matrix _ _ ℝ) *ᵥ x))) p.2).sum := by
    intro es es' occ h hs hocc
    obtain ⟨es'', e1, hsub⟩ := h.subEspace.screen egs bs cutoff
    obtain rfl : es'' = es' := by rw [e1] at hs; exact Except.ok.inj hs
    have hok : ∀ s ∈ occ, ∃ nup ndw, OccOk n nup ndw s := by
      intro s hs
      obtain ⟨p, hp, hv⟩ := occView_mem hocc hs
      obtain ⟨up, dw, h1⟩ := (hsub.sct p hp).ok
      exact ⟨_, _, hv.ok h1⟩
    obtain ⟨U, D, As, hr, hUD⟩ := C43_thermal egs beta occ hok
    have hZ : (occ.map (boltzZ egs beta)).sum = (es.map fun p => sctSum n (fun E x => (if keepE egs bs cutoff E then Real.exp (-beta * (E - egs)) else 0) * (x ⬝ᵥ ((1 : Matrix _ _ ℝ) *ᵥ x))) p.2).sum := by
      have e2 : (occ.map (boltzZ egs beta)).sum = (es''.map fun p => sctSum n (fun E x => Real.exp (-beta * (E - egs)) * (x ⬝ᵥ ((1 : Matrix _ _ ℝ) *ᵥ x))) p.2).sum := by
        rw [occView_sum hocc (boltzZ egs beta) (sctWt beta egs)]
        · congr 1
          refine List.map_congr_left fun p hp => ?_
          unfold sctWt sctSum
          refine Finset.sum_congr rfl fun k hk => ?_
          simp only
          rw [Matrix.one_mulVec, (hsub.sct p hp).ket_norm (Finset.mem_range.mp hk), mul_one]
        · intro p _ s hv
          unfold boltzZ sctWt
          rw [Finset.sum_range]
          have hlen : s.eigvals.length = p.2.eigvals.length := by rw [hv.vals]
          refine Fintype.sum_equiv (finCongr hlen) _ _ fun j => ?_
          have hj : p.2.eigvals[(j : ℕ)]?.getD 0 = s.eigvals[j] := by rw [← hv.vals]; simp
          simp [hj]
      rw [e2, screen_sum h.subEspace.espaceOk egs bs cutoff hs]
      simp only [ite_mul, zero_mul]
    have hO : ∀ b (k : Fin n), (occ.map (boltzOcc egs beta n b k)).sum =
        (es.map fun p => sctSum n (fun E x => (if keepE egs bs cutoff E then Real.exp (-beta * (E - egs)) else 0) * (x ⬝ᵥ (num ℝ (orb b k) *ᵥ x))) p.2).sum := by
      intro b k
      rw [occView_O hsub hocc, screen_sum h.subEspace.espaceOk egs bs cutoff hs]
      simp only [ite_mul, zero_mul]
    exact ⟨U, D, As, hr, fun k => ⟨by rw [(hUD k).1, hZ, hO], by rw [(hUD k).2, hZ, hO]⟩⟩
  obtain ⟨U, D, As, hr, hk⟩ := key h hs hocc
  obtain ⟨U1, D1, As1, hr1, hk1⟩ := key h1 hs1 hocc1
  refine ⟨U, D, As, U1, D1, As1, hr, hr1, fun k => ⟨?_, ?_⟩⟩
  · rw [(hk k).1, (hk1 k).1, espace_sum_indep hH h h1, espace_sum_indep hH h h1]
  · rw [(hk k).2, (hk1 k).2, espace_sum_indep hH h h1, espace_sum_indep hH h h1]

variable {a : HamArgs} {w w' : ℕ} {egs egs1 : WithTop ℝ}

/-- **C137** (energies) Two runs of `build_espace` on the same arguments, with all eigenvalues, return the same sectors in the same order, the same energies and the same ground energy, whatever
eigenvectors the solver picks. -/
theorem C137_levels (ha : a.Valid) (hw : a.n ≤ w) (hw' : a.n ≤ w') (h : BuildEspace w a none (.ok (es, egs))) (h1 : BuildEspace w' a none (.ok (es1, egs1))) :
    es.map (fun p => (p.1, p.2.eigvals)) = es1.map (fun p => (p.1, p.2.eigvals)) ∧ egs = egs1 := espace_determined ha hw hw' h h1

/-- **C137** (Green functions) `build_gf_exact` and `build_gf2_exact` give the same functions for both. -/
theorem C137_green (ha : a.Valid) (hw : a.n ≤ w) (hw' : a.n ≤ w') (h : BuildEspace w a none (.ok (es, egs))) (h1 : BuildEspace w' a none (.ok (es1, egs1)))
    {junk junk' : ℕ} (beta e0 : ℝ) :
    (∀ pos < a.n, ∃ g g', buildGfExact junk a.n es beta e0 pos false = .ok g ∧ buildGfExact junk' a.n es1 beta e0 pos false = .ok g' ∧
      ∀ e eta : ℝ, eta ≠ 0 → g.call e eta = g'.call e eta) ∧
    ∀ s, ∃ G G', buildGf2Exact junk a.n es beta e0 s = .ok G ∧ buildGf2Exact junk' a.n es1 beta e0 s = .ok G' ∧
      ∀ i j : Fin a.n, ∀ e eta : ℝ, eta ≠ 0 → (G i j).call e eta = (G' i j).call e eta := by
  have he := buildEspace_eigen ha hw h
  have he1 := buildEspace_eigen ha hw' h1
  constructor
  · intro pos hpos
    obtain ⟨g, e1, e2⟩ := C92_gf_exact (junk := junk) (beta := beta) (egs := e0) ha.le he hpos
    obtain ⟨g', f1, f2⟩ := C92_gf_exact (junk := junk') (beta := beta) (egs := e0) ha.le he1 hpos
    exact ⟨g, g', e1, f1, fun e eta hη => (f2 e eta hη _).mp ((e2 e eta hη _).mpr rfl)⟩
  · intro s
    obtain ⟨g, e1, e2⟩ := C93_gf2_exact (junk := junk) (beta := beta) (egs := e0) ha.le he s
    obtain ⟨g', f1, f2⟩ := C93_gf2_exact (junk := junk') (beta := beta) (egs := e0) ha.le he1 s
    exact ⟨g, g', e1, f1, fun i j e eta hη => (f2 i j e eta hη _).mp ((e2 i j e eta hη _).mpr rfl)⟩

/-- **C137** (occupations) `get_occupation` gives the same occupations for both, also after `screen_espace` with the same arguments. -/
theorem C137_occupation (ha : a.Valid) (hw : a.n ≤ w) (hw' : a.n ≤ w') (h : BuildEspace w a none (.ok (es, egs))) (h1 : BuildEspace w' a none (.ok (es1, egs1)))
    (e0 bs cutoff beta : ℝ) : ∃ es' es1', screenEspace es e0 bs cutoff = .ok es' ∧ screenEspace es1 e0 bs cutoff = .ok es1' ∧
      es'.map (fun p => (p.1, p.2.eigvals)) = es1'.map (fun p => (p.1, p.2.eigvals)) ∧
      ∀ occ occ1, List.Forall₂ OccView es' occ → List.Forall₂ OccView es1' occ1 →
        ∃ U D As U1 D1 As1, getOccupation occ e0 beta a.n = .ok (U, D, As) ∧ getOccupation occ1 e0 beta a.n = .ok (U1, D1, As1) ∧ ∀ k : Fin a.n, U k = U1 k ∧ D k = D1 k := by
  have he := buildEspace_eigen ha hw h
  have he1 := buildEspace_eigen ha hw' h1
  have hok := he.subEspace.espaceOk
  have hok1 := he1.subEspace.espaceOk
  have s := screenEspace_eq e0 bs cutoff es hok.pairs hok.nodup
  have s1 := screenEspace_eq e0 bs cutoff es1 hok1.pairs hok1.nodup
  refine ⟨_, _, s, s1, ?_, fun occ occ1 ho ho1 => occupation_indep he he1 e0 bs cutoff beta s s1 ho ho1⟩
  have hd := (espace_determined ha hw hw' h h1).1
  have key : ∀ l : Espace (ℕ × ℕ), (∀ p ∈ l, p.2.eigvals.length = p.2.eigvecs.length) →
      (((l.filter fun p => decide (survivors e0 bs cutoff p.2 ≠ [])).map fun p => (p.1, screenedSct e0 bs cutoff p.2)).map fun p => (p.1, p.2.eigvals)) =
        ((l.map fun p => (p.1, p.2.eigvals)).map fun p => (p.1, p.2.filter (keepE e0 bs cutoff))).filter fun p => decide (p.2 ≠ []) := by
    intro l hl
    induction l with
    | nil => rfl
    | cons p l ih =>
      have ih := ih fun q hq => hl q (by simp [hq])
      have e : (survivors e0 bs cutoff p.2).map Prod.fst = p.2.eigvals.filter (keepE e0 bs cutoff) := filter_zip_fst _ _ (hl p (by simp)) _
      have e2 : survivors e0 bs cutoff p.2 = [] ↔ p.2.eigvals.filter (keepE e0 bs cutoff) = [] := by rw [← e]; simp
      by_cases hk : survivors e0 bs cutoff p.2 = []
      · simp only [List.filter_cons, hk, ne_eq, not_true_eq_false, decide_false, List.map_cons, e2.mp hk]
        exact ih
      · have hk2 := fun hh => hk (e2.mpr hh)
        simp only [List.filter_cons, hk, ne_eq, not_false_eq_true, decide_true, if_true, List.map_cons, hk2]
        rw [ih]
        simp only [screenedSct, e]
        rw [if_pos (by simpa using hk2)]
  rw [key _ hok.pairs, key _ hok1.pairs, hd]

/-- The hypotheses are met, and the views that `get_occupation` reads exist. -/
example : ∃ es egs, exampleArgs.Valid ∧ exampleArgs.n ≤ 64 ∧ BuildEspace 64 exampleArgs none (.ok (es, egs)) ∧ ∃ occ, List.Forall₂ OccView es occ := by
  obtain ⟨⟨es, egs⟩, h⟩ := (buildEspace_none_ok exampleArgs_valid (w := 64) (by simp [exampleArgs])).1
  refine ⟨es, egs, exampleArgs_valid, by simp [exampleArgs], h, es.map fun p => OccSct.ofSct p.2, ?_⟩
  rw [List.forall₂_map_right_iff]
  exact List.forall₂_same.mpr fun p _ => OccSct.ofSct_view p

/-! ### A cut through a degenerate level -/

/-- Two sites without any term: both one-electron states have energy 0. -/
def flatArgs : HamArgs := ⟨2, fun _ _ _ => 0, .array fun _ _ => 0, none, false, 0⟩

theorem flatArgs_valid : flatArgs.Valid := by
  refine ⟨le_refl 2, by simp [flatArgs], rfl, ?_, by simp [flatArgs, VArg.array], by simp [flatArgs, VArg.array], by simp [flatArgs, VArg.array]⟩
  intro s i j _ _
  simp only [flatArgs]

/-- The espace with one state, the electron on site `c`. -/
noncomputable def flatEspace (c : ℕ) : Espace (ℕ × ℕ) := [((1, 0), ⟨.spin (gs 64 2 1) (gs 64 2 0), 2, [0], [fun r => if r = c then 1 else 0]⟩)]

theorem flat_ham : flatArgs.ham = 0 := by
  change hubbard (n := 2) false (fun _ => kept (n := 2) 0 (fun _ _ => 0)) (fun _ => 0) (fun _ _ => 0) + codeExchange (n := 2) none none = (0 : Matrix _ _ ℝ)
  simp [hubbard, codeExchange, kept, kinetic, onsiteU, interSite, exchangeSame, exchangeFlip, pairHopping, offdiag, optMat]
  exact add_zero _

theorem flat_build {c : ℕ} (hc : c < 2) : BuildEspace 64 flatArgs (some [0, 0, 0, 1, 0, 0, 0, 0, 0]) (.ok (flatEspace c, ((0 : ℝ) : WithTop ℝ))) := by
  have hg1 := generateStates_gs (w := 64) (n := 2) (p := 1) (by omega)
  have hg0 := generateStates_gs (w := 64) (n := 2) (p := 0) (by omega)
  have hgs : gs 64 2 1 = [1, 2] := by decide
  have hgs0 : gs 64 2 0 = [0] := by decide
  obtain ⟨ops, hb⟩ := build_exists flatArgs_valid (w := 64) (p := 1) (q := 0) (by simp [flatArgs]) (by simp [flatArgs]) (by simp [flatArgs]) hg1 hg0
  obtain ⟨D, hD, hs⟩ := build_todense flatArgs_valid (w := 64) (p := 1) (q := 0) (by simp [flatArgs]) (by simp [flatArgs]) (by simp [flatArgs]) hg1 hg0 hb
  have hsz : D.size = 2 := by rw [hs.size]; rfl
  have hval : ∀ r < 2, ∀ k < 2, D.val r k = 0 := by
    intro r hr k hk
    have := hs.val r 0 k 0 (by rw [hgs]; exact hr) (by rw [hgs0]; norm_num) (by rw [hgs]; exact hk) (by rw [hgs0]; norm_num)
    simpa [flat_ham] using this
  have hsol : SolveSector flatArgs (.spin (gs 64 2 1) (gs 64 2 0)) 2 (some 1) (.ok ([0], [fun r => if r = c then 1 else 0])) := by
    simp only [SolveSector, Option.getD_some]
    rw [if_pos (by norm_num)]
    refine ⟨.ok ([0, 0], [fun r => if r = c then 1 else 0, fun r => if r = 1 - c then 1 else 0]), Or.inr ⟨ops, hb, Or.inr ⟨D, [0, 0], [fun r => if r = c then 1 else 0, fun r => if r = 1 - c then 1 else 0], hD, ⟨hsz.symm, hsz.symm, by simp, ?_, ?_⟩, rfl⟩⟩, ?_⟩
    · intro i j hi hj
      simp only [List.length_cons, List.length_nil] at hi hj
      rw [hsz]
      interval_cases c <;> interval_cases i <;> interval_cases j <;> simp [Finset.sum_range_succ]
    · intro i hi hi' r hr
      rw [hsz] at hr ⊢
      rw [Finset.sum_eq_zero fun k hk => by rw [hval r hr k (Finset.mem_range.mp hk), zero_mul]]
      simp only [List.length_cons, List.length_nil] at hi
      interval_cases i <;> simp
    · simp [Except.map]
  simp only [BuildEspace, neigOrDefault, szIterSectors_eq, EspaceLoop]
  have hnd : ndindex2 (flatArgs.n + 1) (flatArgs.n + 1) = [(0, 0), (0, 1), (0, 2), (1, 0), (1, 1), (1, 2), (2, 0), (2, 1), (2, 2)] := rfl
  rw [hnd]
  refine Or.inl ⟨([], ⊤), rfl, Or.inl ⟨([], ⊤), rfl, Or.inl ⟨([], ⊤), rfl, Or.inl ⟨(flatEspace c, ((0 : ℝ) : WithTop ℝ)), ?_, ?_⟩⟩⟩⟩
  · refine Or.inr ⟨_, _, hsol, ?_⟩
    have h2 : 2 = (gs 64 flatArgs.n 1).length * (gs 64 flatArgs.n 0).length := rfl
    simp [flatEspace, dictSet, eigMin, szItem]
    exact ⟨⟨rfl, rfl⟩, h2⟩
  · exact Or.inl ⟨_, rfl, Or.inl ⟨_, rfl, Or.inl ⟨_, rfl, Or.inl ⟨_, rfl, Or.inl ⟨_, rfl, rfl⟩⟩⟩⟩⟩

theorem flat_ket {c : ℕ} (hc : c < 2) : Sct.ket 2 ⟨.spin (gs 64 2 1) (gs 64 2 0), 2, [0], [fun r => if r = c then 1 else 0]⟩ 0 = Pi.single (occ2 2 (c + 1) 0) 1 := by
  have hgs : gs 64 2 1 = [1, 2] := by decide
  have hgs0 : gs 64 2 0 = [0] := by decide
  simp only [hgs, hgs0]
  funext S
  have e : Sct.ket 2 ⟨.spin [1, 2] [0], 2, [0], [fun r => if r = c then 1 else 0]⟩ 0 S =
      ∑ iu : Fin 2, ∑ id : Fin 1, if S = occ2 2 ([1, 2][(iu : ℕ)]'iu.2) ([0][(id : ℕ)]'id.2) then (if (iu : ℕ) + 2 * id = c then (1 : ℝ) else 0) else 0 := rfl
  rw [e, Fin.sum_univ_two, Fin.sum_univ_one, Fin.sum_univ_one, Pi.single_apply]
  interval_cases c <;> simp

/-- **C137** (the limit) With a `neig_sector` that cuts a degenerate level this fails: there are two runs of `build_espace` on the same arguments from which `get_occupation` returns occupations 1 and 0 of the same
site. -/
theorem C137_cut : ∃ (a : HamArgs) (neig : List ℕ) (es es1 : Espace (ℕ × ℕ)) (e0 : ℝ), a.Valid ∧ NeigBounded a.n neig ∧ BuildEspace 64 a (some neig) (.ok (es, (e0 : WithTop ℝ))) ∧
    BuildEspace 64 a (some neig) (.ok (es1, (e0 : WithTop ℝ))) ∧ ∀ occ occ1, List.Forall₂ OccView es occ → List.Forall₂ OccView es1 occ1 → ∀ beta,
      ∃ U D As U1 D1 As1, getOccupation occ e0 beta a.n = .ok (U, D, As) ∧ getOccupation occ1 e0 beta a.n = .ok (U1, D1, As1) ∧ U 0 = 1 ∧ U1 0 = 0 := by
  have hb : NeigBounded 2 [0, 0, 0, 1, 0, 0, 0, 0, 0] := by
    refine ⟨rfl, ?_⟩
    intro p q hp hq
    interval_cases p <;> interval_cases q <;> decide
  refine ⟨flatArgs, _, flatEspace 0, flatEspace 1, 0, flatArgs_valid, hb, flat_build (by norm_num), flat_build (by norm_num), fun occ occ1 ho ho1 beta => ?_⟩
  have key : ∀ {c : ℕ} {occ : List OccSct}, c < 2 → List.Forall₂ OccView (flatEspace c) occ → ∃ U D As, getOccupation occ 0 beta 2 = .ok (U, D, As) ∧ U 0 = if c = 0 then 1 else 0 := by
    intro c occ hc ho
    have hsub := buildEspace_sub flatArgs_valid (by simp [flatArgs]) (flat_build hc)
    have hok : ∀ s ∈ occ, ∃ nup ndw, OccOk 2 nup ndw s := by
      intro s hs
      obtain ⟨p, hp, hv⟩ := occView_mem ho hs
      obtain ⟨up, dw, h1⟩ := (hsub.sct p hp).ok
      exact ⟨_, _, hv.ok h1⟩
    obtain ⟨U, D, As, hr, hUD⟩ := C43_thermal 0 beta occ hok
    refine ⟨U, D, As, hr, ?_⟩
    have h0 := (hUD 0).1
    rw [occView_O (n := 2) hsub ho, occView_Z ho] at h0
    simp only [flatEspace, partition, List.map_cons, List.map_nil, List.sum_cons, List.sum_nil, sctSum] at h0
    simp at h0
    rw [h0, flat_ket hc, num_diagonal]
    have hd : (Pi.single (occ2 2 (c + 1) 0) 1 : Finset (Fin (2 + 2)) → ℝ) ⬝ᵥ (Matrix.diagonal (fun S => if orb false (0 : Fin 2) ∈ S then (1 : ℝ) else 0) *ᵥ Pi.single (occ2 2 (c + 1) 0) 1) =
        if orb false (0 : Fin 2) ∈ occ2 2 (c + 1) 0 then 1 else 0 := by
      rw [single_dotProduct, Matrix.mulVec_diagonal]; simp
    rw [hd]
    interval_cases c
    · rw [if_pos (by decide), if_pos rfl]
    · rw [if_neg (by decide), if_neg (by decide)]
  obtain ⟨U, D, As, h1, h2⟩ := key (c := 0) (by norm_num) ho
  obtain ⟨U1, D1, As1, f1, f2⟩ := key (c := 1) (by norm_num) ho1
  exact ⟨U, D, As, U1, D1, As1, h1, f1, by simpa using h2, by simpa using f2⟩

end Edpyt
