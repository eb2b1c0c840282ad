import Verif.Props.BathC
import Verif.Props.Bath
import Mathlib.LinearAlgebra.Pi
/-!
C145: symmetries of the fit of the hybridisation.
-/
namespace Edpyt
open ComplexConjugate

variable {nb : ℕ}

/-! ### Specification -/

/-- Energy of bath site `k` in the array of parameters. -/
def bathE (p : Fin (nb + nb) → ℝ) (k : Fin nb) : ℝ := p (Fin.castAdd nb k)
/-- Coupling of bath site `k` in the array of parameters. -/
def bathV (p : Fin (nb + nb) → ℝ) (k : Fin nb) : ℝ := p (Fin.natAdd nb k)

/-- The bath is particle-hole symmetric: `σ` pairs sites of opposite energy and equal coupling. -/
def PhBath (σ : Equiv.Perm (Fin nb)) (p : Fin (nb + nb) → ℝ) : Prop := ∀ k, bathE p (σ k) = -bathE p k ∧ bathV p (σ k) = bathV p k

/-- The fit of either backend: the compiled `fit` and `fit_hybrid` of `edpyt/fit_cg.py`. -/
inductive AnyFit (m : ℕ) (vals : ℕ → ℂ) (beta : ℝ) (p p' : Fin (nb + nb) → ℝ) : Prop
  | compiled (junk : ℝ) (its : ℕ) (fret : ℝ) (h : CFit junk m vals beta p (.ok (p', its, fret)))
  | python (h : FitHybrid m vals beta p p')

/-! ### Methods that only move along gradients -/

theorem cgPath_affine {N : ℕ} {grad : (Fin N → ℝ) → Fin N → ℝ} {x0 x d : Fin N → ℝ} (S : Submodule ℝ (Fin N → ℝ)) (hS : ∀ q, q - x0 ∈ S → grad q ∈ S)
    (h : CgPath grad x0 x d) : x - x0 ∈ S ∧ d ∈ S := by
  induction h with
  | start => exact ⟨by simp, S.neg_mem (hS x0 (by simp))⟩
  | next a b _ ih =>
    rename_i x d _
    have hx : (fun j => x j + a * d j) - x0 ∈ S := by
      have : (fun j => x j + a * d j) - x0 = (x - x0) + a • d := by funext j; simp; ring
      rw [this]
      exact S.add_mem ih.1 (S.smul_mem _ ih.2)
    exact ⟨hx, S.add_mem (S.neg_mem (hS _ hx)) (S.smul_mem b ih.2)⟩

theorem frLoop_affine {n : ℕ} {junk : ℝ} {func : (Fin n → ℝ) → ℝ} {dfunc : (Fin n → ℝ) → Fin n → ℝ} (S : Submodule ℝ (Fin n → ℝ)) {x0 : Fin n → ℝ} (hS : ∀ q, q - x0 ∈ S → dfunc q ∈ S)
    {left : ℕ} {s : FrSt ℝ n} {r : Except PyErr ((Fin n → ℝ) × ℕ × ℝ)} (h : FrLoop junk func dfunc left s r) :
    s.p - x0 ∈ S → s.xi ∈ S → s.h ∈ S → ∀ p its fret, r = .ok (p, its, fret) → p - x0 ∈ S := by
  have line : ∀ {p xi p' xi' : Fin n → ℝ} {fret : ℝ}, Dlinmin junk func dfunc p xi (.ok (p', xi', fret)) → p - x0 ∈ S → xi ∈ S → p' - x0 ∈ S := by
    intro p xi p' xi' fret hl hp hxi
    obtain ⟨-, -, t, ht⟩ := C67_dlinmin _ _ _ _ _ hl
    have : p' - x0 = (p - x0) + t • xi := by funext j; simp [ht j]; ring
    rw [this]
    exact S.add_mem hp (S.smul_mem _ hxi)
  induction h with
  | exhausted => intro _ _ _ p its fret h; cases h
  | fail _ => intro _ _ _ p its fret h; cases h
  | conv h1 _ =>
    intro hp hxi _ p its fret h
    obtain ⟨rfl, rfl, rfl⟩ : _ ∧ _ ∧ _ := by simpa using h
    exact line h1 hp hxi
  | zero h1 _ _ =>
    intro hp hxi _ p its fret h
    obtain ⟨rfl, rfl, rfl⟩ : _ ∧ _ ∧ _ := by simpa using h
    exact line h1 hp hxi
  | again h1 _ h2 _ ih =>
    intro hp hxi hh p its fret h
    have hp' := line h1 hp hxi
    unfold frNext at h2
    simp only at h2
    split_ifs at h2
    cases h2
    have hg := S.neg_mem (hS _ hp')
    have hd : ∀ c : ℝ, (-dfunc _ + c • _) ∈ S := fun c => S.add_mem hg (S.smul_mem c hh)
    exact ih hp' (hd _) (hd _) p its fret h

theorem parr_eq {N : ℕ} (p : Fin N → ℝ) : parr p = carr p := rfl

theorem fitMats_eq (beta : ℝ) : fitMats beta = cMats beta := by
  funext i
  unfold fitMats cMats
  rw [mul_comm, mul_div_assoc]

/-- What the fit changes lies in every space that holds all the gradients. -/
theorem anyFit_affine {m : ℕ} {vals : ℕ → ℂ} {beta : ℝ} {p p' : Fin (nb + nb) → ℝ} (S : Submodule ℝ (Fin (nb + nb) → ℝ))
    (hS : ∀ q : Fin (nb + nb) → ℝ, q - p ∈ S → (fun k : Fin (nb + nb) => cDChi2 nb m (cMats beta) vals (carr q) k) ∈ S) (h : AnyFit m vals beta p p') : p' - p ∈ S := by
  cases h with
  | compiled junk its fret h =>
    have h0 := S.neg_mem (hS p (by simp))
    exact frLoop_affine S hS h (by simp) h0 h0 _ _ _ rfl
  | python h =>
    obtain ⟨d, h⟩ := h
    refine (cgPath_affine S (fun q hq => ?_) h).1
    have := hS q hq
    simpa only [C81_dchi2, fitMats_eq, parr_eq] using this

/-! ### The gradient -/

theorem carr_E (p : Fin (nb + nb) → ℝ) (k : Fin nb) : carr p k = bathE p k := by
  have : (k : ℕ) < nb + nb := by omega
  simp only [carr, this, dif_pos]; rfl

theorem carr_V (p : Fin (nb + nb) → ℝ) (k : Fin nb) : carr p (nb + k) = bathV p k := by
  have : nb + (k : ℕ) < nb + nb := by omega
  simp only [carr, this, dif_pos]; rfl

theorem cDelta_sum (p : Fin (nb + nb) → ℝ) (z : ℂ) : cDelta nb (carr p) z = ∑ k : Fin nb, ((bathV p k ^ 2 : ℝ) : ℂ) / (z - bathE p k) := by
  unfold cDelta
  rw [foldl_add_sum nb fun j => ((carr p (nb + j) ^ 2 : ℝ) : ℂ) / (z - (carr p j : ℂ)), Finset.sum_range]
  simp only [carr_E, carr_V]

theorem cDDelta_E (p : Fin (nb + nb) → ℝ) (z : ℂ) (k : Fin nb) : cDDelta nb (carr p) z (Fin.castAdd nb k : Fin (nb + nb)) = ((bathV p k ^ 2 : ℝ) : ℂ) / (z - bathE p k) ^ 2 := by
  simp only [cDDelta, Fin.val_castAdd, k.2, if_true, carr_E, carr_V]

theorem cDDelta_V (p : Fin (nb + nb) → ℝ) (z : ℂ) (k : Fin nb) : cDDelta nb (carr p) z (Fin.natAdd nb k : Fin (nb + nb)) = 2 * (bathV p k : ℂ) / (z - bathE p k) := by
  simp only [cDDelta, Fin.val_natAdd, show ¬ nb + (k : ℕ) < nb by omega, if_false, Nat.add_sub_cancel_left, carr_E, carr_V]

/-- One term of the gradient. -/
noncomputable def gradTerm (vals : ℕ → ℂ) (beta : ℝ) (p : Fin (nb + nb) → ℝ) (k : Fin (nb + nb)) (i : ℕ) : ℝ :=
  (cDDelta nb (carr p) (cMats beta i) k).re * (vals i - cDelta nb (carr p) (cMats beta i)).re +
    (cDDelta nb (carr p) (cMats beta i) k).im * (vals i - cDelta nb (carr p) (cMats beta i)).im

theorem cDChi2_sum (m : ℕ) (vals : ℕ → ℂ) (beta : ℝ) (p : Fin (nb + nb) → ℝ) (k : Fin (nb + nb)) :
    cDChi2 nb m (cMats beta) vals (carr p) k = -2 * (∑ i ∈ Finset.range m, gradTerm vals beta p k i) / m := by
  rw [← foldl_add_sum m (gradTerm vals beta p k)]
  rfl

theorem conj_cMats (beta : ℝ) (i : ℕ) : conj (cMats beta i) = -cMats beta i := by
  unfold cMats; rw [map_mul, Complex.conj_ofReal, Complex.conj_I]; ring

theorem conj_delta {σ : Equiv.Perm (Fin nb)} {p : Fin (nb + nb) → ℝ} (hp : PhBath σ p) (beta : ℝ) (i : ℕ) :
    conj (cDelta nb (carr p) (cMats beta i)) = -cDelta nb (carr p) (cMats beta i) := by
  rw [cDelta_sum, map_sum, ← Finset.sum_neg_distrib, ← Equiv.sum_comp σ fun k => -(((bathV p k ^ 2 : ℝ) : ℂ) / (cMats beta i - bathE p k))]
  refine Finset.sum_congr rfl fun k _ => ?_
  rw [map_div₀, map_sub, conj_cMats, Complex.conj_ofReal, Complex.conj_ofReal, (hp k).1, (hp k).2, ← div_neg]
  congr 1
  push_cast
  ring

theorem delta_re {σ : Equiv.Perm (Fin nb)} {p : Fin (nb + nb) → ℝ} (hp : PhBath σ p) (beta : ℝ) (i : ℕ) : (cDelta nb (carr p) (cMats beta i)).re = 0 := by
  have := congrArg Complex.re (conj_delta hp beta i)
  rw [Complex.conj_re, Complex.neg_re] at this
  linarith

/-- The space of changes that keep the bath particle-hole symmetric. -/
def phSpace (σ : Equiv.Perm (Fin nb)) : Submodule ℝ (Fin (nb + nb) → ℝ) where
  carrier := {p | PhBath σ p}
  add_mem' {a b} ha hb k := ⟨by have := (ha k).1; have := (hb k).1; simp only [bathE, Pi.add_apply] at *; linarith, by
    have := (ha k).2; have := (hb k).2; simp only [bathV, Pi.add_apply] at *; linarith⟩
  zero_mem' k := ⟨by simp [bathE], by simp [bathV]⟩
  smul_mem' c a ha k := ⟨by have := (ha k).1; simp only [bathE, Pi.smul_apply, smul_eq_mul] at *; rw [this]; ring, by
    have := (ha k).2; simp only [bathV, Pi.smul_apply, smul_eq_mul] at *; rw [this]⟩

theorem grad_ph {σ : Equiv.Perm (Fin nb)} {m : ℕ} {vals : ℕ → ℂ} {beta : ℝ} (hv : ∀ i < m, (vals i).re = 0) {q : Fin (nb + nb) → ℝ} (hq : PhBath σ q) :
    PhBath σ fun k : Fin (nb + nb) => cDChi2 nb m (cMats beta) vals (carr q) k := by
  intro k
  constructor
  · show cDChi2 nb m (cMats beta) vals (carr q) (Fin.castAdd nb (σ k) : Fin (nb + nb)) = -cDChi2 nb m (cMats beta) vals (carr q) (Fin.castAdd nb k : Fin (nb + nb))
    rw [cDChi2_sum, cDChi2_sum]
    have : ∑ i ∈ Finset.range m, gradTerm vals beta q (Fin.castAdd nb (σ k)) i = -∑ i ∈ Finset.range m, gradTerm vals beta q (Fin.castAdd nb k) i := by
      rw [← Finset.sum_neg_distrib]
      refine Finset.sum_congr rfl fun i hi => ?_
      have hc : cDDelta nb (carr q) (cMats beta i) (Fin.castAdd nb (σ k) : Fin (nb + nb)) = conj (cDDelta nb (carr q) (cMats beta i) (Fin.castAdd nb k : Fin (nb + nb))) := by
        rw [cDDelta_E, cDDelta_E, map_div₀, map_pow, map_sub, conj_cMats, Complex.conj_ofReal, Complex.conj_ofReal, (hq k).1, (hq k).2]
        congr 1
        push_cast
        ring
      unfold gradTerm
      rw [hc, Complex.sub_re, hv i (Finset.mem_range.mp hi), delta_re hq, Complex.conj_im]
      ring
    rw [this]; ring
  · show cDChi2 nb m (cMats beta) vals (carr q) (Fin.natAdd nb (σ k) : Fin (nb + nb)) = cDChi2 nb m (cMats beta) vals (carr q) (Fin.natAdd nb k : Fin (nb + nb))
    rw [cDChi2_sum, cDChi2_sum]
    have : ∑ i ∈ Finset.range m, gradTerm vals beta q (Fin.natAdd nb (σ k)) i = ∑ i ∈ Finset.range m, gradTerm vals beta q (Fin.natAdd nb k) i := by
      refine Finset.sum_congr rfl fun i hi => ?_
      have hc : cDDelta nb (carr q) (cMats beta i) (Fin.natAdd nb (σ k) : Fin (nb + nb)) = -conj (cDDelta nb (carr q) (cMats beta i) (Fin.natAdd nb k : Fin (nb + nb))) := by
        rw [cDDelta_V, cDDelta_V, map_div₀, map_mul, map_sub, conj_cMats, Complex.conj_ofReal, Complex.conj_ofReal, (hq k).1, (hq k).2, ← div_neg, map_ofNat]
        congr 1
        push_cast
        ring
      unfold gradTerm
      rw [hc, Complex.sub_re, hv i (Finset.mem_range.mp hi), delta_re hq, Complex.neg_im, Complex.conj_im]
      ring
    rw [this]

/-! ### The theorems -/

/-- **C145**. If the values to be fitted are purely imaginary, as those of a particle-hole symmetric hybridisation, a fit that starts from a particle-hole symmetric bath ends in one. -/
theorem C145_particle_hole (σ : Equiv.Perm (Fin nb)) {m : ℕ} {vals : ℕ → ℂ} {beta : ℝ} (hv : ∀ i < m, (vals i).re = 0) {p p' : Fin (nb + nb) → ℝ} (hp : PhBath σ p) (h : AnyFit m vals beta p p') :
    PhBath σ p' := by
  have key := anyFit_affine (phSpace σ) (fun q hq => grad_ph hv ?_) h
  · have : p' = (p' - p) + p := by simp
    rw [this]
    exact (phSpace σ).add_mem key hp
  · have : q = (q - p) + p := by simp
    rw [this]
    exact (phSpace σ).add_mem hq hp

/-- Two bath sites that start with equal parameters end with equal parameters: the fit uses one site less than it was given. -/
theorem C145_twins (a b : Fin nb) {m : ℕ} {vals : ℕ → ℂ} {beta : ℝ} {p p' : Fin (nb + nb) → ℝ} (hp : bathE p a = bathE p b ∧ bathV p a = bathV p b) (h : AnyFit m vals beta p p') :
    bathE p' a = bathE p' b ∧ bathV p' a = bathV p' b := by
  let S : Submodule ℝ (Fin (nb + nb) → ℝ) :=
    { carrier := {x | bathE x a = bathE x b ∧ bathV x a = bathV x b}
      add_mem' := fun {x y} hx hy => by simp only [Set.mem_setOf_eq, bathE, bathV, Pi.add_apply] at *; exact ⟨by rw [hx.1, hy.1], by rw [hx.2, hy.2]⟩
      zero_mem' := ⟨rfl, rfl⟩
      smul_mem' := fun c x hx => by simp only [Set.mem_setOf_eq, bathE, bathV, Pi.smul_apply, smul_eq_mul] at *; exact ⟨by rw [hx.1], by rw [hx.2]⟩ }
  have hback : ∀ q, q - p ∈ S → q ∈ S := fun q hq => by
    have : q = (q - p) + p := by simp
    rw [this]
    exact S.add_mem hq hp
  refine hback _ (anyFit_affine S (fun q hq => ?_) h)
  obtain ⟨h1, h2⟩ := hback q hq
  constructor
  · show cDChi2 nb m (cMats beta) vals (carr q) (Fin.castAdd nb a : Fin (nb + nb)) = cDChi2 nb m (cMats beta) vals (carr q) (Fin.castAdd nb b : Fin (nb + nb))
    simp only [cDChi2_sum, gradTerm, cDDelta_E, h1, h2]
  · show cDChi2 nb m (cMats beta) vals (carr q) (Fin.natAdd nb a : Fin (nb + nb)) = cDChi2 nb m (cMats beta) vals (carr q) (Fin.natAdd nb b : Fin (nb + nb))
    simp only [cDChi2_sum, gradTerm, cDDelta_V, h1, h2]

/-- A bath site that starts decoupled stays decoupled and keeps its energy. -/
theorem C145_decoupled (a : Fin nb) {m : ℕ} {vals : ℕ → ℂ} {beta : ℝ} {p p' : Fin (nb + nb) → ℝ} (hp : bathV p a = 0) (h : AnyFit m vals beta p p') :
    bathV p' a = 0 ∧ bathE p' a = bathE p a := by
  let S : Submodule ℝ (Fin (nb + nb) → ℝ) :=
    { carrier := {x | bathV x a = 0 ∧ bathE x a = 0}
      add_mem' := fun {x y} hx hy => by simp only [Set.mem_setOf_eq, bathE, bathV, Pi.add_apply] at *; exact ⟨by rw [hx.1, hy.1, add_zero], by rw [hx.2, hy.2, add_zero]⟩
      zero_mem' := ⟨rfl, rfl⟩
      smul_mem' := fun c x hx => by simp only [Set.mem_setOf_eq, bathE, bathV, Pi.smul_apply, smul_eq_mul] at *; exact ⟨by rw [hx.1, mul_zero], by rw [hx.2, mul_zero]⟩ }
  have hV : ∀ q, q - p ∈ S → bathV q a = 0 := fun q hq => by
    have := hq.1
    simp only [bathV, Pi.sub_apply] at this hp ⊢
    linarith
  have key := anyFit_affine S (fun q hq => ?_) h
  · refine ⟨hV _ key, ?_⟩
    have := key.2
    simp only [bathE, Pi.sub_apply] at this ⊢
    linarith
  · have h1 := hV q hq
    constructor
    · show cDChi2 nb m (cMats beta) vals (carr q) (Fin.natAdd nb a : Fin (nb + nb)) = 0
      rw [cDChi2_sum]
      simp only [gradTerm, cDDelta_V, h1]
      simp
    · show cDChi2 nb m (cMats beta) vals (carr q) (Fin.castAdd nb a : Fin (nb + nb)) = 0
      rw [cDChi2_sum]
      simp only [gradTerm, cDDelta_E, h1]
      simp

/-- The bath that `get_initial_bath` returns is symmetric under reversal of the order, whatever the number of bath sites but one. -/
theorem C145_initial {nbath : ℕ} (h2 : 2 ≤ nbath) (h : nbath % 2 = 1 ∨ nbath < 42) {junk : List ℝ} (hl : junk.length = nbath) :
    ∃ ek, initialEk nbath 2 junk = .ok ek ∧ PhBath Fin.revPerm fun k : Fin (nbath + nbath) => (ek ++ initialVk nbath)[(k : ℕ)]?.getD 0 := by
  obtain ⟨ek, h1, h3, -, h4⟩ := C53_sorted_partial h2 h hl
  refine ⟨ek, h1, fun k => ⟨?_, ?_⟩⟩
  · have hk := k.2
    have := h4 k (by omega)
    simp only [bathE, Fin.val_castAdd, Fin.revPerm_apply, Fin.val_rev]
    rw [List.getElem?_append_left (by omega), List.getElem?_append_left (by omega), ← this, h3]
    congr 2
    omega
  · have hk := k.2
    simp only [bathV, Fin.val_natAdd, Fin.revPerm_apply, Fin.val_rev]
    rw [List.getElem?_append_right (by omega), List.getElem?_append_right (by omega), h3]
    simp only [initialVk, List.getElem?_replicate]
    rw [if_pos (by omega), if_pos (by omega)]

/-- Non-vacuity: a step from the symmetric bath of two sites at energies `-1` and `1` for the values zero changes the couplings. -/
example : ∃ p p' : Fin (2 + 2) → ℝ, PhBath Fin.revPerm p ∧ AnyFit 1 (fun _ => 0) Real.pi p p' ∧ bathV p 0 = 1 ∧ bathV p' 0 = -1 := by
  refine ⟨![-1, 1, 1, 1], _, fun k => ?_, AnyFit.python ⟨_, CgPath.next 1 0 CgPath.start⟩, rfl, ?_⟩
  · fin_cases k <;> simp [bathE, bathV, Fin.revPerm, Fin.rev, Fin.natAdd, Fin.castAdd, Fin.castLE]
  · have hz : cMats Real.pi 0 = Complex.I := by simp [cMats, Real.pi_ne_zero]
    have hE0 : bathE (nb := 2) (![-1, 1, 1, 1] : Fin (2 + 2) → ℝ) 0 = -1 := rfl
    have hE1 : bathE (nb := 2) (![-1, 1, 1, 1] : Fin (2 + 2) → ℝ) 1 = 1 := rfl
    have hV0 : bathV (nb := 2) (![-1, 1, 1, 1] : Fin (2 + 2) → ℝ) 0 = 1 := rfl
    have hV1 : bathV (nb := 2) (![-1, 1, 1, 1] : Fin (2 + 2) → ℝ) 1 = 1 := rfl
    have hD : cDelta 2 (carr (![-1, 1, 1, 1] : Fin (2 + 2) → ℝ)) Complex.I = -Complex.I := by
      rw [cDelta_sum, Fin.sum_univ_two, hE0, hE1, hV0, hV1]
      apply Complex.ext <;> simp [Complex.div_re, Complex.div_im, Complex.normSq_apply] <;> norm_num
    have hg : fitDChi2 2 1 (fitMats Real.pi) (fun _ => 0) (parr (![-1, 1, 1, 1] : Fin (2 + 2) → ℝ)) (Fin.natAdd 2 (0 : Fin 2) : Fin (2 + 2)) = 2 := by
      rw [← C81_dchi2, fitMats_eq, parr_eq, cDChi2_sum, Finset.sum_range_one]
      unfold gradTerm
      rw [hz, hD, cDDelta_V, hE0, hV0]
      simp [Complex.div_re, Complex.div_im, Complex.normSq_apply]
      norm_num
    show (![-1, 1, 1, 1] : Fin (2 + 2) → ℝ) (Fin.natAdd 2 (0 : Fin 2)) + 1 * -fitDChi2 2 1 (fitMats Real.pi) (fun _ => 0) (parr (![-1, 1, 1, 1] : Fin (2 + 2) → ℝ)) (Fin.natAdd 2 (0 : Fin 2) : Fin (2 + 2)) = -1
    rw [hg]
    show (1 : ℝ) + 1 * -2 = -1
    norm_num

end Edpyt
