import Verif.Model.Pdisplay
import Verif.Props.FreeSpectrum
import Mathlib.Analysis.SpecialFunctions.ImproperIntegrals
import Mathlib.MeasureTheory.Measure.Lebesgue.Integral
/-!
C162: `pdisplay` draws every energy at its number of electrons. C163: the density of states of the script `edpyt/ded.py`.
-/
namespace Edpyt

/-! ## C162 -/

theorem zipWith_replicate {α : Type} (f : ℝ → ℕ → α) (x : ℕ) : ∀ l : List ℝ, List.zipWith f l (List.replicate l.length x) = l.map fun y => f y x
  | [] => rfl
  | y :: l => by simp [List.replicate_succ, zipWith_replicate f x l]

theorem zipWith_groups {α : Type} (f : ℝ → ℕ → α) : ∀ ps : List (ℕ × List ℝ),
    List.zipWith f (ps.flatMap fun x => x.2) (ps.flatMap fun x => List.replicate x.2.length x.1) = ps.flatMap fun x => x.2.map fun y => f y x.1
  | [] => rfl
  | p :: ps => by
    simp only [List.flatMap_cons]
    rw [List.zipWith_append (by simp), zipWith_replicate, zipWith_groups f ps]

theorem extendAt_perm (ps : List (ℕ × List ℝ)) (hnd : (ps.map Prod.fst).Nodup) (k : ℕ) (l : List ℝ) :
    ((extendAt ps k l).map Prod.fst).Nodup ∧ ((extendAt ps k l).flatMap fun x => x.2.map fun y => (y, x.1)).Perm ((ps.flatMap fun x => x.2.map fun y => (y, x.1)) ++ l.map fun y => (y, k)) := by
  unfold extendAt
  split
  · rename_i hk
    constructor
    · rw [List.map_map]
      have : (Prod.fst ∘ fun p : ℕ × List ℝ => if p.1 = k then (p.1, p.2 ++ l) else p) = Prod.fst := by
        funext p; simp only [Function.comp]; split <;> rfl
      rwa [this]
    · induction ps with
      | nil => simp at hk
      | cons p ps ih =>
        simp only [List.map_cons, List.nodup_cons] at hnd
        simp only [List.map_cons, List.flatMap_cons]
        by_cases hp : p.1 = k
        · have hid : (ps.map fun p => if p.1 = k then (p.1, p.2 ++ l) else p) = ps := by
            conv_rhs => rw [← List.map_id ps]
            refine List.map_congr_left fun q hq => ?_
            rw [if_neg (fun hqk => hnd.1 (by rw [hp, ← hqk]; exact List.mem_map_of_mem hq))]
            rfl
          rw [hid, if_pos hp]
          simp only [List.map_append, hp, List.append_assoc]
          exact List.Perm.append_left _ List.perm_append_comm
        · have hk' : k ∈ ps.map Prod.fst := by
            simp only [List.map_cons, List.mem_cons] at hk
            exact hk.resolve_left (Ne.symm hp)
          rw [if_neg hp, List.append_assoc]
          exact List.Perm.append_left _ (ih hnd.2 hk')
  · rename_i hk
    constructor
    · rw [List.map_append, List.nodup_append]
      refine ⟨hnd, by simp, ?_⟩
      intro x hx y hy
      simp only [List.map_cons, List.map_nil, List.mem_singleton] at hy
      rintro rfl
      exact hk (hy ▸ hx)
    · simp

/-- The keys of a space of spin sectors. -/
def spinKeys (es : Espace (ℕ × ℕ)) : Espace ((ℕ × ℕ) ⊕ ℕ) := es.map fun p => (.inl p.1, p.2)

/-- **C162, partial.** For a space of spin sectors `pdisplay` draws one line for each eigenvalue of each sector and no other: at the height of the eigenvalue, of width 0.4,
centred at the number of electrons of the sector. -/
theorem C162_partial (es : Espace (ℕ × ℕ)) : ∃ lines, pdisplay (spinKeys es) = .ok lines ∧
    lines.Perm (es.flatMap fun p => p.2.eigvals.map fun E => (E, ((p.1.1 + p.1.2 : ℕ) : ℝ) - 1 / 5, ((p.1.1 + p.1.2 : ℕ) : ℝ) + 1 / 5)) := by
  have key : ∀ (es : Espace (ℕ × ℕ)) (ps : List (ℕ × List ℝ)), (ps.map Prod.fst).Nodup → ∃ ps', forM' (fun (ps : List (ℕ × List ℝ)) (kv : ((ℕ × ℕ) ⊕ ℕ) × Sct) => do
      let k ← sumKey kv.1
      pure (extendAt ps k kv.2.eigvals)) (spinKeys es) ps = .ok ps' ∧
      (ps'.flatMap fun x => x.2.map fun y => (y, x.1)).Perm ((ps.flatMap fun x => x.2.map fun y => (y, x.1)) ++ es.flatMap fun p => p.2.eigvals.map fun y => (y, p.1.1 + p.1.2)) := by
    intro es
    induction es with
    | nil => exact fun ps _ => ⟨ps, rfl, by simp⟩
    | cons p es ih =>
      intro ps hnd
      obtain ⟨h1, h2⟩ := extendAt_perm ps hnd (p.1.1 + p.1.2) p.2.eigvals
      obtain ⟨ps', h3, h4⟩ := ih _ h1
      refine ⟨ps', h3, h4.trans ?_⟩
      rw [List.flatMap_cons, ← List.append_assoc]
      exact h2.append_right _
  obtain ⟨ps, h1, h2⟩ := key es [] (by simp)
  refine ⟨_, by unfold pdisplay; rw [h1]; rfl, ?_⟩
  rw [zipWith_groups]
  have := h2.map fun q : ℝ × ℕ => (q.1, (q.2 : ℝ) - 1 / 5, (q.2 : ℝ) + 1 / 5)
  simpa [List.map_flatMap, Function.comp_def] using this

/-- **C162 is false** for the spaces of sectors of a total number of particles, which `build_espace` returns with `symmetry='n'`: `pdisplay` raises. -/
theorem C162_refuted (N : ℕ) (s : Sct) (rest : Espace ((ℕ × ℕ) ⊕ ℕ)) : pdisplay ((.inr N, s) :: rest) = .error .typeError := rfl

/-- A full run with two sites draws 16 lines. -/
example : ∃ es e0 lines, BuildEspace 64 freeArgs none (.ok (es, e0)) ∧ pdisplay (spinKeys es) = .ok lines ∧ lines.length = 16 := by
  obtain ⟨es, e0, h⟩ := freeArgs_run
  obtain ⟨lines, h1, h2⟩ := C162_partial es
  refine ⟨es, e0, lines, h, h1, ?_⟩
  have he := buildEspace_eigen freeArgs_valid (by simp [freeArgs]) h
  have hs := flat_sum he.toCompleteEspace fun _ => 1
  rw [List.map_const', List.sum_replicate, Finset.sum_const, Finset.card_univ, he.basis.card, Fintype.card_finset, Fintype.card_fin] at hs
  rw [nsmul_one, nsmul_one] at hs
  have hlen : (es.flatMap fun p => p.2.eigvals).length = 16 := by
    have : (es.flatMap fun p => p.2.eigvals).length = 2 ^ (freeArgs.n + freeArgs.n) := by exact_mod_cast hs
    rw [this]; rfl
  rw [h2.length_eq, ← hlen]
  simp [List.length_flatMap]

/-! ## C163 -/

open MeasureTheory

/-- **C163** The density that `lorentzian_function(gamma, z0)` returns is positive, integrates to one, is symmetric about `z0` with its only maximum there, falls to half of it at
`z0 ± gamma/2`, and is the spectral function `-Im g/π` of `g(z) = 1/(z - z0 + i gamma/2)`. -/
theorem C163_lorentzian {γ : ℝ} (hγ : 0 < γ) (z0 : ℝ) :
    (∀ z, 0 < lorentzian Real.pi γ z0 z) ∧ Integrable (lorentzian Real.pi γ z0) ∧ ∫ z, lorentzian Real.pi γ z0 z = 1 ∧
    (∀ z, lorentzian Real.pi γ z0 (z0 + z) = lorentzian Real.pi γ z0 (z0 - z)) ∧ (∀ z, z ≠ z0 → lorentzian Real.pi γ z0 z < lorentzian Real.pi γ z0 z0) ∧
    (lorentzian Real.pi γ z0 (z0 + γ / 2) = lorentzian Real.pi γ z0 z0 / 2) ∧
    ∀ z, lorentzian Real.pi γ z0 z = -(1 / ((z : ℂ) - z0 + Complex.I * (γ / 2 : ℝ))).im / Real.pi := by
  have hpi := Real.pi_pos
  have e : lorentzian Real.pi γ z0 = fun z => (Real.pi * (γ / 2))⁻¹ * (1 + ((z - z0) / (γ / 2)) ^ 2)⁻¹ := by
    funext z
    unfold lorentzian
    have : 0 < (z - z0) ^ 2 + (1 / 2 * γ) ^ 2 := by positivity
    have h2 : 0 < 1 + ((z - z0) / (γ / 2)) ^ 2 := by positivity
    field_simp
    ring
  have hi : Integrable fun z : ℝ => (1 + ((z - z0) / (γ / 2)) ^ 2)⁻¹ :=
    (integrable_inv_one_add_sq.comp_div (by positivity : (γ / 2 : ℝ) ≠ 0)).comp_sub_right z0
  refine ⟨fun z => ?_, ?_, ?_, fun z => ?_, fun z hz => ?_, ?_, fun z => ?_⟩
  · unfold lorentzian; positivity
  · rw [e]; exact hi.const_mul _
  · rw [e, integral_const_mul]
    have h1 := integral_sub_right_eq_self (μ := volume) (fun z : ℝ => (1 + (z / (γ / 2)) ^ 2)⁻¹) z0
    rw [h1, Measure.integral_comp_div (fun z : ℝ => (1 + z ^ 2)⁻¹), integral_univ_inv_one_add_sq, abs_of_pos (by positivity), smul_eq_mul]
    field_simp
  · unfold lorentzian; congr 2; ring
  · unfold lorentzian
    have : 0 < (z - z0) ^ 2 := by have := sub_ne_zero.mpr hz; positivity
    rw [sub_self]
    apply div_lt_div_of_pos_left (by positivity) (by positivity)
    nlinarith
  · unfold lorentzian
    rw [sub_self, add_sub_cancel_left]
    field_simp
    ring
  · have hn : Complex.normSq ((z : ℂ) - z0 + Complex.I * (γ / 2 : ℝ)) = (z - z0) ^ 2 + (1 / 2 * γ) ^ 2 := by
      rw [Complex.normSq_apply]
      simp
      ring
    rw [one_div, Complex.inv_im, hn]
    unfold lorentzian
    simp
    field_simp

/-- The density of the script, `lorentzian_function(2*0.3, ed+sigma0)` with `ed = -2` and `sigma0 = 1.5`. -/
example : ∫ z, lorentzian Real.pi (2 * 0.3) (-2 + 1.5) z = 1 := (C163_lorentzian (by norm_num) _).2.2.1

end Edpyt
