import Verif.Model.Draw
import Verif.Props.Observs
/-!
C141: the circles of `draw_spin_density` are the spin densities.
-/
namespace Edpyt
open Spec Matrix

/-- `A` holds the amplitudes of one state of the sector as a column, an array of shape `(d, 1)`. -/
abbrev ColumnArr (A : NdArr) (up dw : List ℕ) : Prop := EvecArr A up dw 1

/-- `A` holds the amplitudes of one state of the sector as a vector, an array of shape `(d,)`: what `eigvecs[:,0]` gives. -/
def VectorArr (A : NdArr) (up dw : List ℕ) : Prop := A.shape = [up.length * dw.length]

theorem listSumRange (n : ℕ) (f : ℕ → ℝ) : ((List.range n).map f).sum = ∑ k ∈ Finset.range n, f k := by
  rw [← Multiset.sum_coe, ← Multiset.map_coe]; rfl

/-- C141, the part that holds: for a state given as a column there is one black and one gray circle at each site, with the expectation values of the number of up and of down electrons of
the site as radii. For a normalised state the radii add up to the numbers of electrons. -/
theorem C141_density_partial {n nup ndw : ℕ} {up dw : List ℕ} (hu : SectorList n nup up) (hd : SectorList n ndw dw) {A : NdArr} (hA : ColumnArr A up dw) :
    ∃ cs, drawSpinDensity n A up dw n = .ok cs ∧ cs.length = 2 * n ∧
      (∀ (gray : Bool) (k : Fin n), ∃ c ∈ cs, c.site = k ∧ c.gray = gray) ∧
      (∀ c ∈ cs, ∃ k : Fin n, c.site = k ∧ c.radius = EvecArr.psi A n up dw 1 0 ⬝ᵥ (num ℝ (orb c.gray k)).mulVec (EvecArr.psi A n up dw 1 0)) ∧
      (∑ r ∈ Finset.range (up.length * dw.length), A.elem (up.length * dw.length) 1 r 0 ^ 2 = 1 →
        ((cs.filter fun c => !c.gray).map Circle.radius).sum = nup ∧ ((cs.filter Circle.gray).map Circle.radius).sum = ndw) := by
  obtain ⟨U, D, A', h, he⟩ := C43_expectation hu hd hA none
  have hat : atleast2d A = A := by unfold atleast2d; rw [hA.shape]
  have hc : coeff none 0 = 1 := rfl
  refine ⟨_, by unfold drawSpinDensity; rw [if_neg (not_not.mpr rfl), hat, h]; rfl, by simp; ring, ?_, ?_, ?_⟩
  · rintro (_ | _) k
    · exact ⟨⟨k, U k 0, false⟩, by simp, rfl, rfl⟩
    · exact ⟨⟨k, D k 0, true⟩, by simp, rfl, rfl⟩
  · intro c hcm
    rcases List.mem_append.mp hcm with hm | hm <;> obtain ⟨i, hi, rfl⟩ := List.mem_map.mp hm
    · refine ⟨⟨i, List.mem_range.mp hi⟩, rfl, ?_⟩
      have := (he ⟨i, List.mem_range.mp hi⟩ 0).1
      rw [hc, one_mul] at this
      exact this
    · refine ⟨⟨i, List.mem_range.mp hi⟩, rfl, ?_⟩
      have := (he ⟨i, List.mem_range.mp hi⟩ 0).2
      rw [hc, one_mul] at this
      exact this
  · intro hnorm
    obtain ⟨U', D', A'', h', hs⟩ := C43_particle_number hu hd hA (fun j hj => by rw [Nat.lt_one_iff.mp hj]; exact hnorm)
    rw [h] at h'
    injection h' with h'
    injection h' with h1 h2
    injection h2 with h2 _
    subst h1 h2
    obtain ⟨_, s1, s2⟩ := hs 0 one_pos
    refine ⟨?_, ?_⟩
    · rw [← s1, List.filter_append, List.map_append, List.sum_append]
      rw [show ((List.range n).map fun i => (⟨i, D i 0, true⟩ : Circle)).filter (fun c => !c.gray) = [] from List.filter_eq_nil_iff.mpr (by simp)]
      rw [List.filter_eq_self.mpr (by simp), List.map_map] <;> simp [Function.comp_def, listSumRange]
    · rw [← s2, List.filter_append, List.map_append, List.sum_append]
      rw [show ((List.range n).map fun i => (⟨i, U i 0, false⟩ : Circle)).filter Circle.gray = [] from List.filter_eq_nil_iff.mpr (by simp)]
      rw [List.filter_eq_self.mpr (by simp), List.map_map] <;> simp [Function.comp_def, listSumRange]

/-- C141 is false: a state given as a vector raises `ValueError` in every sector with more than one state. -/
theorem C141_refuted {n : ℕ} {up dw : List ℕ} (h2 : 2 ≤ up.length * dw.length) {A : NdArr} (hA : VectorArr A up dw) :
    drawSpinDensity n A up dw n = .error .valueError := by
  unfold drawSpinDensity
  rw [if_neg (not_not.mpr rfl)]
  have hs : (atleast2d A).shape = [1, up.length * dw.length] := by unfold atleast2d; rw [hA]
  have : evecsOccupation (atleast2d A) up dw n none = .error .valueError := by
    unfold evecsOccupation
    rw [hs]
    have hg : getItem [1, up.length * dw.length] 1 = Except.ok (ε := PyErr) (up.length * dw.length) := rfl
    rw [hg]
    have hr : reshapeEvecs (atleast2d A) (up.length * dw.length) dw.length up.length = .error .valueError := by
      unfold reshapeEvecs
      rw [if_pos]
      rw [hs]
      simp only [List.prod_cons, List.prod_nil, mul_one, one_mul]
      intro e
      have e2 : up.length * dw.length * 1 = up.length * dw.length * (up.length * dw.length) := by rw [mul_one]; nth_rw 1 [e]; ring
      have := Nat.eq_of_mul_eq_mul_left (by omega) e2
      omega
    simp only [bind, Except.bind, hr]
  rw [this]
  rfl

/-- The hypotheses hold for a singlet of two sites, as a column and as a vector. -/
example : ColumnArr ⟨[4, 1], .F, ![0, 3 / 5, 4 / 5, 0] ∘ Fin.ofNat 4⟩ [1, 2] [1, 2] ∧ VectorArr ⟨[4], .F, ![0, 3 / 5, 4 / 5, 0] ∘ Fin.ofNat 4⟩ [1, 2] [1, 2] ∧
    ∑ r ∈ Finset.range 4, NdArr.elem ⟨[4, 1], .F, ![0, 3 / 5, 4 / 5, 0] ∘ Fin.ofNat 4⟩ 4 1 r 0 ^ 2 = 1 := by
  refine ⟨⟨rfl, by decide⟩, rfl, ?_⟩
  simp [Finset.sum_range_succ, NdArr.elem, Fin.ofNat]
  norm_num

end Edpyt
