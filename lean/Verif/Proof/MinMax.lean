import Verif.Spec.MinMax
import Verif.Proof.Levels
import Verif.Props.Variational
/-!
The min-max principle for the levels of a sector.
-/
namespace Edpyt
open Spec Matrix
variable {n p q : ℕ} {es : Espace (ℕ × ℕ)} {H H' : Matrix (Finset (Fin (n + n))) (Finset (Fin (n + n))) ℝ}

theorem SectorVec.sum {k : ℕ} {v : Fin k → Finset (Fin (n + n)) → ℝ} (h : ∀ i, SectorVec n p q (v i)) (c : Fin k → ℝ) : SectorVec n p q (∑ i, c i • v i) := by
  intro S hS
  rw [Finset.sum_apply] at hS
  obtain ⟨i, -, hi⟩ := Finset.exists_ne_zero_of_sum_ne_zero hS
  exact h i S (right_ne_zero_of_mul hi)

theorem lowSpace_mono {k : ℕ} {E E' δ : ℝ} (h : LowSpace n p q H k E) (hH : ∀ x, SectorVec n p q x → x ⬝ᵥ H' *ᵥ x ≤ x ⬝ᵥ H *ᵥ x + δ * (x ⬝ᵥ x)) (hE : E + δ ≤ E') :
    LowSpace n p q H' k E' := by
  obtain ⟨v, h1, h2, h3⟩ := h
  refine ⟨v, h1, h2, fun c => ?_⟩
  have a1 := hH _ (SectorVec.sum h2 c)
  have a2 := h3 c
  have a3 : 0 ≤ (∑ i, c i • v i) ⬝ᵥ ∑ i, c i • v i := Finset.sum_nonneg fun S _ => mul_self_nonneg _
  nlinarith

theorem sorted_getD {l : List ℝ} (h : l.Pairwise (· ≤ ·)) {i j : ℕ} (hij : i ≤ j) (hj : j < l.length) : l[i]?.getD 0 ≤ l[j]?.getD 0 := by
  rw [List.getElem?_eq_getElem (by omega), List.getElem?_eq_getElem hj]
  rcases hij.eq_or_lt with rfl | hlt
  · exact le_rfl
  · exact List.pairwise_iff_getElem.mp h i j _ _ hlt

/-- The `k`-th level of a sector is at most `E` exactly when `k + 1` independent vectors of the sector span a space of mean energies at most `E`. -/
theorem minmax (h : EigenEspace n H es) (hp : p ≤ n) (hq : q ≤ n) (hs : (sctAt es (p, q)).eigvals.Pairwise (· ≤ ·)) {k : ℕ} (hk : k < (sctAt es (p, q)).eigvals.length) (E : ℝ) :
    (sctAt es (p, q)).eigvals[k]?.getD 0 ≤ E ↔ LowSpace n p q H (k + 1) E := by
  obtain ⟨-, -, -, -, -, -, -, hlen⟩ := h.toCompleteEspace.at hp hq
  have hB := h.basis
  have hval : ∀ i : Fin (n.choose p * n.choose q), esVal n es (lvIdx hp hq i) = (sctAt es (p, q)).eigvals[(i : ℕ)]?.getD 0 := fun i => rfl
  constructor
  · intro hE
    let ι : Fin (k + 1) → Fin (n.choose p * n.choose q) := fun i => ⟨i, by have := i.2; omega⟩
    have hinj : ∀ i j, ι i = ι j ↔ i = j := fun i j => by simp only [ι, Fin.mk.injEq]; exact Fin.val_inj
    have hco : ∀ (c : Fin (k + 1) → ℝ) (y : EigIdx n), esKet n es y ⬝ᵥ ∑ i, c i • esKet n es (lvIdx hp hq (ι i)) = ∑ i, if y = lvIdx hp hq (ι i) then c i else 0 := fun c y => by
      rw [dotProduct_sum]
      refine Finset.sum_congr rfl fun i _ => ?_
      rw [dotProduct_smul, hB.orth, smul_eq_mul, mul_ite, mul_one, mul_zero]
    refine ⟨fun i => esKet n es (lvIdx hp hq (ι i)), ?_, fun i S hS => h.support (lvIdx hp hq (ι i)) hS, fun c => ?_⟩
    · rw [Fintype.linearIndependent_iff]
      intro c hc i
      have := hco c (lvIdx hp hq (ι i))
      rw [hc, dotProduct_zero, Finset.sum_eq_single i, if_pos rfl] at this
      · exact this.symm
      · intro j _ hj
        rw [if_neg]
        rw [lvIdx_inj, hinj]
        exact fun e => hj e.symm
      · simp
    · set x := ∑ i, c i • esKet n es (lvIdx hp hq (ι i)) with hx
      obtain ⟨q1, q2⟩ := hB.quad x
      rw [q1, q2, Finset.mul_sum]
      refine Finset.sum_le_sum fun y _ => ?_
      by_cases hy : ∃ i, y = lvIdx hp hq (ι i)
      · obtain ⟨i, rfl⟩ := hy
        refine mul_le_mul_of_nonneg_right ?_ (sq_nonneg _)
        rw [hval]
        exact (sorted_getD hs (Nat.lt_succ_iff.mp i.2) hk).trans hE
      · push Not at hy
        have : esKet n es y ⬝ᵥ x = 0 := by
          rw [hco c y]
          exact Finset.sum_eq_zero fun i _ => if_neg (hy i)
        rw [this]; simp
  · rintro ⟨v, hv, hvs, hE⟩
    let ι : Fin k → Fin (n.choose p * n.choose q) := fun i => ⟨i, by have := i.2; omega⟩
    let f : (Fin (k + 1) → ℝ) →ₗ[ℝ] (Fin k → ℝ) :=
      { toFun := fun c j => esKet n es (lvIdx hp hq (ι j)) ⬝ᵥ ∑ i, c i • v i
        map_add' := fun c d => by
          funext j
          simp only [Pi.add_apply, add_smul, Finset.sum_add_distrib, dotProduct_add]
        map_smul' := fun r c => by
          funext j
          simp only [Pi.smul_apply, smul_eq_mul, mul_smul, ← Finset.smul_sum, dotProduct_smul, RingHom.id_apply] }
    have hker : LinearMap.ker f ≠ ⊥ := LinearMap.ker_ne_bot_of_finrank_lt (by simp)
    obtain ⟨c, hc, hc0⟩ := Submodule.exists_mem_ne_zero_of_ne_bot hker
    have hf : ∀ j : Fin k, esKet n es (lvIdx hp hq (ι j)) ⬝ᵥ ∑ i, c i • v i = 0 := fun j => congrFun (LinearMap.mem_ker.mp hc) j
    set x := ∑ i, c i • v i with hx
    have hx0 : x ≠ 0 := fun h0 => hc0 (funext fun i => Fintype.linearIndependent_iff.mp hv c h0 i)
    have hxs : SectorVec n p q x := SectorVec.sum hvs c
    obtain ⟨q1, q2⟩ := hB.quad x
    have hpos : 0 < x ⬝ᵥ x := by
      refine lt_of_le_of_ne (Finset.sum_nonneg fun S _ => mul_self_nonneg _) fun h0 => hx0 ?_
      exact dotProduct_self_eq_zero.mp h0.symm
    have hlow : (sctAt es (p, q)).eigvals[k]?.getD 0 * (x ⬝ᵥ x) ≤ x ⬝ᵥ H *ᵥ x := by
      rw [q1, q2, Finset.mul_sum]
      refine Finset.sum_le_sum fun y _ => ?_
      by_cases hy : esKet n es y ⬝ᵥ x = 0
      · rw [hy]; simp
      · refine mul_le_mul_of_nonneg_right ?_ (sq_nonneg _)
        obtain ⟨T, -, hT⟩ := Finset.exists_ne_zero_of_sum_ne_zero hy
        have c1 := h.support y (left_ne_zero_of_mul hT)
        have c2 := hxs T (right_ne_zero_of_mul hT)
        obtain ⟨⟨⟨y1, hy1⟩, ⟨y2, hy2⟩⟩, l⟩ := y
        have e1 : y1 = p := by have := c1.1.symm.trans c2.1; exact_mod_cast this
        have e2 : y2 = q := by have := c1.2.symm.trans c2.2; exact_mod_cast this
        subst e1 e2
        by_cases hl : (l : ℕ) < k
        · exact absurd (hf ⟨l, hl⟩) hy
        · exact sorted_getD hs (not_lt.mp hl) (by rw [hlen]; exact l.2)
    have := hlow.trans (hE c)
    exact le_of_mul_le_mul_right this hpos

end Edpyt
