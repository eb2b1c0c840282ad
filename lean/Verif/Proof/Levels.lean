import Verif.Proof.SpinAlg
/-!
Operators that intertwine two Hamiltonians carry levels, with their multiplicities, from one sector to another.
-/
namespace Edpyt
open Spec Matrix
variable {n : ℕ} {es es' : Espace (ℕ × ℕ)}

open Classical in
theorem count_eq_card {l : List ℝ} {m : ℕ} (hl : l.length = m) (E : ℝ) : l.count E = Fintype.card {k : Fin m // l[(k : ℕ)]?.getD 0 = E} := by
  subst hl
  rw [Fintype.card_subtype]
  conv_lhs => rw [← List.ofFn_getElem (xs := l), List.ofFn_eq_map, List.count_eq_countP, List.countP_map, List.countP_eq_length_filter]
  rw [← List.toFinset_card_of_nodup ((List.nodup_finRange _).filter _)]
  congr 1
  ext k
  simp

/-- The index of a level of the sector `(p, q)`. -/
def lvIdx {n p q : ℕ} (hp : p ≤ n) (hq : q ≤ n) (k : Fin (n.choose p * n.choose q)) : EigIdx n := ⟨(⟨p, by omega⟩, ⟨q, by omega⟩), k⟩

theorem lvIdx_inj {p q : ℕ} (hp : p ≤ n) (hq : q ≤ n) {k l : Fin (n.choose p * n.choose q)} : lvIdx hp hq k = lvIdx hp hq l ↔ k = l := by
  unfold lvIdx
  simp

theorem EigenEspace.support {H : Matrix (Finset (Fin (n + n))) (Finset (Fin (n + n))) ℝ} (h : EigenEspace n H es) (x : EigIdx n) {S : Finset (Fin (n + n))} (hS : esKet n es x S ≠ 0) :
    spinCount false S = (x.1.1 : ℕ) ∧ spinCount true S = (x.1.2 : ℕ) := by
  obtain ⟨up', dw', hm, -, hok', -, -, hlen⟩ := h.toCompleteEspace.at (u := x.1.1) (d := x.1.2) (by have := x.1.1.2; omega) (by have := x.1.2.2; omega)
  unfold esKet at hS
  rw [hok'.ket_eq] at hS
  exact ket_support hok'.hup hok'.hdw _ hS

open Classical in
/-- If `A` carries `H` to `H'`, takes the sector `(p, q)` to `(p', q')` and is injective there, then every level of `H` in `(p, q)` is a level of `H'` in `(p', q')`, at least as often. -/
theorem level_transfer {H H' : Matrix (Finset (Fin (n + n))) (Finset (Fin (n + n))) ℝ} (h : EigenEspace n H es) (h' : EigenEspace n H' es') {A : Matrix (Finset (Fin (n + n))) (Finset (Fin (n + n))) ℝ}
    (hA : A * H = H' * A) {p q p' q' : ℕ} (hp : p ≤ n) (hq : q ≤ n) (hp' : p' ≤ n) (hq' : q' ≤ n)
    (hg : ∀ T S, A T S ≠ 0 → spinCount false S = p → spinCount true S = q → spinCount false T = p' ∧ spinCount true T = q')
    (hi : ∀ x, (∀ S, x S ≠ 0 → spinCount false S = p ∧ spinCount true S = q) → A *ᵥ x = 0 → x = 0) (E : ℝ) :
    (sctAt es (p, q)).eigvals.count E ≤ (sctAt es' (p', q')).eigvals.count E := by
  obtain ⟨-, -, -, -, -, -, -, hlen⟩ := h.toCompleteEspace.at hp hq
  obtain ⟨-, -, -, -, -, -, -, hlen'⟩ := h'.toCompleteEspace.at hp' hq'
  rw [count_eq_card hlen, count_eq_card hlen']
  let K := {k : Fin (n.choose p * n.choose q) // (sctAt es (p, q)).eigvals[(k : ℕ)]?.getD 0 = E}
  let K' := {k : Fin (n.choose p' * n.choose q') // (sctAt es' (p', q')).eigvals[(k : ℕ)]?.getD 0 = E}
  let u : K → Finset (Fin (n + n)) → ℝ := fun k => esKet n es (lvIdx hp hq k.1)
  let u' : K' → Finset (Fin (n + n)) → ℝ := fun k => esKet n es' (lvIdx hp' hq' k.1)
  let C : K → K' → ℝ := fun k k' => u' k' ⬝ᵥ A *ᵥ u k
  have hli : LinearIndependent ℝ C := by
    rw [Fintype.linearIndependent_iff]
    intro g hg0
    set x := ∑ k, g k • u k with hx
    have hxs : ∀ S, x S ≠ 0 → spinCount false S = p ∧ spinCount true S = q := by
      intro S hS
      rw [hx, Finset.sum_apply] at hS
      obtain ⟨k, -, hk⟩ := Finset.exists_ne_zero_of_sum_ne_zero hS
      have := h.support (lvIdx hp hq k.1) (S := S) (by intro hc; exact hk (by show g k * esKet n es (lvIdx hp hq k.1) S = 0; rw [hc, mul_zero]))
      exact this
    have hHx : H *ᵥ x = E • x := by
      rw [hx, Matrix.mulVec_sum, Finset.smul_sum]
      refine Finset.sum_congr rfl fun k _ => ?_
      rw [Matrix.mulVec_smul, h.basis.eig, smul_comm]
      congr 2
      exact k.2
    have hAx : H' *ᵥ (A *ᵥ x) = E • (A *ᵥ x) := by
      rw [Matrix.mulVec_mulVec, ← hA, ← Matrix.mulVec_mulVec, hHx, Matrix.mulVec_smul]
    have hAs : ∀ T, (A *ᵥ x) T ≠ 0 → spinCount false T = p' ∧ spinCount true T = q' := by
      intro T hT
      obtain ⟨S, -, hS⟩ := Finset.exists_ne_zero_of_sum_ne_zero (show ∑ S, A T S * x S ≠ 0 from hT)
      have := hxs S (right_ne_zero_of_mul hS)
      exact hg T S (left_ne_zero_of_mul hS) this.1 this.2
    have hz : A *ᵥ x = 0 := by
      rw [← h'.basis.expand (A *ᵥ x)]
      refine Finset.sum_eq_zero fun y _ => ?_
      suffices hy : esKet n es' y ⬝ᵥ A *ᵥ x = 0 by rw [hy, zero_smul]
      by_contra hy
      obtain ⟨T, -, hT⟩ := Finset.exists_ne_zero_of_sum_ne_zero hy
      have c1 := h'.support y (left_ne_zero_of_mul hT)
      have c2 := hAs T (right_ne_zero_of_mul hT)
      have hv : esVal n es' y = E := by
        have h1 : esKet n es' y ⬝ᵥ H' *ᵥ (A *ᵥ x) = E * (esKet n es' y ⬝ᵥ A *ᵥ x) := by rw [hAx, dotProduct_smul, smul_eq_mul]
        rw [h'.basis.apply] at h1
        rw [h'.basis.coord] at h1
        exact mul_right_cancel₀ hy h1
      obtain ⟨⟨⟨y1, hy1⟩, ⟨y2, hy2⟩⟩, k⟩ := y
      have e1 : y1 = p' := by have := c1.1.symm.trans c2.1; exact_mod_cast this
      have e2 : y2 = q' := by have := c1.2.symm.trans c2.2; exact_mod_cast this
      subst e1 e2
      have := congrFun hg0 ⟨k, hv⟩
      rw [Finset.sum_apply] at this
      refine hy ?_
      rw [hx, Matrix.mulVec_sum, dotProduct_sum]
      refine Eq.trans (Finset.sum_congr rfl fun j _ => ?_) this
      rw [Matrix.mulVec_smul, dotProduct_smul]
      rfl
    have hx0 := hi x hxs hz
    intro k
    have h2 : u k ⬝ᵥ x = g k := by
      rw [hx, dotProduct_sum, Finset.sum_eq_single k]
      · rw [dotProduct_smul, h.basis.orth, if_pos rfl, smul_eq_mul, mul_one]
      · intro j _ hj
        rw [dotProduct_smul, h.basis.orth, if_neg, smul_zero]
        intro hc
        exact hj (Subtype.ext ((lvIdx_inj hp hq).mp hc).symm)
      · simp
    rw [← h2, hx0, dotProduct_zero]
  have := hli.fintype_card_le_finrank
  rwa [Module.finrank_fintype_fun_eq_card] at this

end Edpyt
