import Verif.Proof.EigenEspace
/-!
The Lehmann sum of an eigenbasis grouped by sectors, in the order in which the code adds it up.
-/
namespace Edpyt
open Spec Matrix
variable {n : ℕ}

/-- The sector reached by adding one electron of spin `s`. -/
def shiftUp (s : Bool) (q : ℕ × ℕ) : ℕ × ℕ := if s then (q.1, q.2 + 1) else (q.1 + 1, q.2)

theorem sum_sigma_sectors {M : Type} [AddCommMonoid M] (n : ℕ) (f : ℕ × ℕ → ℕ → M) :
    ∑ a : EigIdx n, f ((a.1.1 : ℕ), (a.1.2 : ℕ)) a.2 =
      ((ndindex2 (n + 1) (n + 1)).map fun q => ∑ k ∈ Finset.range (n.choose q.1 * n.choose q.2), f q k).sum := by
  rw [sum_ndindex2, Fintype.sum_sigma, Fintype.sum_prod_type, Finset.sum_range]
  apply Finset.sum_congr rfl; intro u _
  rw [Finset.sum_range]
  apply Finset.sum_congr rfl; intro d _
  rw [Finset.sum_range]

theorem sum_list_single {M : Type} [AddCommMonoid M] {l : List (ℕ × ℕ)} (hl : l.Nodup) (x : ℕ × ℕ) (f : ℕ × ℕ → M)
    (h0 : ∀ y ∈ l, y ≠ x → f y = 0) : (l.map f).sum = if x ∈ l then f x else 0 := by
  induction l with
  | nil => simp
  | cons y l ih =>
    rw [List.map_cons, List.sum_cons, ih hl.of_cons (fun y hy => h0 y (by simp [hy]))]
    have hy := (List.nodup_cons.mp hl).1
    by_cases hxy : x = y
    · subst hxy; simp [hy]
    · rw [h0 y (by simp) (Ne.symm hxy), zero_add]
      simp [hxy]

/-- Grouping a double sum over eigenstates whose summand connects sectors differing by one electron of spin `s`. -/
theorem sum_pairs_sectors {M : Type} [AddCommMonoid M] (n : ℕ) (s : Bool) (F : ℕ × ℕ → ℕ × ℕ → ℕ → ℕ → M)
    (h0 : ∀ q ∈ ndindex2 (n + 1) (n + 1), ∀ q' ∈ ndindex2 (n + 1) (n + 1), q' ≠ shiftUp s q → ∀ k, k < n.choose q.1 * n.choose q.2 →
      ∀ j, j < n.choose q'.1 * n.choose q'.2 → F q q' k j = 0) :
    ∑ a : EigIdx n, ∑ b : EigIdx n, F ((a.1.1 : ℕ), (a.1.2 : ℕ)) ((b.1.1 : ℕ), (b.1.2 : ℕ)) a.2 b.2 =
      ((ndindex2 (n + 1) (n + 1)).map fun q => if shiftUp s q ∈ ndindex2 (n + 1) (n + 1) then
        ∑ j ∈ Finset.range (n.choose (shiftUp s q).1 * n.choose (shiftUp s q).2), ∑ k ∈ Finset.range (n.choose q.1 * n.choose q.2),
          F q (shiftUp s q) k j else 0).sum := by
  have h1 : ∀ a : EigIdx n, ∑ b : EigIdx n, F ((a.1.1 : ℕ), (a.1.2 : ℕ)) ((b.1.1 : ℕ), (b.1.2 : ℕ)) a.2 b.2 =
      (fun (q : ℕ × ℕ) (k : ℕ) => ((ndindex2 (n + 1) (n + 1)).map fun q' => ∑ j ∈ Finset.range (n.choose q'.1 * n.choose q'.2), F q q' k j).sum)
        ((a.1.1 : ℕ), (a.1.2 : ℕ)) a.2 := fun a =>
    sum_sigma_sectors n (fun q' j => F ((a.1.1 : ℕ), (a.1.2 : ℕ)) q' a.2 j)
  rw [Finset.sum_congr rfl (fun a _ => h1 a), sum_sigma_sectors n (fun (q : ℕ × ℕ) (k : ℕ) => ((ndindex2 (n + 1) (n + 1)).map fun q' => ∑ j ∈ Finset.range (n.choose q'.1 * n.choose q'.2), F q q' k j).sum)]
  congr 1
  apply List.map_congr_left
  intro q hq
  have h2 : ∀ k ∈ Finset.range (n.choose q.1 * n.choose q.2),
      ((ndindex2 (n + 1) (n + 1)).map fun q' => ∑ j ∈ Finset.range (n.choose q'.1 * n.choose q'.2), F q q' k j).sum =
      if shiftUp s q ∈ ndindex2 (n + 1) (n + 1) then ∑ j ∈ Finset.range (n.choose (shiftUp s q).1 * n.choose (shiftUp s q).2), F q (shiftUp s q) k j else 0 := by
    intro k hk
    exact sum_list_single (nodup_ndindex2 _ _) (shiftUp s q) _ (fun q' hq' hne => Finset.sum_eq_zero fun j hj =>
      h0 q hq q' hq' hne k (Finset.mem_range.mp hk) j (Finset.mem_range.mp hj))
  rw [Finset.sum_congr rfl h2]
  split_ifs
  · exact Finset.sum_comm
  · exact Finset.sum_const_zero

/-- One sector's share of the Lehmann sum, with the weight of the states measured from `egs`. -/
noncomputable def lehmannPart (n : ℕ) (es : Espace (ℕ × ℕ)) (beta egs : ℝ) (s : Bool) (A B : Matrix (Finset (Fin (n + n))) (Finset (Fin (n + n))) ℝ)
    (z : ℂ) (q : ℕ × ℕ) : ℂ :=
  let I := sctAt es q
  let J := sctAt es (shiftUp s q)
  if shiftUp s q ∈ ndindex2 (n + 1) (n + 1) then
    ∑ j ∈ Finset.range J.eigvals.length, ∑ k ∈ Finset.range I.eigvals.length,
      (z - ((((J.eigvals[j]?.getD 0) - egs) - ((I.eigvals[k]?.getD 0) - egs) : ℝ) : ℂ))⁻¹ *
        (((I.ket n k ⬝ᵥ (A *ᵥ J.ket n j)) * (J.ket n j ⬝ᵥ (B *ᵥ I.ket n k)) *
          (Real.exp (-beta * ((J.eigvals[j]?.getD 0) - egs)) + Real.exp (-beta * ((I.eigvals[k]?.getD 0) - egs))) : ℝ) : ℂ)
  else 0

theorem partition_eq {es : Espace (ℕ × ℕ)} (h : CompleteEspace n es) (beta egs : ℝ) :
    partition es beta egs = Real.exp (beta * egs) * ∑ a, Real.exp (-beta * esVal n es a) := by
  have h1 := sum_sigma_sectors n (fun q k => Real.exp (-beta * ((sctAt es q).eigvals[k]?.getD 0)))
  have h2 : (∑ a, Real.exp (-beta * esVal n es a)) = ∑ a : EigIdx n, Real.exp (-beta * ((sctAt es ((a.1.1 : ℕ), (a.1.2 : ℕ))).eigvals[(a.2 : ℕ)]?.getD 0)) := rfl
  rw [h2, h1, ← List.sum_map_mul_left, ← (h.keys.map _).sum_eq, List.map_map]
  unfold partition
  congr 1
  apply List.map_congr_left
  intro p hp
  have hk := mem_ndindex2.mp (h.keys.mem_iff.mp (List.mem_map.mpr ⟨p, hp, rfl⟩))
  obtain ⟨up, dw, hmem, hget, -, -, -, hl⟩ := h.at (u := p.1.1) (d := p.1.2) (by omega) (by omega)
  have hs : sctAt es p.1 = p.2 := by unfold sctAt; rw [dictGet_mem h.nodup (show (p.1, p.2) ∈ es from hp)]
  have hs' : sctAt es (p.1.1, p.1.2) = p.2 := hs
  rw [hs'] at hl
  simp only [Function.comp, hs]
  rw [← hl, Finset.mul_sum, ← sum_map_range]
  congr 1
  apply List.ext_getElem
  · simp
  · intro i h3 h4
    simp only [List.length_map] at h3
    simp only [List.getElem_map, List.getElem_range, List.getElem?_eq_getElem h3, Option.getD_some]
    rw [← Real.exp_add]; congr 1; ring

/-- The thermal Green function of an operator `A` that removes, and an operator `B` that adds, one electron of spin `s`, as a sum over the
sectors of a complete espace. -/
theorem EigenEspace.green {H : Matrix (Finset (Fin (n + n))) (Finset (Fin (n + n))) ℝ} {es : Espace (ℕ × ℕ)} (h : EigenEspace n H es) (beta egs : ℝ) (s : Bool)
    {A B : Matrix (Finset (Fin (n + n))) (Finset (Fin (n + n))) ℝ} (hB : Grade B (fun t => if t = s then 1 else 0)) {z : ℂ} (hz : z.im ≠ 0) (g : ℂ) :
    IsGreen beta H A B z g ↔ g = ((es.map Prod.fst).map (lehmannPart n es beta egs s A B z)).sum / (partition es beta egs : ℂ) := by
  rw [h.basis.green beta A B hz g, partition_eq h.toCompleteEspace]
  have hZ : (0 : ℝ) < ∑ a, Real.exp (-beta * esVal n es a) := by
    haveI : Nonempty (EigIdx n) := ⟨⟨(0, 0), ⟨0, by simp⟩⟩⟩
    exact Finset.sum_pos (fun _ _ => Real.exp_pos _) Finset.univ_nonempty
  have key := sum_pairs_sectors n s (fun q q' k j =>
    (((Real.exp (-beta * ((sctAt es q).eigvals[k]?.getD 0)) + Real.exp (-beta * ((sctAt es q').eigvals[j]?.getD 0)) : ℝ) : ℂ) *
      (((sctAt es q).ket n k ⬝ᵥ (A *ᵥ (sctAt es q').ket n j) : ℝ) : ℂ) * (((sctAt es q').ket n j ⬝ᵥ (B *ᵥ (sctAt es q).ket n k) : ℝ) : ℂ) *
      (z - ((((sctAt es q').eigvals[j]?.getD 0) - ((sctAt es q).eigvals[k]?.getD 0) : ℝ) : ℂ))⁻¹)) (by
    intro q hq q' hq' hne k hk j hj
    have b1 := mem_ndindex2.mp hq
    have b2 := mem_ndindex2.mp hq'
    obtain ⟨up, dw, -, -, hok, -⟩ := h.toCompleteEspace.at (u := q.1) (d := q.2) (by omega) (by omega)
    obtain ⟨up', dw', -, -, hok', -⟩ := h.toCompleteEspace.at (u := q'.1) (d := q'.2) (by omega) (by omega)
    have : (sctAt es q').ket n j ⬝ᵥ (B *ᵥ (sctAt es q).ket n k) = 0 := by
      rw [show q = (q.1, q.2) from rfl, show q' = (q'.1, q'.2) from rfl, hok.ket_eq, hok'.ket_eq]
      apply hB.elem_zero hok.hup hok.hdw hok'.hup hok'.hdw
      rintro ⟨e1, e2⟩
      apply hne
      cases s
      · simp at e1 e2; simp only [shiftUp]; exact Prod.ext (by simp; omega) (by simp; omega)
      · simp at e1 e2; simp only [shiftUp]; exact Prod.ext (by simp; omega) (by simp; omega)
    rw [this]; simp)
  have hl : (∑ a, ∑ b, ((Real.exp (-beta * esVal n es a) + Real.exp (-beta * esVal n es b) : ℝ) : ℂ) * ((esKet n es a ⬝ᵥ (A *ᵥ esKet n es b) : ℝ) : ℂ) *
        ((esKet n es b ⬝ᵥ (B *ᵥ esKet n es a) : ℝ) : ℂ) * (z - ((esVal n es b - esVal n es a : ℝ) : ℂ))⁻¹) = _ := key
  rw [hl]
  have hsum : ((es.map Prod.fst).map (lehmannPart n es beta egs s A B z)).sum = (Real.exp (beta * egs) : ℂ) *
      ((ndindex2 (n + 1) (n + 1)).map fun q => if shiftUp s q ∈ ndindex2 (n + 1) (n + 1) then
        ∑ j ∈ Finset.range (n.choose (shiftUp s q).1 * n.choose (shiftUp s q).2), ∑ k ∈ Finset.range (n.choose q.1 * n.choose q.2),
    (((Real.exp (-beta * ((sctAt es q).eigvals[k]?.getD 0)) + Real.exp (-beta * ((sctAt es (shiftUp s q)).eigvals[j]?.getD 0)) : ℝ) : ℂ) *
      (((sctAt es q).ket n k ⬝ᵥ (A *ᵥ (sctAt es (shiftUp s q)).ket n j) : ℝ) : ℂ) * (((sctAt es (shiftUp s q)).ket n j ⬝ᵥ (B *ᵥ (sctAt es q).ket n k) : ℝ) : ℂ) *
      (z - ((((sctAt es (shiftUp s q)).eigvals[j]?.getD 0) - ((sctAt es q).eigvals[k]?.getD 0) : ℝ) : ℂ))⁻¹) else 0).sum := by
    rw [(h.keys.map _).sum_eq, ← List.sum_map_mul_left]
    congr 1
    apply List.map_congr_left
    intro q hq
    have b1 := mem_ndindex2.mp hq
    obtain ⟨up, dw, -, -, -, -, -, hl⟩ := h.toCompleteEspace.at (u := q.1) (d := q.2) (by omega) (by omega)
    simp only [lehmannPart]
    split_ifs with hs
    · have b2 := mem_ndindex2.mp hs
      obtain ⟨up', dw', -, -, -, -, -, hl'⟩ := h.toCompleteEspace.at (u := (shiftUp s q).1) (d := (shiftUp s q).2) (by omega) (by omega)
      have e1 : (sctAt es q).eigvals.length = n.choose q.1 * n.choose q.2 := hl
      have e2 : (sctAt es (shiftUp s q)).eigvals.length = n.choose (shiftUp s q).1 * n.choose (shiftUp s q).2 := hl'
      rw [e1, e2, Finset.mul_sum]
      apply Finset.sum_congr rfl; intro j _
      rw [Finset.mul_sum]
      apply Finset.sum_congr rfl; intro k _
      have x1 : ∀ x : ℝ, Real.exp (-beta * (x - egs)) = Real.exp (beta * egs) * Real.exp (-beta * x) := fun x => by
        rw [← Real.exp_add]; congr 1; ring
      rw [x1, x1, sub_sub_sub_cancel_right]
      push_cast
      ring
    · simp
  rw [hsum]
  push_cast
  rw [mul_div_mul_left]
  exact_mod_cast (Real.exp_pos _).ne'

end Edpyt
