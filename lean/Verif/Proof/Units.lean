import Verif.Spec.Units
import Verif.Spec.Thermal
import Verif.Spec.GreenParts
import Verif.Spec.ThermalOcc
import Verif.Props.Moment
/-!
The Hamiltonian and the Green functions in another unit of energy (C193).
-/
namespace Edpyt
open Edpyt.Spec Matrix

theorem kinetic_scale {n : ℕ} (c : ℝ) (t : Bool → Fin n → Fin n → ℝ) : kinetic (fun s i j => c * t s i j) = c • kinetic t := by
  simp only [kinetic, Finset.smul_sum, mul_smul]

theorem onsiteU_scale {n : ℕ} (c : ℝ) (hf : Bool) (V : Fin n → Fin n → ℝ) : onsiteU hf (fun i j => c * V i j) = c • onsiteU hf V := by
  simp only [onsiteU, Finset.smul_sum, mul_smul]

theorem interSite_scale {n : ℕ} (c : ℝ) (z : Fin n → ℝ) (V : Fin n → Fin n → ℝ) : interSite z (fun i j => c * V i j) = c • interSite z V := by
  unfold interSite
  rw [smul_comm c]
  congr 1
  simp only [Finset.smul_sum (r := c)]
  refine Finset.sum_congr rfl fun i _ => Finset.sum_congr rfl fun j _ => ?_
  rw [smul_smul]
  congr 1
  split_ifs <;> simp

theorem exchangeSame_scale {n : ℕ} (c : ℝ) (J : Fin n → Fin n → ℝ) : exchangeSame (fun i j => c * J i j) = c • exchangeSame J := by
  unfold exchangeSame
  rw [smul_comm c]
  congr 1
  simp only [Finset.smul_sum (r := c), mul_smul c]

theorem exchangeFlip_scale {n : ℕ} (c : ℝ) (J : Fin n → Fin n → ℝ) : exchangeFlip (fun i j => c * J i j) = c • exchangeFlip J := by
  unfold exchangeFlip
  rw [smul_comm c]
  congr 1
  simp only [Finset.smul_sum (r := c), mul_smul c]

theorem pairHopping_scale {n : ℕ} (c : ℝ) (J : Fin n → Fin n → ℝ) : pairHopping (fun i j => c * J i j) = c • pairHopping J := by
  unfold pairHopping
  rw [smul_comm c]
  congr 1
  simp only [Finset.smul_sum (r := c), mul_smul c]

theorem offdiag_scale {n : ℕ} {c : ℝ} {A : ℕ → ℕ → ℝ} (h : SameSize c n A) (i j : Fin n) : offdiag (n := n) (fun i j => c * A i j) i j = c * offdiag (n := n) A i j := by
  unfold offdiag
  by_cases hij : i = j
  · simp [hij]
  · rcases h i j i.2 j.2 fun e => hij (Fin.ext e) with h0 | h1
    · simp [h0]
    · simp only [gt_iff_lt, ne_eq, hij, not_false_eq_true, true_and, ← h1]
      split_ifs <;> simp

theorem optMat_scale {n : ℕ} {c : ℝ} {J : Option (ℕ → ℕ → ℝ)} (h : ∀ A ∈ J, SameSize c n A) :
    offdiag (n := n) (optMat (J.map fun A i j => c * A i j)) = fun i j => c * offdiag (n := n) (optMat J) i j := by
  funext i j
  cases J with
  | none => simp [optMat, offdiag]
  | some A => exact offdiag_scale (h A rfl) i j

theorem ham_units {c : ℝ} {a : HamArgs} (h : UnitsOk c a) : (inUnits c a).ham = c • a.ham := by
  have h1 : (fun s : Bool => kept (n := a.n) (c * a.mu) fun i j => c * a.H (if s then 1 else 0) i j) = fun s i j => c * kept (n := a.n) a.mu (a.H (if s then 1 else 0)) i j := by
    funext s i j
    unfold kept
    rw [offdiag_scale (h.hop _)]
    split_ifs <;> ring
  have h2 : (fun i j : Fin a.n => (a.V.U.map fun A (i j : ℕ) => c * A i j).getD 0 (i : ℕ) (j : ℕ)) = fun i j : Fin a.n => c * a.V.U.getD 0 i j := by
    funext i j
    cases a.V.U <;> simp
  unfold HamArgs.ham inUnits hubbard codeExchange
  simp only
  rw [h1, h2, optMat_scale h.exch, optMat_scale h.pair, kinetic_scale, onsiteU_scale, interSite_scale, exchangeSame_scale, exchangeFlip_scale, pairHopping_scale]
  simp only [smul_add, smul_sub]

theorem inUnits_valid {c : ℝ} {a : HamArgs} (ha : a.Valid) : (inUnits c a).Valid := by
  refine ⟨ha.two_le, ha.le, ?_, fun s i j hi hj => ?_, fun A hA i j hi hj => ?_, fun A hA i j hi hj => ?_, fun h => ?_⟩
  · simpa [inUnits] using ha.hU
  · exact congrArg (c * ·) (ha.symmH s i j hi hj)
  · obtain ⟨B, hB, rfl⟩ := Option.mem_map.mp hA
    exact congrArg (c * ·) (ha.symmX B hB i j hi hj)
  · obtain ⟨B, hB, rfl⟩ := Option.mem_map.mp hA
    exact congrArg (c * ·) (ha.symmP B hB i j hi hj)
  · have : a.V.Jx = none := by simpa [inUnits] using h
    simpa [inUnits] using ha.hJ this

section
variable {ι : Type} [Fintype ι] [DecidableEq ι] {β c : ℝ} {H A B : Matrix ι ι ℝ}

theorem gibbsOp_units (hc : c ≠ 0) : gibbsOp (β / c) (c • H) = gibbsOp β H := by
  unfold gibbsOp
  rw [smul_smul]
  congr 2
  field_simp

theorem thermal_units (hc : c ≠ 0) (M : Matrix ι ι ℂ) : thermal (β / c) (c • H) M = thermal β H M := by
  unfold thermal
  rw [gibbsOp_units hc]

theorem cplx_scale (c : ℝ) (M : Matrix ι ι ℝ) : cplx (c • M) = (c : ℂ) • cplx M := by
  ext i j
  simp [cplx]

theorem green_units (hc : c ≠ 0) {z g : ℂ} (h : IsGreen β H A B z g) : IsGreen (β / c) (c • H) A B (c * z) (g / c) := by
  obtain ⟨X, h1, rfl⟩ := h
  have hc' : (c : ℂ) ≠ 0 := by exact_mod_cast hc
  refine ⟨(c : ℂ)⁻¹ • X, ?_, ?_⟩
  · rw [← h1, cplx_scale]
    simp only [Matrix.smul_mul, Matrix.mul_smul, smul_smul]
    rw [mul_inv_cancel₀ hc', inv_mul_cancel₀ hc', one_smul, one_smul, show (c : ℂ) * z * (c : ℂ)⁻¹ = z by field_simp]
  · rw [thermal_units hc, Matrix.smul_mul, Matrix.mul_smul, ← smul_add]
    unfold thermal
    rw [Matrix.mul_smul, Matrix.trace_smul, smul_eq_mul]
    field_simp

end
end Edpyt
