import Verif.Props.SameBath
import Verif.Props.FirstSites
import Verif.Spec.SameImpurity
/-!
An input with empty sites appended.
-/
namespace Edpyt
open Edpyt.Spec Matrix

/-- The input `a` on `m` sites: the new sites are not connected. -/
def padded (a : HamArgs) (m : ℕ) : HamArgs :=
  ⟨m, fun s i j => if i < a.n ∧ j < a.n then a.H s i j else 0, ⟨a.V.U.map fun A i j => if i < a.n ∧ j < a.n then A i j else 0, a.V.Jx.map fun A i j => if i < a.n ∧ j < a.n then A i j else 0,
    a.V.Jp.map fun A i j => if i < a.n ∧ j < a.n then A i j else 0⟩, a.z, a.hf, a.mu⟩

section
variable {a : HamArgs} {m : ℕ}

theorem padded_valid (ha : a.Valid) (hm : a.n ≤ m) (hm' : m ≤ 32) : (padded a m).Valid where
  two_le := ha.two_le.trans hm
  le := hm'
  hU := by simpa [padded] using ha.hU
  symmH s i j hi hj := by
    simp only [padded, and_comm (a := j < a.n)]
    by_cases h : i < a.n ∧ j < a.n
    · rw [if_pos h, if_pos h, ha.symmH s i j h.1 h.2]
    · rw [if_neg h, if_neg h]
  symmX A hA i j hi hj := by
    simp only [padded, Option.mem_def, Option.map_eq_some_iff] at hA
    obtain ⟨B, hB, rfl⟩ := hA
    simp only [and_comm (a := j < a.n)]
    by_cases h : i < a.n ∧ j < a.n
    · rw [if_pos h, if_pos h, ha.symmX B hB i j h.1 h.2]
    · rw [if_neg h, if_neg h]
  symmP A hA i j hi hj := by
    simp only [padded, Option.mem_def, Option.map_eq_some_iff] at hA
    obtain ⟨B, hB, rfl⟩ := hA
    simp only [and_comm (a := j < a.n)]
    by_cases h : i < a.n ∧ j < a.n
    · rw [if_pos h, if_pos h, ha.symmP B hB i j h.1 h.2]
    · rw [if_neg h, if_neg h]
  hJ h := by
    simp only [padded, Option.map_eq_none_iff] at h ⊢
    exact ha.hJ h

theorem padded_getD {J : Option (ℕ → ℕ → ℝ)} {i j : ℕ} : (J.map fun A i j => if i < a.n ∧ j < a.n then A i j else 0).getD (fun _ _ => 0) i j = if i < a.n ∧ j < a.n then J.getD (fun _ _ => 0) i j else 0 := by
  cases J <;> simp

theorem padded_first (hm : a.n ≤ m) : FirstSites (padded a m) a where
  le := hm
  hf := rfl
  H s i j hi hj := by simp [padded, hi, hj]
  U i j hi hj := by
    have := padded_getD (a := a) (J := a.V.U) (i := i) (j := j)
    rw [if_pos ⟨hi, hj⟩] at this
    exact this.symm
  z i hi := rfl
  Jx i j hi hj := by
    have := padded_getD (a := a) (J := a.V.Jx) (i := i) (j := j)
    rw [if_pos ⟨hi, hj⟩] at this
    exact this.symm
  Jp i j hi hj := by
    have := padded_getD (a := a) (J := a.V.Jp) (i := i) (j := j)
    rw [if_pos ⟨hi, hj⟩] at this
    exact this.symm

theorem padded_detached : Detached (padded a m) a.n := by
  have key : ∀ (J : Option (ℕ → ℕ → ℝ)) (A : ℕ → ℕ → ℝ), (J.map fun A i j => if i < a.n ∧ j < a.n then A i j else 0) = some A → ∀ i j : ℕ, A i j ≠ 0 → decide (i < a.n) = decide (j < a.n) := by
    intro J A hA i j h0
    obtain ⟨B, -, rfl⟩ := Option.map_eq_some_iff.mp hA
    by_cases hc : i < a.n ∧ j < a.n
    · simp [hc.1, hc.2]
    · simp only [if_neg hc] at h0; exact absurd rfl h0
  refine ⟨fun s i j hi hj h => ?_, fun A hA i j hi hj h s s' => key _ A hA i j h, fun A hA i j hi hj hij h s s' => key _ A hA i j fun h0 => ?_, fun A hA i j hi hj hij h s s' => key _ A hA i j fun h0 => ?_⟩
  · by_cases hc : i < a.n ∧ j < a.n
    · simp [hc.1, hc.2]
    · simp only [padded, if_neg hc, abs_zero] at h; norm_num at h
  · rw [h0, abs_zero] at h; norm_num at h
  · rw [h0, abs_zero] at h; norm_num at h

/-- The resolvent of a matrix that does not connect the first indices with the others. -/
theorem resolvent_first {k n : ℕ} (h : k ≤ n) {t : Matrix (Fin n) (Fin n) ℝ} {t' : Matrix (Fin k) (Fin k) ℝ} (hs : t.IsSymm) (hs' : t'.IsSymm)
    (h1 : ∀ i j, t (Fin.castLE h i) (Fin.castLE h j) = t' i j) (h2 : ∀ (i : Fin n) (j : Fin k), ¬ (i : ℕ) < k → t i (Fin.castLE h j) = 0) {z : ℂ} (hz : z.im ≠ 0) (i j : Fin k) :
    resolvent z t (Fin.castLE h i) (Fin.castLE h j) = resolvent z t' i j := by
  set E : Matrix (Fin n) (Fin k) ℂ := Matrix.of fun a b => if a = Fin.castLE h b then 1 else 0 with hE
  have e1 : (z • (1 : Matrix (Fin n) (Fin n) ℂ) - t.map Complex.ofReal) * E = E * (z • (1 : Matrix (Fin k) (Fin k) ℂ) - t'.map Complex.ofReal) := by
    rw [Matrix.sub_mul, Matrix.mul_sub, Matrix.smul_mul, Matrix.mul_smul, Matrix.one_mul, Matrix.mul_one]
    congr 1
    ext a b
    rw [Matrix.mul_apply, Matrix.mul_apply]
    simp only [hE, Matrix.of_apply, mul_ite, mul_one, mul_zero, ite_mul, one_mul, zero_mul, Matrix.map_apply]
    rw [Finset.sum_ite_eq' Finset.univ]
    simp only [Finset.mem_univ, if_true]
    by_cases ha : (a : ℕ) < k
    · obtain ⟨a', rfl⟩ : ∃ a', a = Fin.castLE h a' := ⟨⟨a, ha⟩, rfl⟩
      simp only [(Fin.castLE_injective h).eq_iff]
      rw [Finset.sum_ite_eq Finset.univ, h1]
      simp
    · rw [h2 a b ha]
      symm
      rw [Complex.ofReal_zero]
      exact Finset.sum_eq_zero fun c _ => if_neg fun e => ha (by rw [e]; exact c.2)
  have u1 := isUnit_shifted hs hz
  have u2 := isUnit_shifted hs' hz
  have e2 : resolvent z t * E = E * resolvent z t' := by
    unfold Spec.resolvent
    calc _ = (z • (1 : Matrix (Fin n) (Fin n) ℂ) - t.map Complex.ofReal)⁻¹ * (E * (z • (1 : Matrix (Fin k) (Fin k) ℂ) - t'.map Complex.ofReal)) * (z • (1 : Matrix (Fin k) (Fin k) ℂ) - t'.map Complex.ofReal)⁻¹ := by
          rw [Matrix.mul_assoc, Matrix.mul_assoc E, Matrix.mul_nonsing_inv _ u2, Matrix.mul_one]
      _ = _ := by rw [← e1, ← Matrix.mul_assoc, Matrix.nonsing_inv_mul _ u1, Matrix.one_mul]
  have e3 := congrFun (congrFun e2 (Fin.castLE h i)) j
  rw [Matrix.mul_apply, Matrix.mul_apply] at e3
  simp only [hE, Matrix.of_apply, mul_ite, mul_one, mul_zero, ite_mul, one_mul, zero_mul, (Fin.castLE_injective h).eq_iff] at e3
  rw [Finset.sum_ite_eq' Finset.univ, Finset.sum_ite_eq Finset.univ] at e3
  simpa using e3

end
end Edpyt
