import Verif.Props.Response
import Verif.Props.Temperature
import Verif.Proof.Perturb
import Mathlib.Analysis.Matrix.Spectrum
/-!
# C153: stability of energies and occupations against small changes, and the cutoff of the hopping
-/
namespace Edpyt
open Spec Matrix
open scoped Matrix.Norms.L2Operator

/-! ## Specification -/

/-- The Hamiltonian of the arguments without the cutoff of small hopping elements. -/
noncomputable def Spec.exactHam (a : HamArgs) : Matrix (Finset (Fin (a.n + a.n))) (Finset (Fin (a.n + a.n))) ℝ :=
  hubbard a.hf (fun s i j => a.H (if s then 1 else 0) i j + if i = j then a.mu else 0)
    (fun i => (a.z.getD (fun _ => if a.hf then 1 else 0)) i) (fun i j => a.V.U.getD 0 i j) + codeExchange a.V.Jx a.V.Jp

/-- A hopping element after the cutoff. -/
noncomputable def Spec.cutHop (t : ℝ) : ℝ := if |t| > 1 / 10 ^ 7 then t else 0

/-- The sum of the absolute changes of the levels and of the hopping elements that are kept, over both spins. -/
noncomputable def Spec.hopChange (n : ℕ) (H H' : ℕ → ℕ → ℕ → ℝ) : ℝ :=
  ∑ s ∈ Finset.range 2, ∑ i ∈ Finset.range n, ∑ j ∈ Finset.range n, if i = j then |H' s i i - H s i i| else |cutHop (H' s i j) - cutHop (H s i j)|

/-- The sum of the absolute values of the hopping elements that the cutoff drops. -/
noncomputable def Spec.hopDropped (n : ℕ) (H : ℕ → ℕ → ℕ → ℝ) : ℝ :=
  ∑ s ∈ Finset.range 2, ∑ i ∈ Finset.range n, ∑ j ∈ Finset.range n, if i ≠ j ∧ |H s i j| ≤ 1 / 10 ^ 7 then |H s i j| else 0

/-- The bound for averages: `x (1 + e^x) + e^x - 1`, which is below `7 x` for `x <= 1`. -/
noncomputable def Spec.avgBound (x : ℝ) : ℝ := x * (1 + Real.exp x) + (Real.exp x - 1)

variable {a : HamArgs} {w : ℕ} {es es' : Espace (ℕ × ℕ)} {U D U' D' : ℕ → ℝ} {beta : ℝ}

/-! ## Helpers -/

theorem avgBound_le {x : ℝ} (h0 : 0 ≤ x) (h1 : x ≤ 1) : avgBound x ≤ 7 * x := by
  unfold avgBound
  have he : Real.exp x ≤ 1 + x + x ^ 2 := by
    have := Real.abs_exp_sub_one_sub_id_le (x := x) (by rw [abs_of_nonneg h0]; exact h1)
    have := (abs_le.mp this).2
    linarith
  nlinarith

theorem ann_norm {n : ℕ} (o : Fin (n + n)) : ‖ann ℝ o‖ ≤ 1 ∧ ‖cre ℝ o‖ ≤ 1 := by
  have hd : ‖num ℝ o‖ ≤ 1 := by
    rw [num_diagonal, Matrix.l2_opNorm_diagonal]
    refine (pi_norm_le_iff_of_nonneg zero_le_one).mpr fun S => ?_
    split_ifs <;> simp
  have h1 := Matrix.l2_opNorm_conjTranspose_mul_self (ann ℝ o)
  have ht : (ann ℝ o)ᴴ = cre ℝ o := by
    rw [Matrix.conjTranspose_eq_transpose_of_trivial]
    rfl
  rw [ht] at h1
  have ha : ‖ann ℝ o‖ ≤ 1 := by
    have : ‖ann ℝ o‖ * ‖ann ℝ o‖ ≤ 1 := h1 ▸ hd
    nlinarith [norm_nonneg (ann ℝ o)]
  refine ⟨ha, ?_⟩
  rw [← ht, Matrix.l2_opNorm_conjTranspose]
  exact ha

theorem num_norm {n : ℕ} (o : Fin (n + n)) : ‖num ℝ o‖ ≤ 1 := by
  obtain ⟨h1, h2⟩ := ann_norm o
  unfold num
  exact (norm_mul_le _ _).trans (by nlinarith [norm_nonneg (ann ℝ o), norm_nonneg (cre ℝ o)])

theorem kinetic_norm {n : ℕ} (t t' : Bool → Fin n → Fin n → ℝ) : ‖kinetic t' - kinetic t‖ ≤ ∑ s, ∑ i, ∑ j, |t' s i j - t s i j| := by
  unfold kinetic
  rw [← Finset.sum_sub_distrib]
  refine (norm_sum_le _ _).trans (Finset.sum_le_sum fun s _ => ?_)
  rw [← Finset.sum_sub_distrib]
  refine (norm_sum_le _ _).trans (Finset.sum_le_sum fun i _ => ?_)
  rw [← Finset.sum_sub_distrib]
  refine (norm_sum_le _ _).trans (Finset.sum_le_sum fun j _ => ?_)
  rw [← sub_smul, norm_smul, Real.norm_eq_abs]
  refine mul_le_of_le_one_right (abs_nonneg _) ((norm_mul_le _ _).trans ?_)
  have h1 := (ann_norm (orb s j)).1
  have h2 := (ann_norm (orb s i)).2
  nlinarith [norm_nonneg (ann ℝ (orb s j)), norm_nonneg (cre ℝ (orb s i))]

theorem sum_range_two {n : ℕ} (f : ℕ → ℕ → ℕ → ℝ) : ∑ s ∈ Finset.range 2, ∑ i ∈ Finset.range n, ∑ j ∈ Finset.range n, f s i j = ∑ s : Bool, ∑ i : Fin n, ∑ j : Fin n, f (if s then 1 else 0) i j := by
  rw [Finset.sum_range_succ, Finset.sum_range_one, Fintype.sum_bool, add_comm]
  simp only [if_true, Bool.false_eq_true, if_false]
  congr 1 <;>
  · rw [Finset.sum_range]
    exact Finset.sum_congr rfl fun i _ => Finset.sum_range _

theorem hamH_norm (H : ℕ → ℕ → ℕ → ℝ) : ‖a.hamH H a.mu - a.ham‖ ≤ hopChange a.n a.H H := by
  have e : a.hamH H a.mu - a.ham = kinetic (fun s => kept (n := a.n) a.mu (H (if s then 1 else 0))) - kinetic (fun s => kept (n := a.n) a.mu (a.H (if s then 1 else 0))) := by
    unfold HamArgs.hamH HamArgs.ham hubbard
    have e' : ∀ K K' A B C : Matrix (Finset (Fin (a.n + a.n))) (Finset (Fin (a.n + a.n))) ℝ, K + A + B + C - (K' + A + B + C) = K - K' := fun K K' A B C => by abel
    exact e' _ _ _ _ _
  rw [e]
  refine (kinetic_norm _ _).trans (le_of_eq ?_)
  unfold hopChange
  rw [sum_range_two]
  refine Finset.sum_congr rfl fun s _ => Finset.sum_congr rfl fun i _ => Finset.sum_congr rfl fun j _ => ?_
  rw [kept_apply, kept_apply]
  by_cases hij : i = j
  · rw [if_pos hij, if_pos hij, hij, if_pos rfl]
    congr 1
    ring
  · rw [if_neg hij, if_neg hij, if_neg fun h => hij (Fin.ext h)]
    rfl

theorem exactHam_norm (a : HamArgs) : ‖exactHam a - a.ham‖ ≤ hopDropped a.n a.H := by
  have e : exactHam a - a.ham = kinetic (fun s i j => a.H (if s then 1 else 0) i j + if i = j then a.mu else 0) - kinetic (fun s => kept (n := a.n) a.mu (a.H (if s then 1 else 0))) := by
    unfold exactHam HamArgs.ham hubbard
    abel
  rw [e]
  refine (kinetic_norm _ _).trans (le_of_eq ?_)
  unfold hopDropped
  rw [sum_range_two]
  refine Finset.sum_congr rfl fun s _ => Finset.sum_congr rfl fun i _ => Finset.sum_congr rfl fun j _ => ?_
  rw [kept_apply]
  by_cases hij : i = j
  · rw [if_pos hij, if_pos hij, hij, sub_self, abs_zero]
    simp
  · rw [if_neg hij, if_neg hij, add_zero]
    have hne : (i : ℕ) ≠ j := fun h => hij (Fin.ext h)
    by_cases hc : |a.H (if s then 1 else 0) i j| > 1 / 10 ^ 7
    · rw [if_pos hc, sub_self, abs_zero, if_neg fun h => absurd h.2 (not_le.mpr hc)]
    · rw [if_neg hc, sub_zero]
      exact (if_pos ⟨hne, not_lt.mp hc⟩).symm

theorem hopChange_nonneg (n : ℕ) (H H' : ℕ → ℕ → ℕ → ℝ) : 0 ≤ hopChange n H H' :=
  Finset.sum_nonneg fun s _ => Finset.sum_nonneg fun i _ => Finset.sum_nonneg fun j _ => by split_ifs <;> positivity

theorem hopDropped_nonneg (n : ℕ) (H : ℕ → ℕ → ℕ → ℝ) : 0 ≤ hopDropped n H :=
  Finset.sum_nonneg fun s _ => Finset.sum_nonneg fun i _ => Finset.sum_nonneg fun j _ => by split_ifs <;> positivity

theorem hopDropped_le (n : ℕ) (H : ℕ → ℕ → ℕ → ℝ) : hopDropped n H ≤ 2 * n ^ 2 / 10 ^ 7 := by
  unfold hopDropped
  have : ∀ s i j : ℕ, (if i ≠ j ∧ |H s i j| ≤ 1 / 10 ^ 7 then |H s i j| else 0) ≤ 1 / 10 ^ 7 := fun s i j => by
    split_ifs with h
    · exact h.2
    · norm_num
  refine (Finset.sum_le_sum fun s _ => Finset.sum_le_sum fun i _ => Finset.sum_le_sum fun j _ => this s i j).trans (le_of_eq ?_)
  simp
  ring

theorem EigBasis.of_symm {ι : Type} [Fintype ι] [DecidableEq ι] {A : Matrix ι ι ℝ} (hA : Aᵀ = A) : ∃ (u : ι → ι → ℝ) (E : ι → ℝ), EigBasis A u E := by
  have hH : A.IsHermitian := by
    rw [Matrix.IsHermitian, Matrix.conjTranspose_eq_transpose_of_trivial, hA]
  refine ⟨fun k => (hH.eigenvectorBasis k).ofLp, hH.eigenvalues, rfl, fun k l => ?_, fun k => hH.mulVec_eigenvectorBasis k⟩
  have := orthonormal_iff_ite.mp hH.eigenvectorBasis.orthonormal l k
  rw [EuclideanSpace.inner_eq_star_dotProduct] at this
  simp only [star_trivial] at this
  rw [this]
  exact if_congr eq_comm rfl rfl

theorem IsGround.pert {ι : Type} [Fintype ι] [DecidableEq ι] {A B : Matrix ι ι ℝ} {E E' δ : ℝ} (h : IsGround A E) (h' : IsGround B E') (hV : ‖B - A‖ ≤ δ) : |E' - E| ≤ δ := by
  have key : ∀ {A B : Matrix ι ι ℝ} {E E' : ℝ}, IsGround A E → IsGround B E' → ‖B - A‖ ≤ δ → E' - E ≤ δ := fun {A B E E'} h h' hV => by
    obtain ⟨-, x, hx1, hx⟩ := h
    have h1 := h'.1 x
    have h2 := (le_abs_self _).trans ((opNorm_form (B - A) x hx1).trans hV)
    rw [Matrix.sub_mulVec, dotProduct_sub, hx, dotProduct_smul, hx1, smul_eq_mul, mul_one] at h2
    rw [hx1, mul_one] at h1
    linarith
  rw [abs_le]
  have := key h h' hV
  have := key h' h (by rw [← norm_neg, neg_sub]; exact hV)
  constructor <;> linarith

theorem exactHam_symm (ha : a.Valid) : (exactHam a)ᵀ = exactHam a := by
  obtain ⟨es, he⟩ := eigenEspace_exists ha
  let e : Finset (Fin (a.n + a.n)) ≃ EigIdx a.n := Fintype.equivOfCardEq he.basis.card.symm
  have hd := he.basis.diag e
  have hs : a.hamᵀ = a.ham := by
    conv_rhs => rw [hd.diag]
    conv_lhs => rw [hd.diag]
    rw [Matrix.transpose_mul, Matrix.transpose_mul, Matrix.transpose_transpose, Matrix.diagonal_transpose, Matrix.mul_assoc]
  have hk : ∀ t : Bool → Fin a.n → Fin a.n → ℝ, (∀ s i j, t s i j = t s j i) → (kinetic t)ᵀ = kinetic t := fun t ht => by
    unfold kinetic
    simp only [Matrix.transpose_sum, Matrix.transpose_smul, Matrix.transpose_mul]
    refine Finset.sum_congr rfl fun s _ => ?_
    rw [Finset.sum_comm]
    refine Finset.sum_congr rfl fun i _ => Finset.sum_congr rfl fun j _ => ?_
    rw [ht s j i]
    rfl
  have hH : ∀ (s : Bool) (i j : Fin a.n), a.H (if s then 1 else 0) i j = a.H (if s then 1 else 0) j i := fun s i j => ha.symmH _ i j i.2 j.2
  have e : exactHam a = a.ham - kinetic (fun s => kept (n := a.n) a.mu (a.H (if s then 1 else 0))) + kinetic (fun s i j => a.H (if s then 1 else 0) i j + if i = j then a.mu else 0) := by
    unfold exactHam HamArgs.ham hubbard
    abel
  rw [e, Matrix.transpose_add, Matrix.transpose_sub, hs, hk, hk]
  · intro s i j
    rw [hH s i j]
    congr 1
    exact if_congr eq_comm rfl rfl
  · intro s i j
    rw [kept_apply, kept_apply, hH s i j]
    by_cases hij : i = j
    · rw [hij]
    · rw [if_neg hij, if_neg (Ne.symm hij)]

/-! ## C153 -/

/-- **C153** (two runs) Energies and occupations are stable: if the levels and kept hopping elements change by `δ` in total, the ground state energy and
the free energy change by at most `δ`, and every occupation by at most `avgBound (beta δ)`, whatever the size and the interactions. -/
theorem C153_stable {H : ℕ → ℕ → ℕ → ℝ} (ha : a.Valid) (ha' : ({ a with H := H } : HamArgs).Valid) (hw : a.n ≤ w) :
    (∀ es es' E E', BuildEspace w a none (.ok (es, ((E : ℝ) : WithTop ℝ))) → BuildEspace w { a with H := H } none (.ok (es', ((E' : ℝ) : WithTop ℝ))) → |E' - E| ≤ hopChange a.n a.H H) ∧
    ∀ beta es es' U D U' D', 0 < beta → OccRun w a beta es U D → OccRun w { a with H := H } beta es' U' D' →
      |freeEnergy beta es' - freeEnergy beta es| ≤ hopChange a.n a.H H ∧
      ∀ k < a.n, |U' k - U k| ≤ avgBound (beta * hopChange a.n a.H H) ∧ |D' k - D k| ≤ avgBound (beta * hopChange a.n a.H H) := by
  have hn := hamH_norm (a := a) H
  constructor
  · intro es es' E E' h h'
    have g := C127_variational ha hw h
    have g' : IsGround (a.hamH H a.mu) E' := C127_variational (a := { a with H := H }) ha' hw h'
    exact IsGround.pert g g' hn
  · intro beta es es' U D U' D' hb h h'
    obtain ⟨e, hU⟩ := h.eigen ha hw
    obtain ⟨e', hU'⟩ : EigenEspace a.n (a.hamH H a.mu) es' ∧ _ := OccRun.eigen (a := { a with H := H }) ha' hw h'
    constructor
    · rw [freeEnergy_eq e.toCompleteEspace, freeEnergy_eq e'.toCompleteEspace, ← sub_div, abs_div, abs_of_pos hb, div_le_iff₀ hb, abs_le]
      have l1 := pert_log e.basis e'.basis hb.le hn
      have l2 := pert_log e'.basis e.basis hb.le (δ := hopChange a.n a.H H) (by rw [← norm_neg, neg_sub]; exact hn)
      constructor <;> linarith
    · intro k hk
      have key : ∀ (s : Bool) {x x' : ℝ}, (x : ℂ) = thermalOcc beta a.ham s ⟨k, hk⟩ → (x' : ℂ) = thermalOcc beta (a.hamH H a.mu) s ⟨k, hk⟩ → |x' - x| ≤ avgBound (beta * hopChange a.n a.H H) := by
        intro s x x' hx hx'
        have h1 := e.basis.thermal beta (num ℝ (orb s ⟨k, hk⟩))
        have h2 := e'.basis.thermal beta (num ℝ (orb s ⟨k, hk⟩))
        unfold thermalOcc at hx hx'
        rw [h1] at hx
        rw [h2] at hx'
        rw [Complex.ofReal_inj.mp hx, Complex.ofReal_inj.mp hx', abs_sub_comm]
        exact pert_avg e.basis e'.basis hb.le (hopChange_nonneg _ _ _) hn (num_norm _)
      exact ⟨key false (hU ⟨k, hk⟩).1 (hU' ⟨k, hk⟩).1, key true (hU ⟨k, hk⟩).2 (hU' ⟨k, hk⟩).2⟩

/-- **C153** (cutoff) The elements of the one-body matrix that the code drops because they are not larger than `1e-7` change the ground state energy by at
most their sum, which is at most `2 n^2 1e-7`, and the occupations at most by `avgBound` of `beta` times that sum. -/
theorem C153_cutoff (ha : a.Valid) (hw : a.n ≤ w) : hopDropped a.n a.H ≤ 2 * a.n ^ 2 / 10 ^ 7 ∧
    (∀ es E E', BuildEspace w a none (.ok (es, ((E : ℝ) : WithTop ℝ))) → IsGround (exactHam a) E' → |E' - E| ≤ hopDropped a.n a.H) ∧
    ∀ beta es U D, 0 < beta → OccRun w a beta es U D → ∀ k : Fin a.n,
      ‖(U k : ℂ) - thermalOcc beta (exactHam a) false k‖ ≤ avgBound (beta * hopDropped a.n a.H) ∧ ‖(D k : ℂ) - thermalOcc beta (exactHam a) true k‖ ≤ avgBound (beta * hopDropped a.n a.H) := by
  have hn := exactHam_norm a
  refine ⟨hopDropped_le _ _, fun es E E' h h' => IsGround.pert (C127_variational ha hw h) h' hn, fun beta es U D hb h k => ?_⟩
  obtain ⟨e, hU⟩ := h.eigen ha hw
  obtain ⟨u, E, hB⟩ := EigBasis.of_symm (exactHam_symm ha)
  have key : ∀ s : Bool, ‖thermalOcc beta a.ham s k - thermalOcc beta (exactHam a) s k‖ ≤ avgBound (beta * hopDropped a.n a.H) := fun s => by
    unfold thermalOcc
    rw [e.basis.thermal beta, hB.thermal beta, ← Complex.ofReal_sub, Complex.norm_real, Real.norm_eq_abs]
    exact pert_avg e.basis hB hb.le (hopDropped_nonneg _ _) hn (num_norm _)
  rw [(hU k).1, (hU k).2]
  exact ⟨key false, key true⟩

/-- The bound of `C153_stable` for changes of at most `ε` of every element: the cutoff adds at most `1e-7` for each element off the diagonal. -/
theorem C153_change_le (n : ℕ) (H H' : ℕ → ℕ → ℕ → ℝ) {ε : ℝ} (hε : ∀ s < 2, ∀ i < n, ∀ j < n, |H' s i j - H s i j| ≤ ε) : hopChange n H H' ≤ 2 * n ^ 2 * (ε + 1 / 10 ^ 7) := by
  unfold hopChange
  have hcut : ∀ x y : ℝ, |cutHop y - cutHop x| ≤ |y - x| + 1 / 10 ^ 7 := fun x y => by
    unfold cutHop
    split_ifs with h1 h2 h2
    · linarith [abs_nonneg (y - x), (by norm_num : (0 : ℝ) ≤ 1 / 10 ^ 7)]
    · rw [sub_zero]
      have := abs_sub_abs_le_abs_sub y x
      linarith [not_lt.mp h2]
    · rw [zero_sub, abs_neg]
      have := abs_sub_abs_le_abs_sub x y
      rw [abs_sub_comm x y] at this
      linarith [not_lt.mp h1]
    · rw [sub_zero, abs_zero]
      positivity
  have : ∀ s ∈ Finset.range 2, ∀ i ∈ Finset.range n, ∀ j ∈ Finset.range n, (if i = j then |H' s i i - H s i i| else |cutHop (H' s i j) - cutHop (H s i j)|) ≤ ε + 1 / 10 ^ 7 := fun s hs i hi j hj => by
    have h1 := hε s (Finset.mem_range.mp hs) i (Finset.mem_range.mp hi) j (Finset.mem_range.mp hj)
    split_ifs with hij
    · rw [← hij] at h1
      linarith [(by norm_num : (0 : ℝ) ≤ 1 / 10 ^ 7)]
    · linarith [hcut (H s i j) (H' s i j)]
  refine (Finset.sum_le_sum fun s hs => Finset.sum_le_sum fun i hi => Finset.sum_le_sum fun j hj => this s hs i hi j hj).trans (le_of_eq ?_)
  simp
  ring

/-- Non-vacuity: two sites with a hopping of `1e-8`, which the code drops; the hypotheses hold and the dropped sum is `4e-8`. -/
noncomputable def weakArgs : HamArgs := { n := 2, H := fun _ i j => if i = j then 0 else 1 / 10 ^ 8, V := VArg.array fun i j => if i = j then 2 else 0, z := none, hf := false, mu := 0 }

theorem weakArgs_valid : weakArgs.Valid := by
  refine ⟨le_rfl, by norm_num [weakArgs], rfl, fun s i j _ _ => ?_, ?_, ?_, fun _ => rfl⟩
  · change (if i = j then (0 : ℝ) else 1 / 10 ^ 8) = if j = i then 0 else 1 / 10 ^ 8
    exact if_congr eq_comm rfl rfl
  · intro A hA; cases hA
  · intro A hA; cases hA

example : hopDropped weakArgs.n weakArgs.H = 4 / 10 ^ 8 ∧ ∃ es U D E', OccRun 64 weakArgs 10 es U D ∧ IsGround (exactHam weakArgs) E' ∧
    ‖(U 0 : ℂ) - thermalOcc 10 (exactHam weakArgs) false (⟨0, by norm_num [weakArgs]⟩ : Fin weakArgs.n)‖ ≤ 3 / 10 ^ 6 := by
  have h0 : hopDropped weakArgs.n weakArgs.H = 4 / 10 ^ 8 := by
    unfold hopDropped
    simp only [weakArgs, Finset.sum_range_succ, Finset.sum_range_zero]
    norm_num
  have hw : weakArgs.n ≤ 64 := by norm_num [weakArgs]
  refine ⟨h0, ?_⟩
  obtain ⟨es, U, D, h⟩ := OccRun.exists weakArgs_valid hw 10
  obtain ⟨u, E, hB⟩ := EigBasis.of_symm (exactHam_symm weakArgs_valid)
  obtain ⟨k, hk⟩ := Finite.exists_min E
  refine ⟨es, U, D, E k, h, ⟨fun x => ?_, u k, by rw [hB.orth, if_pos rfl], hB.eig k⟩, ?_⟩
  · obtain ⟨h1, h2⟩ := hB.quad x
    rw [h1, h2, Finset.mul_sum]
    exact Finset.sum_le_sum fun j _ => mul_le_mul_of_nonneg_right (hk j) (sq_nonneg _)
  · have := (((C153_cutoff weakArgs_valid hw).2.2 10 es U D (by norm_num) h) ⟨0, by norm_num [weakArgs]⟩).1
    rw [h0] at this
    exact this.trans ((avgBound_le (by norm_num) (by norm_num)).trans (by norm_num))

end Edpyt
