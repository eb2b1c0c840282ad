import Verif.Props.Stable
import Verif.Proof.GreenPert
/-!
# C154: stability of Green functions, and stability against changes of the interaction
-/
namespace Edpyt
open Spec Matrix
open scoped Matrix.Norms.L2Operator

/-! ## Specification -/

/-- The arguments with another one-body array and another interaction array. -/
def Spec.withHU (a : HamArgs) (H : ℕ → ℕ → ℕ → ℝ) (V : ℕ → ℕ → ℝ) : HamArgs := { a with H := H, V := { a.V with U := some V } }

/-- The reference occupations that the code uses. -/
noncomputable def Spec.refOcc (a : HamArgs) : ℕ → ℝ := a.z.getD fun _ => if a.hf then 1 else 0

/-- The size of a change of the interaction array: the changes of the diagonal, and half of those off the diagonal, weighted with bounds on
`|n_i - z_i|` and `|n_j - z_j|`. -/
noncomputable def Spec.intChange (a : HamArgs) (V : ℕ → ℕ → ℝ) : ℝ :=
  ∑ i ∈ Finset.range a.n, |V i i - a.V.U.getD 0 i i| +
    1 / 2 * ∑ i ∈ Finset.range a.n, ∑ j ∈ Finset.range a.n, if i ≠ j then |V i j - a.V.U.getD 0 i j| * ((2 + |refOcc a i|) * (2 + |refOcc a j|)) else 0

/-- `g` is the Green function between sites `i` and `j` that `build_gf2_exact` gives after `build_espace`, at `e + i eta`. -/
def Spec.Gf2Run (w : ℕ) (a : HamArgs) (beta : ℝ) (s : Bool) (i j : Fin a.n) (e eta : ℝ) (g : ℂ) : Prop :=
  ∃ es E junk egs G, BuildEspace w a none (.ok (es, E)) ∧ buildGf2Exact junk a.n es beta egs s = .ok G ∧ g = (G i j).call e eta

/-- `g` is the Green function of site `pos` that `build_gf_exact` gives after `build_espace`, at `e + i eta`. -/
def Spec.GfRun (w : ℕ) (a : HamArgs) (beta : ℝ) (pos : ℕ) (e eta : ℝ) (g : ℂ) : Prop :=
  ∃ es E junk egs G, BuildEspace w a none (.ok (es, E)) ∧ buildGfExact junk a.n es beta egs pos false = .ok G ∧ g = G.call e eta

/-- The bound for a Green function at distance `eta` from the real axis: `4 δ / eta^2 + 2 avgBound (beta δ) / |eta|`. -/
noncomputable def Spec.greenBound (beta δ eta : ℝ) : ℝ := 4 * δ / eta ^ 2 + 2 * avgBound (beta * δ) / |eta|

variable {a : HamArgs} {w : ℕ} {beta : ℝ}

/-! ## Helpers -/

theorem diag_norm_le {ι : Type} [Fintype ι] [DecidableEq ι] {v : ι → ℝ} {C : ℝ} (hC : 0 ≤ C) (h : ∀ i, |v i| ≤ C) : ‖(Matrix.diagonal v : Matrix ι ι ℝ)‖ ≤ C := by
  rw [Matrix.l2_opNorm_diagonal]
  exact (pi_norm_le_iff_of_nonneg hC).mpr h

theorem onsite_norm {n : ℕ} (hf : Bool) (V V' : Fin n → Fin n → ℝ) : ‖onsiteU hf V' - onsiteU hf V‖ ≤ ∑ i, |V' i i - V i i| := by
  unfold onsiteU
  rw [← Finset.sum_sub_distrib]
  refine (norm_sum_le _ _).trans (Finset.sum_le_sum fun i _ => ?_)
  rw [← sub_smul, norm_smul, Real.norm_eq_abs]
  have k : ∀ o : Fin (n + n), ‖num ℝ o - (if hf then 1 / 2 else 0 : ℝ) • (1 : Matrix (Finset (Fin (n + n))) (Finset (Fin (n + n))) ℝ)‖ ≤ 1 := fun o => by
    rw [num_diagonal, ← Matrix.diagonal_one, ← Matrix.diagonal_smul, Matrix.diagonal_sub]
    refine diag_norm_le zero_le_one fun S => ?_
    simp only [Pi.smul_apply, Pi.one_apply, smul_eq_mul]
    cases hf <;> by_cases h : o ∈ S <;> simp [h] <;> norm_num [abs_le]
  refine mul_le_of_le_one_right (abs_nonneg _) ((norm_mul_le _ _).trans ?_)
  nlinarith [k (orb false i), k (orb true i), norm_nonneg (num ℝ (orb false i) - (if hf then 1 / 2 else 0 : ℝ) • (1 : Matrix (Finset (Fin (n + n))) (Finset (Fin (n + n))) ℝ)),
    norm_nonneg (num ℝ (orb true i) - (if hf then 1 / 2 else 0 : ℝ) • (1 : Matrix (Finset (Fin (n + n))) (Finset (Fin (n + n))) ℝ))]

theorem inter_norm {n : ℕ} (z : Fin n → ℝ) (V V' : Fin n → Fin n → ℝ) : ‖interSite z V' - interSite z V‖ ≤
    1 / 2 * ∑ i, ∑ j, if i ≠ j then |V' i j - V i j| * ((2 + |z i|) * (2 + |z j|)) else 0 := by
  unfold interSite
  rw [← smul_sub, norm_smul, ← Finset.sum_sub_distrib, Real.norm_eq_abs, abs_of_pos (by norm_num : (0 : ℝ) < 1 / 2)]
  refine mul_le_mul_of_nonneg_left ((norm_sum_le _ _).trans (Finset.sum_le_sum fun i _ => ?_)) (by norm_num)
  rw [← Finset.sum_sub_distrib]
  refine (norm_sum_le _ _).trans (Finset.sum_le_sum fun j _ => ?_)
  by_cases hij : i = j
  · rw [if_neg (not_not.mpr hij), if_neg (not_not.mpr hij), if_neg (not_not.mpr hij), sub_self, norm_zero]
  · rw [if_pos hij, if_pos hij, if_pos hij, ← sub_smul, norm_smul, Real.norm_eq_abs]
    have k : ∀ i : Fin n, ‖num ℝ (orb false i) + num ℝ (orb true i) - z i • (1 : Matrix (Finset (Fin (n + n))) (Finset (Fin (n + n))) ℝ)‖ ≤ 2 + |z i| := fun i => by
      refine (norm_sub_le _ _).trans (add_le_add ((norm_add_le _ _).trans ?_) ?_)
      · linarith [num_norm (orb false i), num_norm (orb true i)]
      · rw [← Matrix.diagonal_one, ← Matrix.diagonal_smul]
        exact diag_norm_le (abs_nonneg _) fun S => by simp
    exact mul_le_mul_of_nonneg_left ((norm_mul_le _ _).trans (mul_le_mul (k i) (k j) (norm_nonneg _) (by positivity))) (abs_nonneg _)

theorem intChange_nonneg (a : HamArgs) (V : ℕ → ℕ → ℝ) : 0 ≤ intChange a V := by
  unfold intChange
  refine add_nonneg (Finset.sum_nonneg fun i _ => abs_nonneg _) (mul_nonneg (by norm_num) (Finset.sum_nonneg fun i _ => Finset.sum_nonneg fun j _ => ?_))
  split_ifs <;> positivity

/-- The Hamiltonian of `withHU`, on the Fock space of `a`. -/
noncomputable def HamArgs.hamHU (a : HamArgs) (H : ℕ → ℕ → ℕ → ℝ) (V : ℕ → ℕ → ℝ) : Matrix (Finset (Fin (a.n + a.n))) (Finset (Fin (a.n + a.n))) ℝ := (withHU a H V).ham

theorem withHU_norm (H : ℕ → ℕ → ℕ → ℝ) (V : ℕ → ℕ → ℝ) : ‖a.hamHU H V - a.ham‖ ≤ hopChange a.n a.H H + intChange a V := by
  have e : a.hamHU H V - a.ham = (a.hamH H a.mu - a.ham) +
      ((onsiteU a.hf (fun i j : Fin a.n => V i j) - onsiteU a.hf (fun i j : Fin a.n => a.V.U.getD 0 i j)) +
        (interSite (fun i : Fin a.n => refOcc a i) (fun i j : Fin a.n => V i j) - interSite (fun i : Fin a.n => refOcc a i) (fun i j : Fin a.n => a.V.U.getD 0 i j))) := by
    have e' : ∀ K K' A B C A' B' : Matrix (Finset (Fin (a.n + a.n))) (Finset (Fin (a.n + a.n))) ℝ, K + A' + B' + C - (K' + A + B + C) = (K + A + B + C - (K' + A + B + C)) + ((A' - A) + (B' - B)) :=
      fun K K' A B C A' B' => by abel
    exact e' _ _ _ _ _ _ _
  rw [e]
  refine (norm_add_le _ _).trans (add_le_add (hamH_norm H) ((norm_add_le _ _).trans ?_))
  unfold intChange
  refine add_le_add ((onsite_norm _ _ _).trans (le_of_eq (Finset.sum_range fun i => |V i i - a.V.U.getD 0 i i|).symm)) ((inter_norm _ _ _).trans (le_of_eq ?_))
  congr 1
  rw [Finset.sum_range]
  refine Finset.sum_congr rfl fun i _ => ?_
  rw [Finset.sum_range]
  refine Finset.sum_congr rfl fun j _ => ?_
  exact if_congr (not_congr Fin.ext_iff) rfl rfl

theorem ham_symm (ha : a.Valid) : a.hamᵀ = a.ham := by
  obtain ⟨es, he⟩ := eigenEspace_exists ha
  let e : Finset (Fin (a.n + a.n)) ≃ EigIdx a.n := Fintype.equivOfCardEq he.basis.card.symm
  have hd := he.basis.diag e
  conv_rhs => rw [hd.diag]
  conv_lhs => rw [hd.diag]
  rw [Matrix.transpose_mul, Matrix.transpose_mul, Matrix.transpose_transpose, Matrix.diagonal_transpose, Matrix.mul_assoc]

theorem Spec.Gf2Run.green (ha : a.Valid) (hw : a.n ≤ w) {s : Bool} {i j : Fin a.n} {e eta : ℝ} (he : eta ≠ 0) {g : ℂ} (h : Gf2Run w a beta s i j e eta g) :
    IsGreen beta a.ham (ann ℝ (orb s i)) (cre ℝ (orb s j)) (e + Complex.I * eta) g := by
  obtain ⟨es1, E1, junk, egs, G, hb, hG, e1⟩ := h
  obtain ⟨G', h1, h2⟩ := C93_gf2_exact (junk := junk) (beta := beta) (egs := egs) ha.le (buildEspace_eigen ha hw hb) s
  rw [hG] at h1
  obtain rfl := Except.ok.inj h1
  exact (h2 i j e eta he _).mpr e1

theorem Spec.GfRun.green (ha : a.Valid) (hw : a.n ≤ w) {pos : Fin a.n} {e eta : ℝ} (he : eta ≠ 0) {g : ℂ} (h : GfRun w a beta pos e eta g) :
    IsGreen beta a.ham (ann ℝ (orb false pos)) (cre ℝ (orb false pos)) (e + Complex.I * eta) g := by
  obtain ⟨es1, E1, junk, egs, G, hb, hG, e1⟩ := h
  obtain ⟨G', h1, h2⟩ := C92_gf_exact (junk := junk) (beta := beta) (egs := egs) ha.le (buildEspace_eigen ha hw hb) pos.2
  rw [hG] at h1
  obtain rfl := Except.ok.inj h1
  exact (h2 e eta he _).mpr e1

theorem Spec.Gf2Run.exists (ha : a.Valid) (hw : a.n ≤ w) (beta : ℝ) (s : Bool) (i j : Fin a.n) (e eta : ℝ) : ∃ g, Gf2Run w a beta s i j e eta g := by
  obtain ⟨⟨es, E⟩, hb⟩ := (buildEspace_none_ok ha hw).1
  obtain ⟨G, h1, -⟩ := C93_gf2_exact (junk := 0) (beta := beta) (egs := 0) ha.le (buildEspace_eigen ha hw hb) s
  exact ⟨_, es, E, _, _, G, hb, h1, rfl⟩

/-- Green functions of two symmetric Hamiltonians on the Fock space. -/
theorem green_stable {n : ℕ} {A B : Matrix (Finset (Fin (n + n))) (Finset (Fin (n + n))) ℝ} (hA : Aᵀ = A) (hB : Bᵀ = B) {δ : ℝ} (hb : 0 ≤ beta) (hV : ‖B - A‖ ≤ δ) (o o' : Fin (n + n))
    {e eta : ℝ} (he : eta ≠ 0) {g g' : ℂ} (hg : IsGreen beta A (ann ℝ o) (cre ℝ o') (e + Complex.I * eta) g) (hg' : IsGreen beta B (ann ℝ o) (cre ℝ o') (e + Complex.I * eta) g') :
    ‖g' - g‖ ≤ greenBound beta δ eta := by
  obtain ⟨u, E, hu⟩ := EigBasis.of_symm hA
  obtain ⟨v, F, hv⟩ := EigBasis.of_symm hB
  have him : ((e : ℂ) + Complex.I * eta).im = eta := by simp
  have := green_pert hu hv hA hB hb ((norm_nonneg _).trans hV) hV (ann_norm o).1 (ann_norm o').2 (by rw [him]; exact he) hg hg'
  rw [him] at this
  exact this

/-! ## C154 -/

/-- **C154** (Green functions) If the levels, the kept hopping elements and the interaction change by `δ` in total, every Green function changes by at
most `4 δ / eta^2 + 2 avgBound (beta δ) / |eta|` at distance `eta` from the real axis, whatever the number of sites and the size of the interactions. -/
theorem C154_green {H : ℕ → ℕ → ℕ → ℝ} {V : ℕ → ℕ → ℝ} (ha : a.Valid) (ha' : (withHU a H V).Valid) (hw : a.n ≤ w) (hb : 0 ≤ beta) {e eta : ℝ} (he : eta ≠ 0) :
    (∀ s (i j : Fin a.n) g g', Gf2Run w a beta s i j e eta g → Gf2Run w (withHU a H V) beta s i j e eta g' → ‖g' - g‖ ≤ greenBound beta (hopChange a.n a.H H + intChange a V) eta) ∧
    ∀ (k : Fin a.n) g g', GfRun w a beta k e eta g → GfRun w (withHU a H V) beta k e eta g' → ‖g' - g‖ ≤ greenBound beta (hopChange a.n a.H H + intChange a V) eta := by
  have hn := withHU_norm (a := a) H V
  constructor
  · intro s i j g g' h h'
    exact green_stable (B := a.hamHU H V) (ham_symm ha) (ham_symm ha') hb hn _ _ he (h.green ha hw he) (Spec.Gf2Run.green (a := withHU a H V) ha' hw he h')
  · intro k g g' h h'
    exact green_stable (B := a.hamHU H V) (ham_symm ha) (ham_symm ha') hb hn _ _ he (h.green ha hw he) (Spec.GfRun.green (a := withHU a H V) ha' hw (pos := k) he h')

/-- **C154** (cutoff) The Green functions of the code differ from those of the Hamiltonian without the cutoff of small hopping elements by at most the same
bound with the sum of the dropped elements. -/
theorem C154_cutoff (ha : a.Valid) (hw : a.n ≤ w) (hb : 0 ≤ beta) {e eta : ℝ} (he : eta ≠ 0) (s : Bool) (i j : Fin a.n) {g g' : ℂ} (hg : Gf2Run w a beta s i j e eta g)
    (hg' : IsGreen beta (exactHam a) (ann ℝ (orb s i)) (cre ℝ (orb s j)) (e + Complex.I * eta) g') : ‖g' - g‖ ≤ greenBound beta (hopDropped a.n a.H) eta :=
  green_stable (ham_symm ha) (exactHam_symm ha) hb (exactHam_norm a) _ _ he (hg.green ha hw he) hg'

/-- **C154** (interaction) Ground state energy, free energy and occupations are stable against changes of the levels, the hopping and the interaction. -/
theorem C154_stable {H : ℕ → ℕ → ℕ → ℝ} {V : ℕ → ℕ → ℝ} (ha : a.Valid) (ha' : (withHU a H V).Valid) (hw : a.n ≤ w) :
    (∀ es es' E E', BuildEspace w a none (.ok (es, ((E : ℝ) : WithTop ℝ))) → BuildEspace w (withHU a H V) none (.ok (es', ((E' : ℝ) : WithTop ℝ))) → |E' - E| ≤ hopChange a.n a.H H + intChange a V) ∧
    ∀ beta es es' U D U' D', 0 < beta → OccRun w a beta es U D → OccRun w (withHU a H V) beta es' U' D' →
      |freeEnergy beta es' - freeEnergy beta es| ≤ hopChange a.n a.H H + intChange a V ∧
      ∀ k < a.n, |U' k - U k| ≤ avgBound (beta * (hopChange a.n a.H H + intChange a V)) ∧ |D' k - D k| ≤ avgBound (beta * (hopChange a.n a.H H + intChange a V)) := by
  have hn := withHU_norm (a := a) H V
  have h0 : 0 ≤ hopChange a.n a.H H + intChange a V := add_nonneg (hopChange_nonneg _ _ _) (intChange_nonneg _ _)
  constructor
  · intro es es' E E' h h'
    have g := C127_variational ha hw h
    have g' : IsGround (a.hamHU H V) E' := C127_variational (a := withHU a H V) ha' hw h'
    exact IsGround.pert g g' hn
  · intro beta es es' U D U' D' hb h h'
    obtain ⟨e, hU⟩ := h.eigen ha hw
    obtain ⟨e', hU'⟩ : EigenEspace a.n (a.hamHU H V) es' ∧ _ := OccRun.eigen (a := withHU a H V) ha' hw h'
    constructor
    · rw [freeEnergy_eq e.toCompleteEspace, freeEnergy_eq e'.toCompleteEspace, ← sub_div, abs_div, abs_of_pos hb, div_le_iff₀ hb, abs_le]
      have l1 := pert_log e.basis e'.basis hb.le hn
      have l2 := pert_log e'.basis e.basis hb.le (δ := hopChange a.n a.H H + intChange a V) (by rw [← norm_neg, neg_sub]; exact hn)
      constructor <;> linarith
    · intro k hk
      have key : ∀ (s : Bool) {x x' : ℝ}, (x : ℂ) = thermalOcc beta a.ham s ⟨k, hk⟩ → (x' : ℂ) = thermalOcc beta (a.hamHU H V) s ⟨k, hk⟩ →
          |x' - x| ≤ avgBound (beta * (hopChange a.n a.H H + intChange a V)) := by
        intro s x x' hx hx'
        have h1 := e.basis.thermal beta (num ℝ (orb s ⟨k, hk⟩))
        have h2 := e'.basis.thermal beta (num ℝ (orb s ⟨k, hk⟩))
        unfold thermalOcc at hx hx'
        rw [h1] at hx
        rw [h2] at hx'
        rw [Complex.ofReal_inj.mp hx, Complex.ofReal_inj.mp hx', abs_sub_comm]
        exact pert_avg e.basis e'.basis hb.le h0 hn (num_norm _)
      exact ⟨key false (hU ⟨k, hk⟩).1 (hU' ⟨k, hk⟩).1, key true (hU ⟨k, hk⟩).2 (hU' ⟨k, hk⟩).2⟩

/-- Non-vacuity: two sites; the on-site repulsion changes from 2 to 2.001 on both, and the Green function at distance one from the axis by less than `0.04`. -/
example : ∃ g g', Gf2Run 64 weakArgs 1 false (⟨0, by norm_num [weakArgs]⟩ : Fin weakArgs.n) (⟨0, by norm_num [weakArgs]⟩ : Fin weakArgs.n) 0 1 g ∧
    Gf2Run 64 (withHU weakArgs weakArgs.H fun i j => if i = j then 2001 / 1000 else 0) 1 false (⟨0, by norm_num [weakArgs, withHU]⟩ : Fin weakArgs.n) (⟨0, by norm_num [weakArgs, withHU]⟩ : Fin weakArgs.n) 0 1 g' ∧
    ‖g' - g‖ ≤ 4 / 100 := by
  have hw : weakArgs.n ≤ 64 := by norm_num [weakArgs]
  have hv : (withHU weakArgs weakArgs.H fun i j => if i = j then 2001 / 1000 else 0).Valid :=
    ⟨weakArgs_valid.two_le, weakArgs_valid.le, rfl, weakArgs_valid.symmH, weakArgs_valid.symmX, weakArgs_valid.symmP, weakArgs_valid.hJ⟩
  obtain ⟨g, h⟩ := Spec.Gf2Run.exists weakArgs_valid hw 1 false ⟨0, by norm_num [weakArgs]⟩ ⟨0, by norm_num [weakArgs]⟩ 0 1
  obtain ⟨g', h'⟩ := Spec.Gf2Run.exists hv hw 1 false ⟨0, by norm_num [weakArgs, withHU]⟩ ⟨0, by norm_num [weakArgs, withHU]⟩ 0 1
  refine ⟨g, g', h, h', ((C154_green weakArgs_valid hv hw zero_le_one one_ne_zero).1 _ _ _ _ _ h h').trans ?_⟩
  have e1 : hopChange weakArgs.n weakArgs.H weakArgs.H = 0 := by
    unfold hopChange
    simp
  have e2 : intChange weakArgs (fun i j => if i = j then 2001 / 1000 else 0) = 2 / 1000 := by
    unfold intChange
    simp only [weakArgs, VArg.array, Option.getD_some, Finset.sum_range_succ, Finset.sum_range_zero]
    norm_num [abs_of_pos]
  rw [e1, e2, zero_add]
  unfold greenBound
  have := avgBound_le (x := 1 * (2 / 1000)) (by norm_num) (by norm_num)
  rw [one_pow, abs_one, div_one, div_one]
  linarith

end Edpyt
