import Verif.Model.NanoOcc
import Verif.Props.Nano
import Verif.Props.MatsumError
import Verif.Props.CoAmplitude
import Mathlib.Topology.Instances.Matrix
import Mathlib.Topology.Order.IntermediateValue
/-!
Properties C121 and C122: occupations of the nano lattice and the adjustment of the chemical potential.
-/
namespace Edpyt
open Spec Matrix
variable {n : ℕ}

/-- An orthonormal basis of eigenvectors of a Hermitian matrix. -/
structure HermBasis (H : Matrix (Fin n) (Fin n) ℂ) (u : Fin n → Fin n → ℂ) (E : Fin n → ℝ) : Prop where
  eig : ∀ k, H *ᵥ u k = (E k : ℂ) • u k
  orth : ∀ k l, star (u k) ⬝ᵥ u l = if k = l then 1 else 0

/-- The electrons of one spin on site `i` of independent electrons at inverse temperature `beta` and chemical potential `mu`. -/
noncomputable def siteOcc (beta : ℝ) (u : Fin n → Fin n → ℂ) (E : Fin n → ℝ) (i : Fin n) (mu : ℝ) : ℝ :=
  ∑ k, Complex.normSq (u k i) * fermiOcc beta (E k - mu)

theorem HermBasis.complete {H : Matrix (Fin n) (Fin n) ℂ} {u : Fin n → Fin n → ℂ} {E : Fin n → ℝ} (h : HermBasis H u E) (i j : Fin n) :
    ∑ k, star (u k i) * u k j = if j = i then 1 else 0 := by
  have h1 : (Matrix.of fun k i => star (u k i)) * (Matrix.of fun k i => u k i)ᵀ = 1 := by
    ext k l
    rw [Matrix.mul_apply, Matrix.one_apply, ← h.orth k l]
    rfl
  have h2 := mul_eq_one_comm.mp h1
  have h3 := congrFun (congrFun h2 j) i
  rw [Matrix.mul_apply, Matrix.one_apply] at h3
  rw [← h3]
  exact Finset.sum_congr rfl fun k _ => mul_comm _ _

theorem HermBasis.weights {H : Matrix (Fin n) (Fin n) ℂ} {u : Fin n → Fin n → ℂ} {E : Fin n → ℝ} (h : HermBasis H u E) (i : Fin n) :
    ∑ k, Complex.normSq (u k i) = 1 := by
  have h1 := h.complete i i
  rw [if_pos rfl] at h1
  have : ((∑ k, Complex.normSq (u k i) : ℝ) : ℂ) = 1 := by
    rw [← h1]
    push_cast
    exact Finset.sum_congr rfl fun k _ => by rw [Complex.normSq_eq_conj_mul_self]; rfl
  exact_mod_cast this

/-- The local Green function of independent electrons is a sum over levels. -/
theorem HermBasis.localGf {H : Matrix (Fin n) (Fin n) ℂ} {u : Fin n → Fin n → ℂ} {E : Fin n → ℝ} (h : HermBasis H u E) {mu : ℝ} {z : ℂ} (hz : z.im ≠ 0) (i : Fin n) :
    IsLocalGf (dysonMat H 1 0 (fun _ => 0) mu z) i (∑ k, ((Complex.normSq (u k i) : ℝ) : ℂ) / (z + mu - E k)) := by
  have hne : ∀ k, z + mu - (E k : ℂ) ≠ 0 := fun k hk => by
    have := congrArg Complex.im hk
    simp at this
    exact hz this
  refine ⟨∑ k, (star (u k i) / (z + mu - E k)) • u k, ?_, ?_⟩
  · rw [Matrix.mulVec_sum]
    have : ∀ k, dysonMat H 1 0 (fun _ => 0) mu z *ᵥ ((star (u k i) / (z + mu - E k)) • u k) = star (u k i) • u k := fun k => by
      unfold dysonMat
      rw [Matrix.mulVec_smul, Matrix.sub_mulVec, Matrix.sub_mulVec, Matrix.sub_mulVec, Matrix.smul_mulVec, Matrix.one_mulVec, h.eig, Matrix.zero_mulVec, Matrix.diagonal_zero,
        Matrix.zero_mulVec, sub_zero, sub_zero, ← sub_smul, smul_smul, div_mul_cancel₀ _ (hne k)]
    rw [Finset.sum_congr rfl fun k _ => this k]
    funext j
    rw [Finset.sum_apply, Pi.single_apply, ← h.complete i j]
    rfl
  · rw [Finset.sum_apply]
    refine Finset.sum_congr rfl fun k _ => ?_
    rw [Pi.smul_apply, smul_eq_mul, Complex.normSq_eq_conj_mul_self, div_mul_eq_mul_div]
    rfl

/-- The frequencies of `matsum_gf` with its defaults. -/
noncomputable def occFreqs : List ℂ := (List.range 3000).map (msZ 70)

theorem occFreqs_get {c : ℕ} (hc : c < 3000) : occFreqs[c]?.getD 0 = msZ 70 c := by
  simp [occFreqs, hc]

theorem occFreqs_length : occFreqs.length = 3000 := by simp [occFreqs]

theorem msZ_im_pos {beta : ℝ} (hb : 0 < beta) (i : ℕ) : 0 < (msZ beta i).im := by
  rw [msZ_eq]
  simpa using msW_pos hb i

theorem msSum_congr {N : ℕ} (beta : ℝ) {g g' : ℕ → ℂ} (h : ∀ i < N, g i = g' i) (hN : 0 < N) : msSum N beta g = msSum N beta g' := by
  unfold msSum
  have h1 : g (N - 1) = g' (N - 1) := h _ (by omega)
  rw [h1]
  have : ∀ (l : List ℕ), (∀ i ∈ l, i < N) → ∀ (F : ℕ → ℂ) (s : ℝ), l.foldl (fun s i => s + (g i - F i).re) s = l.foldl (fun s i => s + (g' i - F i).re) s := by
    intro l
    induction l with
    | nil => intro _ _ _; rfl
    | cons i l ih =>
      intro hl F s
      rw [List.foldl_cons, List.foldl_cons, h i (hl i (by simp)), ih fun j hj => hl j (by simp [hj])]
  simp only
  rw [this (List.range N) (fun i hi => List.mem_range.mp hi)]

/-- The values that `occRow` sums. -/
theorem occRow_eq (g : NanoLoc n) {m : ℕ} (hg : g.WF m) (hm : ∀ i ∈ g.idxNeq, i < m) (hm2 : 2 ≤ m) (Sigma : List ℂ → ℕ → ℕ → ℂ) (junk : ℕ → ℕ → ℂ) (mu : ℝ)
    (hdet : ∀ c < 3000, (NanoLoc.dyson { g with mu := mu } (fun r => Sigma occFreqs r c) (msZ 70 c)).det ≠ 0) {u : ℕ} (hu : u < m) :
    g.occRow m Sigma junk mu u = .ok (msSum 3000 70 fun c => diagInv (NanoLoc.dyson { g with mu := mu } (fun r => Sigma occFreqs r c) (msZ 70 c)) (g.idxNeq[u]?.getD 0)) := by
  obtain ⟨G, h1, h2⟩ := call_eq { g with mu := mu } hg.invLen hg.inv hg.neq hm (Sigma occFreqs) occFreqs (by rw [Ne, ← List.length_eq_zero_iff, occFreqs_length]; norm_num)
    (Or.inl hm2) junk (fun c hc => by
      rw [occFreqs_length] at hc
      rw [occFreqs_get hc]
      exact hdet c hc)
  unfold NanoLoc.occRow matsumGf
  simp only
  have h1' : NanoLoc.call { g with mu := mu } m (Sigma ((List.range 3000).map (msZ 70))) ((List.range 3000).map (msZ 70)) junk = .ok G := h1
  rw [h1']
  simp only [Except.map, if_neg (show ¬ (3000 = 0) by norm_num)]
  rw [msSum_congr 70 (fun i hi => ?_) (by norm_num)]
  have hu' : u < ({ g with mu := mu } : NanoLoc n).idxNeq.length := by
    rw [show ({ g with mu := mu } : NanoLoc n).idxNeq.length = m from hg.neqLen]
    exact hu
  rw [h2 u hu' i (by rw [occFreqs_length]; exact hi), occFreqs_get hi]

theorem integrate_eq (g : NanoLoc n) {m : ℕ} (hg : g.WF m) (hm : ∀ i ∈ g.idxNeq, i < m) (hm2 : 2 ≤ m) (Sigma : List ℂ → ℕ → ℕ → ℂ) (junk : ℕ → ℕ → ℂ) (mu : ℝ)
    (hdet : ∀ c < 3000, (NanoLoc.dyson { g with mu := mu } (fun r => Sigma occFreqs r c) (msZ 70 c)).det ≠ 0) :
    g.integrate m Sigma junk mu = .ok (g.idxInv.map fun r => 2 * msSum 3000 70 fun c =>
      diagInv (NanoLoc.dyson { g with mu := mu } (fun r => Sigma occFreqs r c) (msZ 70 c)) (g.idxNeq[r]?.getD 0)) := by
  unfold NanoLoc.integrate
  rw [hg.neqLen, mapM_ok_of _ _ _ (fun u hu => occRow_eq g hg hm hm2 Sigma junk mu hdet (List.mem_range.mp hu))]
  refine mapM_ok_of _ _ _ fun r hr => ?_
  simp [hg.inv r hr]

/-- The representative of site `i`. -/
def NanoLoc.WF.rep {g : NanoLoc n} {m : ℕ} (hg : g.WF m) (i : Fin n) : Fin n :=
  ⟨g.idxNeq[g.idxInv[(i : ℕ)]'(by rw [hg.invLen]; exact i.2)]'(by rw [hg.neqLen]; exact hg.inv _ (List.getElem_mem _)), hg.neq _ (List.getElem_mem _)⟩

theorem NanoLoc.Causal.setMu {g : NanoLoc n} {sig : ℕ → ℂ} {z : ℂ} (h : g.Causal sig z) (mu : ℝ) : NanoLoc.Causal { g with mu := mu } sig z :=
  ⟨h.herm, h.overlap, h.hybrid, h.sigma, h.upper⟩

/-- **C121** (any self-energy) For every causal lattice with at least two inequivalent sites whose representatives come first, `integrate(mu)` returns one number for each site:
if the local Green function of the representative at the chemical potential `mu` has levels `e` with weights `a` of sum one, that number is twice the Fermi occupation of those
levels at inverse temperature 70, up to the error of the sum over 3000 frequencies. -/
theorem C121_integrate (g : NanoLoc n) {m : ℕ} (hg : g.WF m) (hm : ∀ i ∈ g.idxNeq, i < m) (hm2 : 2 ≤ m) (Sigma : List ℂ → ℕ → ℕ → ℂ) (junk : ℕ → ℕ → ℂ) (mu : ℝ)
    (hc : ∀ c < 3000, g.Causal (fun r => Sigma occFreqs r c) (msZ 70 c)) :
    ∃ L, g.integrate m Sigma junk mu = .ok L ∧ L.length = n ∧ ∀ (i : Fin n) (κ : Type) [Fintype κ] (a e : κ → ℝ), ∑ j, a j = 1 →
      (∀ c < 3000, IsLocalGf (dysonMat g.H g.S (g.Hybrid (msZ 70 c)) (fun j => Sigma occFreqs (g.idxInv[(j : ℕ)]'(by rw [hg.invLen]; exact j.2)) c) mu (msZ 70 c)) (hg.rep i)
        (∑ j, (a j : ℂ) / (msZ 70 c - (e j : ℂ)))) →
      |L[(i : ℕ)]?.getD 0 - 2 * ∑ j, a j * fermiOcc 70 (e j)| ≤ 2 * matsumErr 70 (∑ j, |a j| * |e j|) (∑ j, |a j| * |e j| ^ 3) 3000 := by
  have hdet : ∀ c < 3000, (NanoLoc.dyson { g with mu := mu } (fun r => Sigma occFreqs r c) (msZ 70 c)).det ≠ 0 := fun c h => C104_nonsingular ((hc c h).setMu mu)
  refine ⟨_, integrate_eq g hg hm hm2 Sigma junk mu hdet, by rw [List.length_map, hg.invLen], fun i κ _ a e ha hs => ?_⟩
  have hi : (i : ℕ) < g.idxInv.length := by rw [hg.invLen]; exact i.2
  rw [List.getElem?_map, List.getElem?_eq_getElem hi, Option.map_some, Option.getD_some, ← mul_sub, abs_mul, abs_of_pos (by norm_num : (0 : ℝ) < 2)]
  refine mul_le_mul_of_nonneg_left ?_ (by norm_num)
  have hr : g.idxInv[(i : ℕ)] < g.idxNeq.length := by rw [hg.neqLen]; exact hg.inv _ (List.getElem_mem _)
  rw [List.getElem?_eq_getElem hr, Option.getD_some]
  rw [msSum_congr 70 (g' := fun c => ∑ j, (a j : ℂ) / (msZ 70 c + ((0 : ℝ) : ℂ) - (e j : ℂ))) (fun c h => ?_) (by norm_num)]
  · simpa using C85_matsum_error a e ha 0 70 (by norm_num) (by norm_num : 0 < 3000) fun _ => rfl
  · have h1 := (diagInv_spec (hdet c h) (hg.rep i).2 _).mp (by
      have := hs c h
      unfold NanoLoc.dyson
      convert this using 2
      funext j
      have hj : (j : ℕ) < g.idxInv.length := by rw [hg.invLen]; exact j.2
      simp [List.getElem?_eq_getElem hj])
    simp only [Complex.ofReal_zero, add_zero]
    exact h1.symm

theorem matsumErr_default {B : ℝ} (hB : 0 ≤ B) : matsumErr 70 B (B ^ 3) 3000 ≤ 1 / 10 ^ 7 * B ^ 3 := by
  have hpi := Real.pi_gt_three
  have h9 : 9 ≤ Real.pi ^ 2 := by nlinarith
  have hW : 66000 ≤ msW 70 (3000 - 1) ^ 2 := by
    unfold msW
    norm_num
    rw [div_pow, mul_pow]
    rw [le_div_iff₀ (by norm_num)]
    nlinarith
  unfold matsumErr
  have h1 : (70 : ℝ) / (2 * Real.pi ^ 2 * (3000 : ℕ)) ≤ 70 / (2 * 9 * 3000) := by
    push_cast
    gcongr
  have hB3 : 0 ≤ B ^ 3 := by positivity
  calc 70 / (2 * Real.pi ^ 2 * (3000 : ℕ)) * (2 * B ^ 3 + B ^ 3) / msW 70 (3000 - 1) ^ 2 ≤ 70 / (2 * 9 * 3000) * (2 * B ^ 3 + B ^ 3) / 66000 := by gcongr
    _ ≤ 1 / 10 ^ 7 * B ^ 3 := by nlinarith

/-- **C121** (independent electrons) Without interaction and leads, `integrate(mu)` is, for every Hermitian Hamiltonian and every chemical potential, the number of electrons of both
spins on the representative of each site at inverse temperature 70, up to `2e-7` times the third power of the distance of the levels from `mu`. -/
theorem C121_free (g : NanoLoc n) {m : ℕ} (hg : g.WF m) (hm : ∀ i ∈ g.idxNeq, i < m) (hm2 : 2 ≤ m) (hherm : g.H.conjTranspose = g.H) (hS : g.S = 1) (hhyb : ∀ z, g.Hybrid z = 0)
    (junk : ℕ → ℕ → ℂ) {u : Fin n → Fin n → ℂ} {E : Fin n → ℝ} (hE : HermBasis g.H u E) (mu : ℝ) {B : ℝ} (hB : ∀ k, |E k - mu| ≤ B) :
    ∃ L, g.integrate m (fun _ _ _ => 0) junk mu = .ok L ∧ L.length = n ∧ ∀ i : Fin n, |L[(i : ℕ)]?.getD 0 - 2 * siteOcc 70 u E (hg.rep i) mu| ≤ 2 / 10 ^ 7 * B ^ 3 := by
  have hn : 0 < n := by
    rcases Nat.eq_zero_or_pos n with rfl | h
    · have h1 := hg.neqLen
      have h2 : g.idxNeq[0]'(by omega) < 0 := hg.neq _ (List.getElem_mem _)
      omega
    · exact h
  have hB0 : 0 ≤ B := (abs_nonneg _).trans (hB ⟨0, hn⟩)
  have hc : ∀ c < 3000, g.Causal (fun _ => (0 : ℂ)) (msZ 70 c) := fun c _ =>
    ⟨hherm, by rw [hS]; exact fun v => one_overlap v, by rw [hhyb]; exact fun v => by simp, by simp, msZ_im_pos (by norm_num) c⟩
  obtain ⟨L, h1, h2, h3⟩ := C121_integrate g hg hm hm2 (fun _ _ _ => 0) junk mu hc
  refine ⟨L, h1, h2, fun i => ?_⟩
  have h4 := h3 i (Fin n) (fun k => Complex.normSq (u k (hg.rep i))) (fun k => E k - mu) (hE.weights _) fun c _ => by
    have := hE.localGf (mu := mu) (msZ_im_pos (by norm_num : (0 : ℝ) < 70) c).ne' (hg.rep i)
    rw [hS, hhyb]
    convert this using 3
    push_cast
    ring
  refine h4.trans ?_
  have hw : ∀ p : ℕ, ∑ k, |Complex.normSq (u k (hg.rep i))| * |E k - mu| ^ p ≤ B ^ p := fun p => by
    calc _ ≤ ∑ k, Complex.normSq (u k (hg.rep i)) * B ^ p := Finset.sum_le_sum fun k _ => by
          rw [abs_of_nonneg (Complex.normSq_nonneg _)]
          exact mul_le_mul_of_nonneg_left (pow_le_pow_left₀ (abs_nonneg _) (hB k) p) (Complex.normSq_nonneg _)
      _ = B ^ p := by rw [← Finset.sum_mul, hE.weights, one_mul]
  have hw1 := hw 1
  simp only [pow_one] at hw1
  have h5 := matsumErr_mono (beta := 70) (by norm_num) (Finset.sum_nonneg fun k _ => by positivity) hw1 (hw 3) 3000
  have h6 := matsumErr_default hB0
  linarith

theorem fermiOcc_continuous (beta : ℝ) : Continuous (fermiOcc beta) := by
  unfold fermiOcc
  exact continuous_const.div (by fun_prop) fun x => by positivity

theorem continuous_msSum {N : ℕ} (hN : 0 < N) {beta : ℝ} (hb : 0 < beta) {F : ℝ → ℕ → ℂ} (hF : ∀ c < N, Continuous fun x => F x c) : Continuous fun x => msSum N beta (F x) := by
  simp only [msSum_eq hb]
  have hre : ∀ c < N, Continuous fun x => (F x c).re := fun c hc => Complex.continuous_re.comp (hF c hc)
  have hm : Continuous fun x => -(F x (N - 1)).re * msW beta (N - 1) ^ 2 := ((hre (N - 1) (by omega)).neg).mul continuous_const
  refine ((fermiOcc_continuous beta).comp hm).add (continuous_const.mul (continuous_finsetSum _ fun i hi => (hre i (Finset.mem_range.mp hi)).add ?_))
  refine hm.div (continuous_const.add (hm.pow 2)) fun x => ?_
  have := msW_pos hb i
  positivity

theorem continuous_diagInv {X : ℝ → Matrix (Fin n) (Fin n) ℂ} (hX : Continuous X) (hdet : ∀ x, (X x).det ≠ 0) (i : ℕ) : Continuous fun x => diagInv (X x) i := by
  unfold diagInv
  by_cases h : i < n
  · simp only [dif_pos h, Matrix.inv_def, Ring.inverse_eq_inv', Matrix.smul_apply, smul_eq_mul]
    refine (hX.matrix_det.inv₀ hdet).mul ?_
    exact (hX.matrix_adjugate.matrix_elem _ _)
  · simp only [dif_neg h]
    exact continuous_const

theorem continuous_dyson (g : NanoLoc n) (sig : ℕ → ℂ) (z : ℂ) : Continuous fun mu : ℝ => NanoLoc.dyson { g with mu := mu } sig z := by
  unfold NanoLoc.dyson dysonMat
  simp only
  fun_prop

/-- The contract of the root finder can be met. -/
theorem Brentq.total (f : ℝ → ℝ) {lo hi : ℝ} (h : lo ≤ hi) : ∃ r, Brentq f lo hi r := by
  unfold Brentq
  split_ifs with hs
  · exact ⟨_, rfl⟩
  · by_cases hc : ContinuousOn f (Set.Icc lo hi)
    · obtain ⟨x, hx, h0⟩ : ∃ x ∈ Set.Icc lo hi, f x = 0 := by
        rcases le_or_gt (f lo) 0 with h1 | h1
        · rcases le_or_gt 0 (f hi) with h2 | h2
          · exact intermediate_value_Icc h hc ⟨h1, h2⟩
          · rcases h1.lt_or_eq with h1 | h1
            · exact absurd (mul_pos_of_neg_of_neg h1 h2) hs
            · exact ⟨lo, ⟨le_rfl, h⟩, h1⟩
        · rcases le_or_gt (f hi) 0 with h2 | h2
          · exact intermediate_value_Icc' h hc ⟨h2, h1.le⟩
          · exact absurd (mul_pos h1 h2) hs
      exact ⟨_, x, rfl, hx.1, hx.2, fun _ => ⟨x, hx.1, hx.2, h0, by rw [sub_self, abs_zero]; positivity⟩⟩
    · exact ⟨_, lo, rfl, le_rfl, h, fun h => absurd h hc⟩

/-- **C122** (any self-energy) For every causal lattice with at least two inequivalent sites whose representatives come first, `adjust_mu(gfloc, occupancy_goal)` either raises a
`ValueError`, exactly if the occupations at `-20` and `20` lie on the same side of the goal, or returns a chemical potential within the tolerance of the root finder of one at which
the occupations returned by `integrate` add up to the goal. -/
theorem C122_adjust_mu (g : NanoLoc n) {m : ℕ} (hg : g.WF m) (hm : ∀ i ∈ g.idxNeq, i < m) (hm2 : 2 ≤ m) (Sigma : List ℂ → ℕ → ℕ → ℂ) (junk : ℕ → ℕ → ℂ)
    (hc : ∀ c < 3000, g.Causal (fun r => Sigma occFreqs r c) (msZ 70 c)) (goal : List ℝ) :
    ∃ N : ℝ → List ℝ, (∀ mu, g.integrate m Sigma junk mu = .ok (N mu)) ∧ (∃ r, AdjustMu (g.integrate m Sigma junk) goal r) ∧
      ∀ r, AdjustMu (g.integrate m Sigma junk) goal r →
        (0 < ((N (-20)).sum - goal.sum) * ((N 20).sum - goal.sum) ∧ r = .error .valueError) ∨
        (((N (-20)).sum - goal.sum) * ((N 20).sum - goal.sum) ≤ 0 ∧ ∃ x x0, r = .ok x ∧ -20 ≤ x ∧ x ≤ 20 ∧ -20 ≤ x0 ∧ x0 ≤ 20 ∧
          |x - x0| ≤ 1 / 10 ^ 11 ∧ (N x0).sum = goal.sum) := by
  have hdet : ∀ mu : ℝ, ∀ c < 3000, (NanoLoc.dyson { g with mu := mu } (fun r => Sigma occFreqs r c) (msZ 70 c)).det ≠ 0 := fun mu c h => C104_nonsingular ((hc c h).setMu mu)
  have hN := fun mu => integrate_eq g hg hm hm2 Sigma junk mu (hdet mu)
  refine ⟨_, hN, ?_, ?_⟩
  · obtain ⟨r, hr⟩ := Brentq.total (fun mu => ((g.idxInv.map fun r => 2 * msSum 3000 70 fun c =>
      diagInv (NanoLoc.dyson { g with mu := mu } (fun r => Sigma occFreqs r c) (msZ 70 c)) (g.idxNeq[r]?.getD 0)).sum - goal.sum)) (show (-20 : ℝ) ≤ 20 by norm_num)
    exact ⟨r, Or.inr ⟨_, fun mu l _ _ h => by rw [hN mu] at h; exact Except.ok.inj h, hr⟩⟩
  rintro r (⟨mu, e, -, -, h, -⟩ | ⟨M, hM, hr⟩)
  · rw [hN mu] at h
    cases h
  set F : ℝ → ℝ := fun mu => ((g.idxInv.map fun r => 2 * msSum 3000 70 fun c =>
      diagInv (NanoLoc.dyson { g with mu := mu } (fun r => Sigma occFreqs r c) (msZ 70 c)) (g.idxNeq[r]?.getD 0)).sum - goal.sum) with hF
  have hMF : ∀ mu, -20 ≤ mu → mu ≤ 20 → (M mu).sum - goal.sum = F mu := fun mu h1 h2 => by rw [hM mu _ h1 h2 (hN mu)]
  have hcont : Continuous F := by
    refine Continuous.sub ?_ continuous_const
    have : ∀ l : List ℕ, Continuous fun mu : ℝ => (l.map fun r => 2 * msSum 3000 70 fun c =>
        diagInv (NanoLoc.dyson { g with mu := mu } (fun r => Sigma occFreqs r c) (msZ 70 c)) (g.idxNeq[r]?.getD 0)).sum := by
      intro l
      induction l with
      | nil => exact continuous_const
      | cons r l ih =>
        simp only [List.map_cons, List.sum_cons]
        refine Continuous.add (continuous_const.mul (continuous_msSum (by norm_num) (by norm_num) fun c hc' => ?_)) ih
        exact continuous_diagInv (continuous_dyson g _ _) (fun mu => hdet mu c hc') _
    exact this g.idxInv
  have hcM : ContinuousOn (fun mu => (M mu).sum - goal.sum) (Set.Icc (-20) 20) := hcont.continuousOn.congr fun mu h => hMF mu h.1 h.2
  unfold Brentq at hr
  simp only [hMF (-20) le_rfl (by norm_num), hMF 20 (by norm_num) le_rfl] at hr
  by_cases hs : 0 < F (-20) * F 20
  · rw [if_pos hs] at hr
    exact Or.inl ⟨hs, hr⟩
  · rw [if_neg hs] at hr
    obtain ⟨x, rfl, h1, h2, h3⟩ := hr
    obtain ⟨x0, h4, h5, h6, h7⟩ := h3 hcM
    refine Or.inr ⟨not_lt.mp hs, x, x0, rfl, h1, h2, h4, h5, h7.trans ?_, ?_⟩
    · have : |x0| ≤ 20 := abs_le.mpr ⟨h4, h5⟩
      calc (2 : ℝ) / 10 ^ 12 + 9 / 10 ^ 16 * |x0| ≤ 2 / 10 ^ 12 + 9 / 10 ^ 16 * 20 := by gcongr
        _ ≤ 1 / 10 ^ 11 := by norm_num
    · rw [hMF x0 h4 h5] at h6
      exact sub_eq_zero.mp h6

theorem fermiOcc_lip {beta : ℝ} (hb : 0 < beta) (x y : ℝ) : |fermiOcc beta x - fermiOcc beta y| ≤ beta * |x - y| := by
  wlog h : x ≤ y generalizing x y
  · rw [abs_sub_comm, abs_sub_comm x]
    exact this y x (le_of_not_ge h)
  unfold fermiOcc
  have hx := Real.exp_pos (beta * x)
  have hy := Real.exp_pos (beta * y)
  have hxy : Real.exp (beta * x) ≤ Real.exp (beta * y) := Real.exp_le_exp.mpr (by gcongr)
  have h1 : 1 / (Real.exp (beta * x) + 1) - 1 / (Real.exp (beta * y) + 1) = (Real.exp (beta * y) - Real.exp (beta * x)) / ((Real.exp (beta * x) + 1) * (Real.exp (beta * y) + 1)) := by
    field_simp
    ring
  rw [h1, abs_of_nonneg (div_nonneg (by linarith) (by positivity)), abs_of_nonpos (by linarith), div_le_iff₀ (by positivity)]
  have h2 : Real.exp (beta * x) = Real.exp (beta * y) * Real.exp (-(beta * (y - x))) := by rw [← Real.exp_add]; congr 1; ring
  have h3 := Real.add_one_le_exp (-(beta * (y - x)))
  have h4 : 0 ≤ beta * (y - x) := mul_nonneg hb.le (by linarith)
  have h5 : Real.exp (beta * y) - Real.exp (beta * x) ≤ Real.exp (beta * y) * (beta * (y - x)) := by
    rw [h2]
    nlinarith
  have h6 : Real.exp (beta * y) ≤ (Real.exp (beta * x) + 1) * (Real.exp (beta * y) + 1) := by nlinarith
  calc _ ≤ Real.exp (beta * y) * (beta * (y - x)) := h5
    _ ≤ (Real.exp (beta * x) + 1) * (Real.exp (beta * y) + 1) * (beta * (y - x)) := mul_le_mul_of_nonneg_right h6 h4
    _ = _ := by ring

theorem fermiOcc_far {x : ℝ} (hx : 1 ≤ x) : 0 ≤ fermiOcc 70 x ∧ fermiOcc 70 x ≤ 1 / 10 ^ 5 := by
  unfold fermiOcc
  refine ⟨by positivity, ?_⟩
  have h1 : (2 : ℝ) ^ 70 ≤ Real.exp (70 * x) := by
    calc (2 : ℝ) ^ 70 ≤ Real.exp 1 ^ 70 := by
          gcongr
          linarith [Real.add_one_le_exp 1]
      _ = Real.exp (70 * 1) := by rw [← Real.exp_nat_mul]; norm_num
      _ ≤ Real.exp (70 * x) := Real.exp_le_exp.mpr (by linarith)
  refine div_le_div_of_nonneg_left (by norm_num) (by norm_num) ?_
  linarith [show (10 : ℝ) ^ 5 ≤ 2 ^ 70 by norm_num]

theorem fermiOcc_near {x : ℝ} (hx : x ≤ -1) : 1 - 1 / 10 ^ 5 ≤ fermiOcc 70 x ∧ fermiOcc 70 x ≤ 1 := by
  have h := fermiOcc_far (x := -x) (by linarith)
  have e : fermiOcc 70 x = 1 - fermiOcc 70 (-x) := by
    unfold fermiOcc
    rw [mul_neg, Real.exp_neg]
    have := Real.exp_pos (70 * x)
    field_simp
    ring
  rw [e]
  exact ⟨by linarith, by linarith⟩

theorem list_sum_fin {l : List ℝ} (h : l.length = n) : l.sum = ∑ i : Fin n, l[(i : ℕ)]?.getD 0 := by
  subst h
  rw [← Fin.sum_univ_getElem]
  exact Finset.sum_congr rfl fun i _ => by simp

theorem siteOcc_total {H : Matrix (Fin n) (Fin n) ℂ} {u : Fin n → Fin n → ℂ} {E : Fin n → ℝ} (h : HermBasis H u E) (beta mu : ℝ) :
    ∑ i, siteOcc beta u E i mu = ∑ k, fermiOcc beta (E k - mu) := by
  unfold siteOcc
  rw [Finset.sum_comm]
  refine Finset.sum_congr rfl fun k _ => ?_
  rw [← Finset.sum_mul]
  have h1 := h.orth k k
  rw [if_pos rfl] at h1
  have : ((∑ i, Complex.normSq (u k i) : ℝ) : ℂ) = 1 := by
    rw [← h1]
    push_cast
    exact Finset.sum_congr rfl fun i _ => by rw [Complex.normSq_eq_conj_mul_self]; rfl
  rw [show ∑ i, Complex.normSq (u k i) = 1 from by exact_mod_cast this, one_mul]

/-- **C122** (independent electrons) For every Hermitian Hamiltonian with levels between `-19` and `19` and every goal that is not too close to the empty or the full lattice, `adjust_mu`
succeeds, and at the chemical potential it returns the lattice holds the goal number of electrons at inverse temperature 70, up to the error of the sum over frequencies. -/
theorem C122_free (g : NanoLoc n) {m : ℕ} (hg : g.WF m) (hm : ∀ i ∈ g.idxNeq, i < m) (hm2 : 2 ≤ m) (hherm : g.H.conjTranspose = g.H) (hS : g.S = 1) (hhyb : ∀ z, g.Hybrid z = 0)
    (junk : ℕ → ℕ → ℂ) {u : Fin n → Fin n → ℂ} {E : Fin n → ℝ} (hE : HermBasis g.H u E) (hE19 : ∀ k, |E k| ≤ 19)
    (hequiv : ∀ (i : Fin n) (mu : ℝ), siteOcc 70 u E i mu = siteOcc 70 u E (hg.rep i) mu) (goal : List ℝ) (hlo : (n : ℝ) / 50 ≤ goal.sum) (hhi : goal.sum ≤ 2 * n - n / 50) :
    (∃ r, AdjustMu (g.integrate m (fun _ _ _ => 0) junk) goal r) ∧ ∀ r, AdjustMu (g.integrate m (fun _ _ _ => 0) junk) goal r →
      ∃ x, r = .ok x ∧ -20 ≤ x ∧ x ≤ 20 ∧ ∀ B : ℝ, (∀ k, |E k - x| + 1 / 10 ^ 11 ≤ B) →
        |2 * ∑ k, fermiOcc 70 (E k - x) - goal.sum| ≤ n * (2 / 10 ^ 7 * B ^ 3 + 2 / 10 ^ 9) := by
  have hc : ∀ c < 3000, g.Causal (fun _ => (0 : ℂ)) (msZ 70 c) := fun c _ =>
    ⟨hherm, by rw [hS]; exact fun v => one_overlap v, by rw [hhyb]; exact fun v => by simp, by simp, msZ_im_pos (by norm_num) c⟩
  obtain ⟨N, hN, hex, hall⟩ := C122_adjust_mu g hg hm hm2 (fun _ _ _ => 0) junk hc goal
  -- the sum that `integrate` returns
  have hsum : ∀ (mu B : ℝ), (∀ k, |E k - mu| ≤ B) → |(N mu).sum - 2 * ∑ k, fermiOcc 70 (E k - mu)| ≤ n * (2 / 10 ^ 7 * B ^ 3) := fun mu B hB => by
    obtain ⟨L, h1, h2, h3⟩ := C121_free g hg hm hm2 hherm hS hhyb junk hE mu hB
    rw [hN mu] at h1
    obtain rfl : N mu = L := Except.ok.inj h1
    rw [list_sum_fin h2, ← siteOcc_total hE, Finset.mul_sum, ← Finset.sum_sub_distrib]
    refine (Finset.abs_sum_le_sum_abs _ _).trans ((Finset.sum_le_sum fun i _ => ?_).trans_eq (by rw [Finset.sum_const, Finset.card_univ, Fintype.card_fin, nsmul_eq_mul]))
    rw [hequiv i mu]
    exact h3 i
  refine ⟨hex, fun r hr => ?_⟩
  have hn0 : (0 : ℝ) ≤ n := Nat.cast_nonneg n
  have hlow : (N (-20)).sum - goal.sum ≤ 0 := by
    have h1 := (abs_le.mp (hsum (-20) 39 fun k => by have := abs_le.mp (hE19 k); rw [abs_le]; constructor <;> linarith)).2
    have h2 : ∑ k, fermiOcc 70 (E k - -20) ≤ n * (1 / 10 ^ 5) := by
      calc _ ≤ ∑ _k : Fin n, (1 : ℝ) / 10 ^ 5 := Finset.sum_le_sum fun k _ => (fermiOcc_far (by have := abs_le.mp (hE19 k); linarith)).2
        _ = _ := by rw [Finset.sum_const, Finset.card_univ, Fintype.card_fin, nsmul_eq_mul]
    norm_num at h1 h2 ⊢
    linarith
  have hhigh : 0 ≤ (N 20).sum - goal.sum := by
    have h1 := (abs_le.mp (hsum 20 39 fun k => by have := abs_le.mp (hE19 k); rw [abs_le]; constructor <;> linarith)).1
    have h2 : n * (1 - 1 / 10 ^ 5) ≤ ∑ k, fermiOcc 70 (E k - 20) := by
      calc (n : ℝ) * (1 - 1 / 10 ^ 5) = ∑ _k : Fin n, ((1 : ℝ) - 1 / 10 ^ 5) := by rw [Finset.sum_const, Finset.card_univ, Fintype.card_fin, nsmul_eq_mul]
        _ ≤ _ := Finset.sum_le_sum fun k _ => (fermiOcc_near (by have := abs_le.mp (hE19 k); linarith)).1
    norm_num at h1 h2 ⊢
    linarith
  rcases hall r hr with ⟨h, -⟩ | ⟨-, x, x0, rfl, h1, h2, h3, h4, h5, h6⟩
  · exact absurd (mul_nonpos_of_nonpos_of_nonneg hlow hhigh) (not_le.mpr h)
  refine ⟨x, rfl, h1, h2, fun B hB => ?_⟩
  have h7 := hsum x0 B fun k => by
    have e : E k - x0 = (E k - x) + (x - x0) := by ring
    rw [e]
    exact (abs_add_le _ _).trans (by linarith [hB k])
  rw [h6] at h7
  have h8 : |2 * ∑ k, fermiOcc 70 (E k - x) - 2 * ∑ k, fermiOcc 70 (E k - x0)| ≤ n * (2 / 10 ^ 9) := by
    rw [← mul_sub, ← Finset.sum_sub_distrib, abs_mul, abs_of_pos (by norm_num : (0 : ℝ) < 2)]
    have : |∑ k, (fermiOcc 70 (E k - x) - fermiOcc 70 (E k - x0))| ≤ n * (1 / 10 ^ 9) := by
      refine (Finset.abs_sum_le_sum_abs _ _).trans ((Finset.sum_le_sum fun k _ => ?_).trans_eq (by rw [Finset.sum_const, Finset.card_univ, Fintype.card_fin, nsmul_eq_mul]))
      refine (fermiOcc_lip (by norm_num) _ _).trans ?_
      rw [show E k - x - (E k - x0) = -(x - x0) by ring, abs_neg]
      norm_num at h5 ⊢
      linarith
    linarith
  have e : 2 * ∑ k, fermiOcc 70 (E k - x) - goal.sum = (2 * ∑ k, fermiOcc 70 (E k - x) - 2 * ∑ k, fermiOcc 70 (E k - x0)) + -(goal.sum - 2 * ∑ k, fermiOcc 70 (E k - x0)) := by ring
  rw [e]
  refine (abs_add_le _ _).trans ?_
  rw [abs_neg]
  linarith

/-- Non-vacuity: the dimer with its bonding and antibonding level, filled with two electrons. -/
noncomputable def dimerU (k i : Fin 2) : ℂ := if k = 1 ∧ i = 1 then -((√2 / 2 : ℝ) : ℂ) else ((√2 / 2 : ℝ) : ℂ)

theorem dimer_basis : HermBasis dimerLoc.H dimerU ![1, -1] := by
  have h2 : ((√2 / 2 : ℝ) : ℂ) * ((√2 / 2 : ℝ) : ℂ) = 1 / 2 := by
    rw [← Complex.ofReal_mul, show √2 / 2 * (√2 / 2) = (√2 * √2) / 4 by ring, Real.mul_self_sqrt (by norm_num)]
    norm_num
  constructor
  · intro k
    funext i
    fin_cases k <;> fin_cases i <;> simp [dimerLoc, dimerU, Matrix.mulVec, dotProduct, Fin.sum_univ_two]
  · intro k l
    simp only [dotProduct, Fin.sum_univ_two, Pi.star_apply]
    fin_cases k <;> fin_cases l <;> simp only [dimerU] <;> simp <;>
      simp only [← Complex.ofReal_ofNat, ← Complex.ofReal_div] <;> first | (rw [h2]; norm_num) | skip

example : ∃ x, AdjustMu (dimerLoc.integrate 2 (fun _ _ _ => 0) fun _ _ => 0) [1, 1] (.ok x) ∧ |2 * (fermiOcc 70 (1 - x) + fermiOcc 70 (-1 - x)) - 2| ≤ 3 / 100 := by
  have hrep : ∀ i : Fin 2, dimerLoc_wf.rep i = i := fun i => by fin_cases i <;> rfl
  obtain ⟨⟨r, hr⟩, h⟩ := C122_free dimerLoc dimerLoc_wf (by simp [dimerLoc]) le_rfl (dimerLoc_causal (z := Complex.I) (by simp) (fun _ => 0) (by simp)).herm rfl (fun _ => rfl) (fun _ _ => 0)
    dimer_basis (fun k => by fin_cases k <;> norm_num) (fun i mu => by rw [hrep]) [1, 1] (by norm_num) (by norm_num)
  obtain ⟨x, rfl, h1, h2, h3⟩ := h r hr
  refine ⟨x, hr, ?_⟩
  have h4 := h3 22 fun k => by
    have : |(![1, -1] : Fin 2 → ℝ) k - x| ≤ 21 := by
      rw [abs_le]
      fin_cases k <;> simp <;> constructor <;> linarith
    norm_num
    linarith
  rw [Fin.sum_univ_two] at h4
  norm_num at h4 ⊢
  linarith

end Edpyt
