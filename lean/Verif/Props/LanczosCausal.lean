import Verif.Props.SpectralWeight
import Verif.Props.GfLanczos
/-!
Property C177: the Green functions of `build_gf_lanczos` are causal and normalised, wherever the Lanczos recurrences stop.
-/
namespace Edpyt
open Spec Matrix MeasureTheory
open scoped Topology

/-- A function of energy and broadening that is a sum of poles on the real axis with nonnegative weights of the sum `W`. -/
def IsPoleSum (f : ℝ → ℝ → ℂ) (W : ℝ) : Prop :=
  ∃ (m : ℕ) (w p : Fin m → ℝ), (∀ k, 0 ≤ w k) ∧ ∑ k, w k = W ∧ ∀ e eta : ℝ, eta ≠ 0 → f e eta = ∑ k, (w k : ℂ) / (e + Complex.I * eta - p k)

theorem IsPoleSum.zero : IsPoleSum (fun _ _ => 0) 0 := ⟨0, fun _ => 0, fun _ => 0, by simp, by simp, by simp⟩

theorem IsPoleSum.of_fintype {κ : Type} [Fintype κ] {f : ℝ → ℝ → ℂ} (w p : κ → ℝ) (hw : ∀ k, 0 ≤ w k) (h : ∀ e eta : ℝ, eta ≠ 0 → f e eta = ∑ k, (w k : ℂ) / (e + Complex.I * eta - p k)) :
    IsPoleSum f (∑ k, w k) := by
  let E := (Fintype.equivFin κ).symm
  refine ⟨Fintype.card κ, fun k => w (E k), fun k => p (E k), fun k => hw _, E.sum_comp w, fun e eta he => ?_⟩
  rw [h e eta he, ← E.sum_comp]

theorem IsPoleSum.add {f g : ℝ → ℝ → ℂ} {W V : ℝ} (hf : IsPoleSum f W) (hg : IsPoleSum g V) : IsPoleSum (fun e eta => f e eta + g e eta) (W + V) := by
  obtain ⟨m, w, p, h1, rfl, h3⟩ := hf
  obtain ⟨m', w', p', g1, rfl, g3⟩ := hg
  have := IsPoleSum.of_fintype (f := fun e eta => f e eta + g e eta) (Sum.elim w w') (Sum.elim p p') (fun k => by cases k <;> simp [h1, g1]) fun e eta he => by
    rw [h3 e eta he, g3 e eta he, Fintype.sum_sum_type]
    simp
  rwa [Fintype.sum_sum_type] at this

theorem IsPoleSum.smul {f : ℝ → ℝ → ℂ} {W : ℝ} (hf : IsPoleSum f W) {c : ℝ} (hc : 0 ≤ c) : IsPoleSum (fun e eta => (c : ℂ) * f e eta) (c * W) := by
  obtain ⟨m, w, p, h1, rfl, h3⟩ := hf
  refine ⟨m, fun k => c * w k, p, fun k => mul_nonneg hc (h1 k), (Finset.mul_sum _ _ _).symm, fun e eta he => ?_⟩
  simp only [h3 e eta he, Finset.mul_sum]
  refine Finset.sum_congr rfl fun k _ => ?_
  push_cast
  ring

/-- A kernel that is such a sum. -/
def GfFn.Poles (jk : ℝ) (f : GfFn) : Prop := ∃ W, IsPoleSum (f.eval jk) W

theorem fsum_poles {jk : ℝ} {fs : List GfFn} (h : ∀ f ∈ fs, f.Poles jk) : ∃ W, IsPoleSum (fsum jk fs) W := by
  induction fs with
  | nil => exact ⟨0, IsPoleSum.zero⟩
  | cons f fs ih =>
    obtain ⟨W, hW⟩ := ih fun f hf => h f (by simp [hf])
    obtain ⟨V, hV⟩ := h f (by simp)
    refine ⟨V + W, ?_⟩
    have e : fsum jk (f :: fs) = fun e eta => f.eval jk e eta + fsum jk fs e eta := by
      funext e eta; simp [fsum]
    rw [e]
    exact hV.add hW

theorem sp_poles (jk : ℝ) {l q : List ℝ} (hl : l.length = q.length) (hq : ∀ x ∈ q, 0 ≤ x) : (GfFn.sp l q).Poles jk := by
  have h := IsPoleSum.of_fintype (f := spEval l q) (fun k : Fin l.length => (q[k]?).getD 0) (fun k => l[k]) (fun k => by
    have hk : (k : ℕ) < q.length := by rw [← hl]; exact k.2
    have : (q[k]?).getD 0 = q[(k : ℕ)] := by simp [hk]
    rw [this]
    exact hq _ (List.getElem_mem _)) fun e eta he => zip_poles _ _ _ hl
  exact ⟨_, h⟩

theorem resolvent_poles {m : ℕ} {T : Matrix (Fin m) (Fin m) ℝ} (hT : T.IsSymm) (i : Fin m) {c : ℝ} (hc : 0 ≤ c) :
    ∃ W, IsPoleSum (fun e eta => (c : ℂ) * resolvent (e + Complex.I * eta) T i i) W := by
  obtain ⟨u, E, hb⟩ := EigBasis.of_symm hT
  refine ⟨_, IsPoleSum.smul (IsPoleSum.of_fintype (fun k => u k i * u k i) E (fun k => mul_self_nonneg _) fun e eta he => ?_) hc⟩
  have hz : (e + Complex.I * eta : ℂ).im ≠ 0 := by simpa using he
  have h := hb.resElem hz (Pi.single i 1) (Pi.single i 1)
  have hv : (fun j => ((Pi.single i 1 : Fin m → ℝ) j : ℂ)) = Pi.single i (1 : ℂ) := by
    funext j
    by_cases hj : j = i
    · rw [hj]; simp
    · simp [hj]
  unfold resElem at h
  rw [hv, Matrix.mulVec_single_one, single_one_dotProduct] at h
  refine Eq.trans h (Finset.sum_congr rfl fun k _ => ?_)
  rw [dotProduct_single_one, div_eq_mul_inv, mul_comm]

theorem gfCoeff_poles (jk : ℝ) {rep : GfRepr} {a b : List ℝ} (hab : a.length = b.length) (hm : 0 < a.length) {Ei ex sign : ℝ} (hex : 0 ≤ ex) {f : GfFn} (h : GfCoeff rep a b Ei ex sign (.ok f)) :
    f.Poles jk := by
  have hN : (chainMat a b Ei sign).IsSymm := by rw [chainMat_eq]; exact tridiag_symm _ _ _
  obtain ⟨W, m, w, p, h1, h2, h3⟩ := resolvent_poles hN ⟨0, hm⟩ (c := ex * b[0] ^ 2) (mul_nonneg hex (sq_nonneg _))
  refine ⟨W, m, w, p, h1, h2, fun e eta he => ?_⟩
  rw [← h3 e eta he]
  cases rep with
  | cf =>
    obtain ⟨a', b', e1, e2⟩ := C38_continued_fraction jk a b hab hm Ei ex sign e eta he
    simp only [GfCoeff] at h
    rw [e1] at h
    injection h with h
    subst h
    exact e2
  | sp =>
    obtain ⟨w, U, g1, g2⟩ := h
    obtain ⟨l, q, e1, e2⟩ := C38_spectral a b w U hab hm Ei ex sign e eta he g1
    rw [e1] at g2
    injection g2 with g2
    subst g2
    exact e2

theorem forR_inv {α σ : Type} {body : σ → α → Except PyErr σ → Prop} {P : σ → Prop} (h : ∀ st x st', P st → body st x (.ok st') → P st') :
    ∀ (xs : List α) (st st' : σ), P st → ForR body xs st (.ok st') → P st' := by
  intro xs
  induction xs with
  | nil => intro st st' h0 hr; injection (show Except.ok st' = Except.ok st from hr) with e; exact e ▸ h0
  | cons x xs ih =>
    intro st st' h0 hr
    rcases hr with ⟨st1, h1, h2⟩ | ⟨e, -, h2⟩
    · exact ih st1 st' (h st x st1 h0 h1) h2
    · cases h2

theorem bindR_inv {α β : Type} {m : Except PyErr α → Prop} {f : α → Except PyErr β → Prop} {y : β} (h : BindR m f (.ok y)) : ∃ x, m (.ok x) ∧ f x (.ok y) := by
  rcases h with h | ⟨e, -, h⟩
  · exact h
  · cases h

section
variable {g : GfLArgs} {es : Espace (ℕ × ℕ)} {pos : ℕ}

theorem gfHalf_poles (jk : ℝ) (hc : g.cfg.Ok) {op : Ladder} {I : Sct} {qJ : ℕ × ℕ} {es es' : Espace (ℕ × ℕ)} {fs : List GfFn} {log : List LancRun} (h : GfHalf g pos op I qJ es (.ok (es', fs, log))) :
    ∀ f ∈ fs, f.Poles jk := by
  unfold GfHalf at h
  obtain ⟨J, -, h⟩ := bindR_inv h
  split at h
  · obtain ⟨wv, -, h⟩ := bindR_inv h
    obtain ⟨bJ, -, h⟩ := bindR_inv h
    simp only [DetR, Except.ok.injEq, Prod.mk.injEq] at h
    obtain ⟨-, rfl, -⟩ := h
    intro f hf
    rw [List.mem_singleton] at hf
    subst hf
    refine sp_poles jk (by simp) fun x hx => ?_
    obtain ⟨y, -, rfl⟩ := List.mem_map.mp hx
    positivity
  · obtain ⟨v0, -, h⟩ := bindR_inv h
    obtain ⟨ops, -, mv, -, h⟩ := bindR_inv h
    obtain ⟨st, hst, h⟩ := bindR_inv h
    simp only [DetR, Except.ok.injEq, Prod.mk.injEq] at h
    obtain ⟨-, rfl, -⟩ := h
    refine forR_inv (P := fun st : List GfFn × List LancRun => ∀ f ∈ st.1, f.Poles jk) ?_ _ _ _ (by simp) hst
    rintro st k st' h0 ⟨junk, t, hj, ht, hm⟩
    obtain ⟨t', -, huniq, hcase⟩ := C39_terminates (slStep mv) (fun b => decide (|b| < g.cfg.delta)) g.cfg.eg g.cfg.close hc.maxn hc.ND junk hj 0 (fun c : Fin J.1.d => v0 k c)
    obtain rfl : t = t' := huniq t ht
    rcases hcase with rfl | ⟨a, b, rfl, hab, hl1, -⟩
    · simp only [if_true, Except.ok.injEq] at hm
      rw [hm]
      exact h0
    · obtain ⟨f, hf, hm⟩ := bindR_inv hm
      simp only [DetR, Except.ok.injEq] at hm
      rw [hm]
      intro f' hf'
      rcases List.mem_append.mp hf' with hf' | hf'
      · exact h0 f' hf'
      · rw [List.mem_singleton] at hf'
        subst hf'
        exact gfCoeff_poles jk hab (by omega) (Real.exp_pos _).le hf

theorem gfLanczos_poles (jk : ℝ) (hc : g.cfg.Ok) {separate : Bool} {out : GfLOut} (h : BuildGfLanczos g pos separate es (.ok out)) :
    (∀ f ∈ out.gfe.funcs, f.Poles jk) ∧ (∀ f ∈ out.gfh.funcs, f.Poles jk) ∧ out.gfe.Z = partition out.es g.beta g.egs ∧ out.gfh.Z = partition out.es g.beta g.egs := by
  obtain ⟨st, hst, h⟩ := bindR_inv h
  simp only [DetR, Except.ok.injEq] at h
  have hP := forR_inv (P := fun st : GfLSt => (∀ f ∈ st.fe, f.Poles jk) ∧ ∀ f ∈ st.fh, f.Poles jk) (fun st q st' h0 hs => by
    obtain ⟨I, -, hs⟩ := bindR_inv hs
    obtain ⟨st1, h1, h2⟩ := bindR_inv hs
    have key : ∀ (op : Ladder) (st st' : GfLSt), ((∀ f ∈ st.fe, f.Poles jk) ∧ ∀ f ∈ st.fh, f.Poles jk) → GfStepHalf (GfHalf g pos) g separate op q I st (.ok st') →
        (∀ f ∈ st'.fe, f.Poles jk) ∧ ∀ f ∈ st'.fh, f.Poles jk := by
      intro op st st' h0 hs
      unfold GfStepHalf at hs
      split at hs
      · injection hs with hs; rw [hs]; exact h0
      · cases hs
      · obtain ⟨o, ho, hs⟩ := bindR_inv hs
        simp only [DetR, Except.ok.injEq] at hs
        have hf := gfHalf_poles jk hc ho
        rw [hs]
        split
        · exact ⟨h0.1, fun f hf' => (List.mem_append.mp hf').elim (h0.2 f) (hf f)⟩
        · exact ⟨fun f hf' => (List.mem_append.mp hf').elim (h0.1 f) (hf f), h0.2⟩
    exact key _ _ _ (key _ _ _ h0 h1) h2) _ _ _ (by simp) hst
  rw [h]
  refine ⟨hP.1, ?_, rfl, ?_⟩
  · by_cases hs : separate <;> simp only [hs, if_true, if_false, Bool.false_eq_true]
    · exact hP.2
    · exact hP.1
  · by_cases hs : separate <;> simp [hs]

/-- The residual of a run is bounded. -/
theorem LancRun.resLe_exists {cfg : LancCfg} (hc : cfg.Ok) {run : LancRun} (h : run.Of cfg) : ∃ ε, 0 ≤ ε ∧ run.ResLe ε := by
  obtain ⟨⟨A, hA, hmv⟩, junk, hj, ht⟩ := h
  have hm : 1 ≤ run.a.length := by
    obtain ⟨t', -, huniq, hcase⟩ := C39_terminates (slStep run.mv) (fun b => decide (|b| < cfg.delta)) cfg.eg cfg.close hc.maxn hc.ND junk hj 0 run.phi
    rw [← huniq _ ht] at hcase
    rcases hcase with h | ⟨a, b, h1, -, h2, -⟩
    · cases h
    · injection h1 with h1; injection h1 with h1 _
      rw [h1]; exact h2
  refine ⟨Real.sqrt (∑ i, ∑ j, A i j ^ 2), Real.sqrt_nonneg _, fun A' hA' q res hK => Real.sqrt_le_sqrt ?_⟩
  have hAA : A' = A := by
    refine Matrix.ext_of_mulVec_single fun i => ?_
    exact congrFun (hA'.symm.trans hmv) _
  rw [hAA] at hK
  let i : Fin run.a.length := ⟨run.a.length - 1, by omega⟩
  have h1 := hK.map i
  rw [if_pos (by simp only [i]; omega)] at h1
  have h2 : res ⬝ᵥ (A *ᵥ q i) = res ⬝ᵥ res := by
    rw [h1, dotProduct_add, dotProduct_sum, Finset.sum_eq_zero fun j _ => ?_, zero_add]
    rw [dotProduct_smul, dotProduct_comm, hK.rem, smul_zero]
  have h3 : 0 ≤ (A *ᵥ q i - res) ⬝ᵥ (A *ᵥ q i - res) := Finset.sum_nonneg fun j _ => mul_self_nonneg _
  rw [sub_dotProduct, dotProduct_sub, dotProduct_sub, h2, dotProduct_comm _ res, h2, sub_self, sub_zero] at h3
  refine (sub_nonneg.mp h3).trans (Finset.sum_le_sum fun r _ => ?_)
  have h4 := Finset.sum_mul_sq_le_sq_mul_sq Finset.univ (fun c => A r c) (q i)
  have h5 : ∑ c, q i c ^ 2 = 1 := by
    rw [← (hK.orth i i).trans (if_pos rfl)]
    exact Finset.sum_congr rfl fun c _ => pow_two _
  rw [h5, mul_one, pow_two] at h4
  exact h4

theorem resLe_common {cfg : LancCfg} (hc : cfg.Ok) : ∀ log : List LancRun, (∀ run ∈ log, run.Of cfg) → ∃ ε, 0 ≤ ε ∧ ∀ run ∈ log, run.ResLe ε := by
  intro log
  induction log with
  | nil => intro _; exact ⟨0, le_rfl, by simp⟩
  | cons r log ih =>
    intro h
    obtain ⟨e1, h1, h2⟩ := ih fun run hr => h run (by simp [hr])
    obtain ⟨e2, h3, h4⟩ := LancRun.resLe_exists hc (h r (by simp))
    refine ⟨max e1 e2, h1.trans (le_max_left _ _), fun run hr A hA q res hK => ?_⟩
    rcases List.mem_cons.mp hr with rfl | hr
    · exact (h4 A hA q res hK).trans (le_max_right _ _)
    · exact (h2 run hr A hA q res hK).trans (le_max_left _ _)

end

/-- The weight of a sum of poles is the coefficient of its tail. -/
theorem IsPoleSum.weight {f : ℝ → ℝ → ℂ} {W : ℝ} (hf : IsPoleSum f W) : Filter.Tendsto (fun eta : ℝ => Complex.I * eta * f 0 eta) Filter.atTop (𝓝 (W : ℂ)) := by
  obtain ⟨m, w, p, h1, rfl, h3⟩ := hf
  have h : Filter.Tendsto (fun eta : ℝ => ∑ k, ((w k : ℂ) + (w k : ℂ) * p k * (Complex.I * eta + (-(p k : ℂ)))⁻¹)) Filter.atTop (𝓝 (∑ k, ((w k : ℂ) + (w k : ℂ) * p k * 0))) := by
    refine tendsto_finset_sum _ fun k _ => tendsto_const_nhds.add (Filter.Tendsto.const_mul _ ?_)
    refine (tendsto_inv_farAxis (-(p k : ℂ))).comp ?_
    refine Filter.tendsto_comap_iff.mpr ?_
    refine Filter.tendsto_abs_atTop_atTop.congr fun x => ?_
    simp
  simp only [mul_zero, add_zero] at h
  rw [Complex.ofReal_sum]
  refine h.congr' ?_
  filter_upwards [Filter.eventually_gt_atTop 0] with eta he
  rw [h3 0 eta he.ne', Finset.mul_sum]
  refine Finset.sum_congr rfl fun k _ => ?_
  have hp : (Complex.I * eta + -(p k : ℂ)) ≠ 0 := fun h0 => he.ne' (by simpa using congrArg Complex.im h0)
  have hp' : ((0 : ℝ) : ℂ) + Complex.I * eta - p k = Complex.I * eta + -(p k : ℂ) := by push_cast; ring
  rw [hp']
  field_simp
  ring

/-- A sum of poles close to a function with a known tail has nearly the same weight. -/
theorem IsPoleSum.close {f : ℝ → ℝ → ℂ} {W : ℝ} (hf : IsPoleSum f W) {t : ℝ → ℂ} {c ε D : ℝ} (ht : Filter.Tendsto (fun eta : ℝ => Complex.I * eta * t eta) Filter.atTop (𝓝 (c : ℂ)))
    (h : ∀ eta : ℝ, 0 < eta → ‖f 0 eta - t eta‖ ≤ ε / eta ^ 2 + D / |eta|) : |W - c| ≤ D := by
  have h1 := (hf.weight.sub ht).norm
  have h2 : Filter.Tendsto (fun eta : ℝ => ε * eta⁻¹ + D) Filter.atTop (𝓝 (ε * 0 + D)) := (tendsto_inv_atTop_zero.const_mul ε).add tendsto_const_nhds
  rw [mul_zero, zero_add] at h2
  have h3 := le_of_tendsto_of_tendsto h1 h2 (by
    filter_upwards [Filter.eventually_gt_atTop 0] with eta he
    rw [← mul_sub, norm_mul, norm_mul, Complex.norm_I, one_mul, Complex.norm_real, Real.norm_of_nonneg he.le]
    refine (mul_le_mul_of_nonneg_left (h eta he) he.le).trans (le_of_eq ?_)
    rw [abs_of_pos he]
    field_simp)
  rwa [← Complex.ofReal_sub, Complex.norm_real, Real.norm_eq_abs] at h3

/-- What a sum of poles with nonnegative weights gives: causality, an integrable spectral function with the total `W`. -/
theorem IsPoleSum.spectral {f : ℝ → ℝ → ℂ} {W : ℝ} (hf : IsPoleSum f W) {eta : ℝ} (he : 0 < eta) :
    (∀ e, (f e eta).im ≤ 0 ∧ (0 < W → (f e eta).im < 0)) ∧ Integrable (fun e : ℝ => -(f e eta).im / Real.pi) ∧ ∫ e : ℝ, -(f e eta).im / Real.pi = W := by
  obtain ⟨m, w, p, h1, rfl, h3⟩ := hf
  have e1 : (fun e : ℝ => -(f e eta).im / Real.pi) = fun e : ℝ => -(∑ k, (w k : ℂ) / ((e : ℂ) + Complex.I * eta - p k)).im / Real.pi := by
    funext e; rw [h3 e eta he.ne']
  rw [e1]
  refine ⟨fun e => ?_, pole_integral w p he⟩
  rw [h3 e eta he.ne', Complex.im_sum]
  have hk : ∀ k, ((w k : ℂ) / ((e : ℂ) + Complex.I * eta - p k)).im = w k * (-(eta / ((e - p k) ^ 2 + eta ^ 2))) := fun k => by
    rw [div_eq_mul_inv, Complex.im_ofReal_mul, Complex.inv_im]
    congr 1
    have a1 : ((e : ℂ) + Complex.I * eta - p k).im = eta := by simp
    have a2 : Complex.normSq ((e : ℂ) + Complex.I * eta - p k) = (e - p k) ^ 2 + eta ^ 2 := by
      rw [Complex.normSq_apply]; simp; ring
    rw [a1, a2]
    ring
  have hn : ∀ k, -(eta / ((e - p k) ^ 2 + eta ^ 2)) < 0 := fun k => neg_neg_of_pos (by positivity)
  simp only [hk]
  constructor
  · exact Finset.sum_nonpos fun k _ => mul_nonpos_of_nonneg_of_nonpos (h1 k) (hn k).le
  · intro hW
    obtain ⟨k, -, hk0⟩ := Finset.exists_lt_of_sum_lt (s := Finset.univ) (f := fun _ => (0 : ℝ)) (g := w) (by simpa using hW)
    exact Finset.sum_neg' (fun k _ => mul_nonpos_of_nonneg_of_nonpos (h1 k) (hn k).le) ⟨k, Finset.mem_univ k, mul_neg_of_pos_of_neg hk0 (hn k)⟩

attribute [local instance] Matrix.linftyOpNormedRing Matrix.linftyOpNormedAlgebra in
/-- The solution of the equation of motion far from the real axis. -/
theorem sylvester_tail {ι : Type} [Fintype ι] [DecidableEq ι] (H A : Matrix ι ι ℂ) {X : ℝ → Matrix ι ι ℂ}
    (h : ∀ eta : ℝ, 0 < eta → (((0 : ℝ) : ℂ) + Complex.I * eta) • X eta - (X eta * H - H * X eta) = A) : Filter.Tendsto (fun eta : ℝ => (Complex.I * eta : ℂ) • X eta) Filter.atTop (𝓝 A) := by
  have hz : ∀ eta : ℝ, 0 < eta → eta * ‖X eta‖ ≤ ‖A‖ + 2 * ‖H‖ * ‖X eta‖ := fun eta he => by
    have e1 : (Complex.I * eta : ℂ) • X eta = A + (X eta * H - H * X eta) := by rw [← h eta he, Complex.ofReal_zero, zero_add, sub_add_cancel]
    have e2 := congrArg norm e1
    rw [norm_smul, norm_mul, Complex.norm_I, one_mul, Complex.norm_real, Real.norm_of_nonneg he.le] at e2
    rw [e2]
    refine (norm_add_le _ _).trans (add_le_add le_rfl ((norm_sub_le _ _).trans ?_))
    have h1 := norm_mul_le (X eta) H
    have h2 := norm_mul_le H (X eta)
    linarith
  have hX : Filter.Tendsto (fun eta : ℝ => ‖X eta‖) Filter.atTop (𝓝 0) := by
    have hg : Filter.Tendsto (fun eta : ℝ => ‖A‖ * (eta - 2 * ‖H‖)⁻¹) Filter.atTop (𝓝 (‖A‖ * 0)) :=
      (tendsto_inv_atTop_zero.comp (Filter.tendsto_atTop_add_const_right _ (-(2 * ‖H‖)) Filter.tendsto_id)).const_mul _
    rw [mul_zero] at hg
    refine squeeze_zero' (Filter.Eventually.of_forall fun _ => norm_nonneg _) ?_ hg
    filter_upwards [Filter.eventually_gt_atTop (2 * ‖H‖)] with eta he
    have hpos : 0 < eta := lt_of_le_of_lt (by positivity) he
    rw [← div_eq_mul_inv, le_div_iff₀ (by linarith)]
    have := hz eta hpos
    linarith
  refine tendsto_iff_norm_sub_tendsto_zero.mpr ?_
  have hg : Filter.Tendsto (fun eta : ℝ => 2 * ‖H‖ * ‖X eta‖) Filter.atTop (𝓝 (2 * ‖H‖ * 0)) := hX.const_mul _
  rw [mul_zero] at hg
  refine squeeze_zero' (Filter.Eventually.of_forall fun _ => norm_nonneg _) ?_ hg
  filter_upwards [Filter.eventually_gt_atTop 0] with eta he
  have e1 : (Complex.I * eta : ℂ) • X eta - A = X eta * H - H * X eta := by rw [← h eta he, Complex.ofReal_zero, zero_add, sub_sub_cancel]
  rw [e1]
  refine (norm_sub_le _ _).trans ?_
  have h1 := norm_mul_le (X eta) H
  have h2 := norm_mul_le H (X eta)
  linarith

/-- The tails of the two parts of a Green function. -/
theorem parts_tail {ι : Type} [Fintype ι] [DecidableEq ι] {H : Matrix ι ι ℝ} (β : ℝ) (A B : Matrix ι ι ℝ) {ge gh : ℝ → ℂ}
    (h : ∀ eta : ℝ, 0 < eta → IsGreenParts β H A B (((0 : ℝ) : ℂ) + Complex.I * eta) (ge eta) (gh eta)) :
    Filter.Tendsto (fun eta : ℝ => Complex.I * eta * ge eta) Filter.atTop (𝓝 (Spec.thermal β H (cplx (A * B)))) ∧
    Filter.Tendsto (fun eta : ℝ => Complex.I * eta * gh eta) Filter.atTop (𝓝 (Spec.thermal β H (cplx (B * A)))) := by
  have hX : ∀ eta : ℝ, ∃ X : Matrix ι ι ℂ, 0 < eta → (((0 : ℝ) : ℂ) + Complex.I * eta) • X - (X * cplx H - cplx H * X) = cplx A ∧ ge eta = Spec.thermal β H (X * cplx B) ∧
      gh eta = Spec.thermal β H (cplx B * X) := fun eta => by
    by_cases he : 0 < eta
    · obtain ⟨X, hX⟩ := h eta he; exact ⟨X, fun _ => hX⟩
    · exact ⟨0, fun h => absurd h he⟩
  choose X hX using hX
  have ht := sylvester_tail (cplx H) (cplx A) fun eta he => (hX eta he).1
  have c1 : Continuous fun M : Matrix ι ι ℂ => Spec.thermal β H (M * cplx B) := by unfold Spec.thermal; fun_prop
  have c2 : Continuous fun M : Matrix ι ι ℂ => Spec.thermal β H (cplx B * M) := by unfold Spec.thermal; fun_prop
  have t1 := (c1.tendsto (cplx A)).comp ht
  have t2 := (c2.tendsto (cplx A)).comp ht
  rw [← cplx_mul'] at t1 t2
  refine ⟨t1.congr' ?_, t2.congr' ?_⟩
  · filter_upwards [Filter.eventually_gt_atTop 0] with eta he
    rw [Function.comp, (hX eta he).2.1, Matrix.smul_mul]
    unfold Spec.thermal
    rw [Matrix.mul_smul, Matrix.trace_smul, smul_eq_mul, mul_div_assoc]
  · filter_upwards [Filter.eventually_gt_atTop 0] with eta he
    rw [Function.comp, (hX eta he).2.2, Matrix.mul_smul]
    unfold Spec.thermal
    rw [Matrix.mul_smul, Matrix.trace_smul, smul_eq_mul, mul_div_assoc]

section
variable {g : GfLArgs} {es : Espace (ℕ × ℕ)} {pos : ℕ}

theorem call_poles {jk : ℝ} {G : GfL} (hf : ∀ f ∈ G.funcs, f.Poles jk) (hZ : 0 < G.Z) : ∃ W, IsPoleSum (G.call jk) W := by
  obtain ⟨W, hW⟩ := fsum_poles hf
  have e1 : G.call jk = fun e eta => ((G.Z⁻¹ : ℝ) : ℂ) * fsum jk G.funcs e eta := by
    funext e eta
    unfold GfL.call fsum
    rw [div_eq_mul_inv, mul_comm, Complex.ofReal_inv]
  rw [e1]
  exact ⟨_, hW.smul (inv_nonneg.mpr hZ.le)⟩

/-- The poles of the two Green functions, and their weights. -/
theorem gfLanczos_weights (jk : ℝ) (ha : g.ham.Valid) (hw : g.ham.n ≤ g.w) (hc : g.cfg.Ok) (hpos : pos < g.ham.n) (hes : EigenEspace g.ham.n g.ham.ham es) (separate : Bool) {out : GfLOut}
    (hr : BuildGfLanczos g pos separate es (.ok out)) {N : ℝ} (hN : (N : ℂ) = thermalOcc g.beta g.ham.ham g.ispin (⟨pos, hpos⟩ : Fin g.ham.n)) :
    ∃ We Wh, IsPoleSum (out.gfe.call jk) We ∧ IsPoleSum (out.gfh.call jk) Wh ∧
      if separate then |We - (1 - N)| ≤ g.cfg.delta ^ 2 ∧ |Wh - N| ≤ g.cfg.delta ^ 2 else |We - 1| ≤ 2 * g.cfg.delta ^ 2 ∧ Wh = We := by
  obtain ⟨out', e1, he', hlog, hsame, hb⟩ := (C98_gf_lanczos jk ha hw hc hpos hes separate).2 _ hr
  injection e1 with e1; subst e1
  obtain ⟨f1, f2, z1, z2⟩ := gfLanczos_poles jk hc hr
  have hZ : 0 < partition out.es g.beta g.egs := by
    rw [partition_eq he'.toCompleteEspace]
    exact mul_pos (Real.exp_pos _) (thermal_real_nonneg_bound he' g.beta)
  obtain ⟨We, hWe⟩ := call_poles f1 (z1 ▸ hZ)
  obtain ⟨Wh, hWh⟩ := call_poles f2 (z2 ▸ hZ)
  obtain ⟨ε, hε, hres⟩ := resLe_common hc out.log fun run h => (hlog run h).2
  have hex : ∀ eta : ℝ, ∃ ge gh, 0 < eta → IsGreenParts g.beta g.ham.ham (ann ℝ (orb g.ispin (⟨pos, hpos⟩ : Fin g.ham.n))) (cre ℝ (orb g.ispin (⟨pos, hpos⟩ : Fin g.ham.n)))
      (((0 : ℝ) : ℂ) + Complex.I * eta) ge gh := fun eta => by
    by_cases he : 0 < eta
    · obtain ⟨ge, gh, h⟩ := greenParts_exist hes g.beta (ann ℝ (orb g.ispin (⟨pos, hpos⟩ : Fin g.ham.n))) (cre ℝ (orb g.ispin (⟨pos, hpos⟩ : Fin g.ham.n)))
        (z := ((0 : ℝ) : ℂ) + Complex.I * eta) (by simpa using he.ne')
      exact ⟨ge, gh, fun _ => h⟩
    · exact ⟨0, 0, fun h => absurd h he⟩
  choose ge gh hp using hex
  obtain ⟨t1, t2⟩ := parts_tail g.beta _ _ hp
  have e2 : Spec.thermal g.beta g.ham.ham (cplx (cre ℝ (orb g.ispin (⟨pos, hpos⟩ : Fin g.ham.n)) * ann ℝ (orb g.ispin (⟨pos, hpos⟩ : Fin g.ham.n)))) = (N : ℂ) := hN.symm
  have e3 : Spec.thermal g.beta g.ham.ham (cplx (ann ℝ (orb g.ispin (⟨pos, hpos⟩ : Fin g.ham.n)) * cre ℝ (orb g.ispin (⟨pos, hpos⟩ : Fin g.ham.n)))) = ((1 - N : ℝ) : ℂ) := by
    have h1 := ann_cre_anticomm (R := ℝ) (orb g.ispin (⟨pos, hpos⟩ : Fin g.ham.n)) (orb g.ispin (⟨pos, hpos⟩ : Fin g.ham.n))
    rw [if_pos rfl] at h1
    have h2 := congrArg (fun M => Spec.thermal g.beta g.ham.ham (cplx M)) h1
    simp only [cplx_add', thermal_add, cplx_one, gibbs_trace_pos hes.basis, e2] at h2
    rw [Complex.ofReal_sub, Complex.ofReal_one, ← h2, add_sub_cancel_right]
  rw [e3] at t1
  rw [e2] at t2
  cases separate with
  | true =>
    refine ⟨We, Wh, hWe, hWh, ?_⟩
    rw [if_pos rfl]
    constructor
    · refine hWe.close (ε := ε) t1 fun eta he => ?_
      have := hb 0 eta ε he.ne' hε hres _ _ (hp eta he)
      rw [if_pos rfl] at this
      exact this.1
    · refine hWh.close (ε := ε) t2 fun eta he => ?_
      have := hb 0 eta ε he.ne' hε hres _ _ (hp eta he)
      rw [if_pos rfl] at this
      exact this.2.1
  | false =>
    refine ⟨We, We, hWe, by rw [hsame rfl]; exact hWe, ?_⟩
    rw [if_neg (by simp)]
    refine ⟨hWe.close (ε := ε) (t := fun eta => ge eta + gh eta) (c := 1) ?_ fun eta he => ?_, rfl⟩
    · have := t1.add t2
      rw [← Complex.ofReal_add, sub_add_cancel] at this
      exact this.congr fun eta => by ring
    · have := hb 0 eta ε he.ne' hε hres _ _ (hp eta he)
      rw [if_neg (by simp)] at this
      refine this.trans (le_of_eq ?_)
      ring

/-- **C177** Whatever the tolerances and the maximal number of steps are, and wherever the Lanczos recurrences stop, the Green function that `build_gf_lanczos` returns has no positive
imaginary part above the real axis, and its spectral function is integrable with the same total for every broadening, which is 1 up to `2 δ²`; `δ` is the norm below which a start vector counts as zero. -/
theorem C177_gf_lanczos (jk : ℝ) (ha : g.ham.Valid) (hw : g.ham.n ≤ g.w) (hc : g.cfg.Ok) (hpos : pos < g.ham.n) (hes : EigenEspace g.ham.n g.ham.ham es) :
    (∃ r, BuildGfLanczos g pos false es r) ∧ ∀ r, BuildGfLanczos g pos false es r → ∃ out, r = .ok out ∧ ∃ W : ℝ, |W - 1| ≤ 2 * g.cfg.delta ^ 2 ∧ ∀ eta : ℝ, 0 < eta →
      (∀ e, (out.gfe.call jk e eta).im ≤ 0 ∧ (2 * g.cfg.delta ^ 2 < 1 → (out.gfe.call jk e eta).im < 0)) ∧
      Integrable (fun e : ℝ => -(out.gfe.call jk e eta).im / Real.pi) ∧ ∫ e : ℝ, -(out.gfe.call jk e eta).im / Real.pi = W := by
  obtain ⟨h1, h2⟩ := C98_gf_lanczos jk ha hw hc hpos hes false
  refine ⟨h1, fun r hr => ?_⟩
  obtain ⟨out, rfl, -⟩ := h2 r hr
  have hN : ∃ N : ℝ, (N : ℂ) = thermalOcc g.beta g.ham.ham g.ispin (⟨pos, hpos⟩ : Fin g.ham.n) := ⟨_, (hes.basis.thermal g.beta _).symm⟩
  obtain ⟨N, hN⟩ := hN
  obtain ⟨W, Wh, hW, -, h⟩ := gfLanczos_weights jk ha hw hc hpos hes false hr hN
  rw [if_neg (by simp)] at h
  refine ⟨out, rfl, W, h.1, fun eta he => ?_⟩
  obtain ⟨a1, a2, a3⟩ := hW.spectral he
  refine ⟨fun e => ⟨(a1 e).1, fun hd => (a1 e).2 ?_⟩, a2, a3⟩
  have := (abs_le.mp h.1).1
  linarith

/-- **C177** (`separate`) The electron part and the hole part have no positive imaginary part above the real axis; their spectral functions have the totals `1 - n` and `n` up to `δ²`, with `n` the thermal
occupation of the site for the spin. -/
theorem C177_separate (jk : ℝ) (ha : g.ham.Valid) (hw : g.ham.n ≤ g.w) (hc : g.cfg.Ok) (hpos : pos < g.ham.n) (hes : EigenEspace g.ham.n g.ham.ham es)
    {N : ℝ} (hN : (N : ℂ) = thermalOcc g.beta g.ham.ham g.ispin (⟨pos, hpos⟩ : Fin g.ham.n)) {r : Except PyErr GfLOut} (hr : BuildGfLanczos g pos true es r) :
    ∃ out, r = .ok out ∧ ∃ We Wh : ℝ, |We - (1 - N)| ≤ g.cfg.delta ^ 2 ∧ |Wh - N| ≤ g.cfg.delta ^ 2 ∧ ∀ eta : ℝ, 0 < eta →
      (∀ e, (out.gfe.call jk e eta).im ≤ 0 ∧ (out.gfh.call jk e eta).im ≤ 0) ∧
      Integrable (fun e : ℝ => -(out.gfe.call jk e eta).im / Real.pi) ∧ ∫ e : ℝ, -(out.gfe.call jk e eta).im / Real.pi = We ∧
      Integrable (fun e : ℝ => -(out.gfh.call jk e eta).im / Real.pi) ∧ ∫ e : ℝ, -(out.gfh.call jk e eta).im / Real.pi = Wh := by
  obtain ⟨out, rfl, -⟩ := (C98_gf_lanczos jk ha hw hc hpos hes true).2 r hr
  obtain ⟨We, Wh, h1, h2, h⟩ := gfLanczos_weights jk ha hw hc hpos hes true hr hN
  rw [if_pos rfl] at h
  refine ⟨out, rfl, We, Wh, h.1, h.2, fun eta he => ?_⟩
  obtain ⟨a1, a2, a3⟩ := h1.spectral he
  obtain ⟨b1, b2, b3⟩ := h2.spectral he
  exact ⟨fun e => ⟨(a1 e).1, (b1 e).1⟩, a2, a3, b2, b3⟩

/-- Non-vacuity: two sites with one Lanczos step only; the call succeeds, and the Green function has the properties. -/
example (jk : ℝ) : ∃ (g : GfLArgs) (es : Espace (ℕ × ℕ)) (out : GfLOut), g.ham.Valid ∧ g.cfg.Ok ∧ g.cfg.maxn = 2 ∧ EigenEspace g.ham.n g.ham.ham es ∧ BuildGfLanczos g 0 false es (.ok out) ∧
    ∀ e eta : ℝ, 0 < eta → (out.gfe.call jk e eta).im < 0 := by
  obtain ⟨es, hes⟩ := eigenEspace_exists freeArgs_valid
  let g : GfLArgs := ⟨⟨2, 1, 1 / 10, fun _ _ => 0, fun _ _ => false⟩, .cf, 64, 0, freeArgs, 1, 0, false⟩
  have hc : g.cfg.Ok := ⟨le_rfl, le_rfl, by norm_num [g]⟩
  have hp : 0 < g.ham.n := by simp [g, freeArgs]
  obtain ⟨⟨r, hr⟩, h⟩ := C177_gf_lanczos (g := g) jk freeArgs_valid (by simp [g, freeArgs]) hc hp hes
  obtain ⟨out, rfl, W, -, h2⟩ := h r hr
  exact ⟨g, es, out, freeArgs_valid, hc, rfl, hes, hr, fun e eta he => ((h2 eta he).1 e).2 (by norm_num [g])⟩

end
end Edpyt
