import Verif.Proof.GfLoopSub
import Verif.Props.Screen
import Verif.Props.SelfEnergy
/-!
C118: `build_gf_lanczos` on an `espace` that holds only part of the eigenstates.
-/
namespace Edpyt
open Spec Matrix

section
variable {g : GfLArgs} {pos : ℕ} {es es0 : Espace (ℕ × ℕ)}

theorem finset_sum_keys {M : Type} [AddCommMonoid M] (l : List (ℕ × ℕ)) (h : l.Nodup) (f : ℕ × ℕ → M) : (l.map f).sum = ∑ q ∈ l.toFinset, f q :=
  (List.sum_toFinset f h).symm

theorem list_sum_map_sub {α : Type} (l : List α) (f f' : α → ℝ) : (l.map fun x => f x - f' x).sum = (l.map f).sum - (l.map f').sum := by
  induction l with
  | nil => simp
  | cons x l ih => simp only [List.map_cons, List.sum_cons, ih]; ring

/-- The thermal Green function as a sum over sectors. -/
theorem EigenEspace.green_sum {n : ℕ} {H B : Matrix (Finset (Fin (n + n))) (Finset (Fin (n + n))) ℝ} (h0 : EigenEspace n H es0) (β egs : ℝ) {z : ℂ} (hz : z.im ≠ 0) {gr : ℂ}
    (hg : IsGreen β H Bᵀ B z gr) :
    (partition es0 β egs : ℂ) * gr = ((es0.map Prod.fst).map fun q => sctVal n H B β egs (sctAt es0 q) z).sum ∧ 0 < partition es0 β egs := by
  have hH := h0.basis.symm
  obtain ⟨X, hX, rfl⟩ := hg
  have hZ : partition es0 β egs = Real.exp (β * egs) * ∑ a, Real.exp (-β * esVal n es0 a) := partition_eq h0.toCompleteEspace β egs
  have hpos : 0 < partition es0 β egs := by
    rw [hZ]; exact mul_pos (Real.exp_pos _) (thermal_real_nonneg_bound h0 β)
  refine ⟨?_, hpos⟩
  have h1 : ∀ q ∈ es0.map Prod.fst, sctVal n H B β egs (sctAt es0 q) z =
      (Real.exp (β * egs) : ℂ) * Edpyt.secTrace n β H q (X * cplx B) + (Real.exp (β * egs) : ℂ) * Edpyt.secTrace n β H q (cplx B * X) := by
    intro q hq
    exact congrArg₂ (· + ·) (halfExact_eq (fun x E hx => eom_electron hH hz hX hx) h0 β egs (h0.keys.mem_iff.mp hq))
      (halfExact_eq (fun x E hx => eom_hole hH hz hX hx) h0 β egs (h0.keys.mem_iff.mp hq))
  rw [List.map_congr_left h1, List.sum_map_add, List.sum_map_mul_left, List.sum_map_mul_left, ← h0.trace β, ← h0.trace β, ← mul_add, ← Matrix.trace_add, ← Matrix.mul_add]
  have ht := h0.trace_one β
  have hne : Matrix.trace (cplx (gibbsOp β H)) ≠ 0 := by
    rw [ht]
    exact_mod_cast (thermal_real_nonneg_bound h0 β).ne'
  have hZ' : (partition es0 β egs : ℂ) = (Real.exp (β * egs) : ℂ) * Matrix.trace (cplx (gibbsOp β H)) := by
    rw [ht, hZ]; push_cast; rfl
  rw [hZ']
  unfold thermal
  field_simp

/-- The sum of the weights of all sectors. -/
theorem SubEspace.compare {n : ℕ} {H B : Matrix (Finset (Fin (n + n))) (Finset (Fin (n + n))) ℝ} {c : ℝ} (hcar : Bᵀ * B + B * Bᵀ = c • (1 : Matrix _ _ ℝ))
    (h : SubEspace n H es) (h0 : EigenEspace n H es0) (β egs : ℝ) :
    partition es β egs ≤ ((es.map Prod.fst).map fun q => sctWt β egs (sctAt es0 q)).sum ∧
    ((es.map Prod.fst).map fun q => sctWt β egs (sctAt es0 q)).sum ≤ partition es0 β egs ∧
    ∀ z : ℂ, z.im ≠ 0 → ‖((es.map Prod.fst).map fun q => sctVal n H B β egs (sctAt es0 q) z).sum - ((es0.map Prod.fst).map fun q => sctVal n H B β egs (sctAt es0 q) z).sum‖ ≤
      (partition es0 β egs - ((es.map Prod.fst).map fun q => sctWt β egs (sctAt es0 q)).sum) * (c / |z.im|) := by
  have hH := h0.basis.symm
  have hsub : (es.map Prod.fst).toFinset ⊆ (es0.map Prod.fst).toFinset := by
    intro q hq
    rw [List.mem_toFinset] at hq ⊢
    exact h0.keys.mem_iff.mpr (h.grid q hq)
  rw [partition_keys h.nodup, partition_keys h0.nodup, finset_sum_keys _ h.nodup, finset_sum_keys _ h.nodup, finset_sum_keys _ h0.nodup]
  refine ⟨Finset.sum_le_sum fun q hq => ?_, Finset.sum_le_sum_of_subset_of_nonneg hsub fun q _ _ => sctWt_nonneg _ _ _, fun z hz => ?_⟩
  · rw [List.mem_toFinset] at hq
    exact ((h.get hq).2.missing (B := 0) (c := 0) hH (by simp) h0 β egs (h.grid q hq)).1
  · rw [finset_sum_keys _ h.nodup, finset_sum_keys _ h0.nodup, ← Finset.sum_sdiff hsub, ← Finset.sum_sdiff (f := fun q => sctWt β egs (sctAt es0 q)) hsub, add_sub_cancel_right,
      ← norm_neg, neg_sub, add_sub_cancel_right, Finset.sum_mul]
    refine (norm_sum_le _ _).trans (Finset.sum_le_sum fun q hq => ?_)
    have hq' : q ∈ es0.map Prod.fst := List.mem_toFinset.mp (Finset.mem_sdiff.mp hq).1
    exact sctVal_le hH hcar hz β egs (h0.subEspace.get hq').2

/-- `build_gf_lanczos` on part of the eigenstates. -/
theorem gfBuild_sub_acc {jk : ℝ} (ha : g.ham.Valid) (hw : g.ham.n ≤ g.w) (hc : g.cfg.Ok) (hpos : pos < g.ham.n) (h0 : EigenEspace g.ham.n g.ham.ham es0)
    (hes : SubEspace g.ham.n g.ham.ham es) {r : Except PyErr GfLOut} (hr : BuildGfLanczos g pos false es r) :
    ∃ out, r = .ok out ∧ SubEspace g.ham.n g.ham.ham out.es ∧ out.es.map Prod.fst = es.map Prod.fst ∧ out.gfh = out.gfe ∧ (∀ run ∈ out.log, run.Good g) ∧
      partition es g.beta g.egs ≤ out.gfe.Z ∧ out.gfe.Z ≤ ((es.map Prod.fst).map fun q => sctWt g.beta g.egs (sctAt es0 q)).sum ∧
      ∀ (e eta ε : ℝ), eta ≠ 0 → 0 ≤ ε → (∀ run ∈ out.log, run.AccLe g.ham.ham e eta ε) →
        ‖fsum jk out.gfe.funcs e eta - ((es.map Prod.fst).map fun q => sctVal g.ham.n g.ham.ham (cre ℝ (orb g.ispin (⟨pos, hpos⟩ : Fin g.ham.n))) g.beta g.egs (sctAt es0 q) (e + Complex.I * eta)).sum‖ ≤
          (((es.map Prod.fst).map fun q => sctWt g.beta g.egs (sctAt es0 q)).sum - partition es g.beta g.egs) * (1 / |eta|) +
            out.gfe.Z * (ε / eta ^ 2 + 2 * (g.cfg.delta ^ 2 / |eta|)) := by
  have hspec := gfHalf_spec (pos := pos) jk hc ha h0.basis.symm hw hpos
  have hB := grade_opOf (g := g) (grade_cre (n := g.ham.n) g.ispin ⟨pos, hpos⟩)
  unfold BuildGfLanczos at hr
  rcases hr with ⟨st, h1, h2⟩ | ⟨e, h1, h2⟩
  · obtain ⟨st', e1, hg, log, a1, a2, a3⟩ := gfLoop_sub hspec hB (c := 1) zero_le_one (car_cre _) h0 _ (st := ⟨es, [], [], []⟩) hes (fun q hq => hq) h1
    injection e1 with e1; subst e1
    simp only [List.nil_append] at a1
    simp only [DetR, Bool.false_eq_true, if_false] at h2
    have hk := hg.keys
    have hwt := hg.wt
    simp only at hk hwt
    refine ⟨_, h2, hg.sub, hk, rfl, by simp only [a1]; exact a2, ?_, ?_, fun e eta ε he hε hlog => ?_⟩
    · simp only
      rw [partition_keys hes.nodup, partition_keys hg.sub.nodup, hk]
      exact List.sum_le_sum fun q hq => hwt q hq
    · have := (hg.sub.compare (B := 0) (c := 0) (by simp) h0 g.beta g.egs).1
      rwa [hk] at this
    · simp only [a1] at hlog
      have := a3 e eta ε he hε hlog
      have e0 : fsum jk ([] : List GfFn) e eta = 0 := by simp [fsum]
      simp only [e0, sub_zero, one_mul] at this
      refine this.trans (le_of_eq ?_)
      simp only
      rw [partition_keys hes.nodup, partition_keys hg.sub.nodup, hk, List.sum_map_add, List.sum_map_mul_right, List.sum_map_mul_right, list_sum_map_sub]
  · obtain ⟨st', e1, -⟩ := gfLoop_sub hspec hB (c := 1) zero_le_one (car_cre _) h0 _ (st := ⟨es, [], [], []⟩) hes (fun q hq => hq) h1
    cases e1

theorem gfBuild_sub {jk : ℝ} (ha : g.ham.Valid) (hw : g.ham.n ≤ g.w) (hc : g.cfg.Ok) (hpos : pos < g.ham.n) (h0 : EigenEspace g.ham.n g.ham.ham es0)
    (hes : SubEspace g.ham.n g.ham.ham es) {r : Except PyErr GfLOut} (hr : BuildGfLanczos g pos false es r) :
    ∃ out, r = .ok out ∧ SubEspace g.ham.n g.ham.ham out.es ∧ out.es.map Prod.fst = es.map Prod.fst ∧ out.gfh = out.gfe ∧ (∀ run ∈ out.log, run.Good g) ∧
      partition es g.beta g.egs ≤ out.gfe.Z ∧ out.gfe.Z ≤ ((es.map Prod.fst).map fun q => sctWt g.beta g.egs (sctAt es0 q)).sum ∧
      ∀ (e eta ε : ℝ), eta ≠ 0 → 0 ≤ ε → (∀ run ∈ out.log, run.ResLe ε) →
        ‖fsum jk out.gfe.funcs e eta - ((es.map Prod.fst).map fun q => sctVal g.ham.n g.ham.ham (cre ℝ (orb g.ispin (⟨pos, hpos⟩ : Fin g.ham.n))) g.beta g.egs (sctAt es0 q) (e + Complex.I * eta)).sum‖ ≤
          (((es.map Prod.fst).map fun q => sctWt g.beta g.egs (sctAt es0 q)).sum - partition es g.beta g.egs) * (1 / |eta|) +
            out.gfe.Z * (ε / eta ^ 2 + 2 * (g.cfg.delta ^ 2 / |eta|)) := by
  obtain ⟨out, a1, a2, a3, a4, a5, a6, a7, a8⟩ := gfBuild_sub_acc (jk := jk) ha hw hc hpos h0 hes hr
  exact ⟨out, a1, a2, a3, a4, a5, a6, a7, fun e eta ε he hε hlog => a8 e eta ε he hε fun run hrun => (hlog run hrun).accLe hc (a5 run hrun).2 _ e eta he⟩

theorem gfBuild_sub_exists (ha : g.ham.Valid) (hw : g.ham.n ≤ g.w) (hc : g.cfg.Ok) (hpos : pos < g.ham.n) (hes : SubEspace g.ham.n g.ham.ham es) :
    ∃ r, BuildGfLanczos g pos false es r := by
  obtain ⟨es0, h0⟩ := eigenEspace_exists ha
  have hspec := gfHalf_spec (pos := pos) 0 hc ha h0.basis.symm hw hpos
  have hB := grade_opOf (g := g) (grade_cre (n := g.ham.n) g.ispin ⟨pos, hpos⟩)
  unfold BuildGfLanczos
  refine bindR_exists (forR_exists_inv (P := fun st => Grown g es st.es) (fun st hst q hq => ?_) (fun st hst q hq st' h => ?_) _ (.refl hes)) fun st _ => ⟨_, rfl⟩
  · have hq' : q ∈ st.es.map Prod.fst := by rw [hst.keys]; exact hq
    obtain ⟨h1, h2⟩ := hst.sub.get hq'
    have hgr := hst.sub.grid q hq'
    have hhalf : ∀ (op : Ladder) (I : Sct) (st : GfLSt), SubEspace g.ham.n g.ham.ham st.es → ∃ r, GfStepHalf (GfHalf g pos) g false op q I st r := by
      intro op I st hst
      unfold GfStepHalf
      rcases gfArrival_cases (s := g.ispin) (op := op) hgr with ⟨q', h1, -, h3⟩ | ⟨h1, -⟩
      · rw [h1]
        simp only [Int.toNat_natCast]
        exact bindR_exists (gfHalf_exists hc ha hw h3 fun p hp => (hst.sct p hp).toEigSct) fun x _ => ⟨_, rfl⟩
      · rw [h1]; exact ⟨_, rfl⟩
    unfold GfStep
    refine bindR_exists ⟨_, rfl⟩ fun I hI => bindR_exists (hhalf .cdg I st hst.sub) fun st1 hst1 => ?_
    have hI' : Except.ok I = dictGet st.es q := hI
    rw [h1] at hI'
    injection hI' with hI'; subst hI'
    obtain ⟨st1', hr, hg, -⟩ := gfStepHalf_sub hspec hB h0 .cdg hgr h2.toEigSct hst.sub hst1
    injection hr with hr; subst hr
    exact hhalf .c _ _ hg.sub
  · obtain ⟨st1', hr, hg, -⟩ := gfStep_sub hspec hB (car_cre _) h0 hst.sub (by rw [hst.keys]; exact hq) h
    injection hr with hr; subst hr
    exact hst.trans hg

/-- **C118** For every admissible Hamiltonian and every `espace` that holds part of its eigenstates — some sectors, some states of each — with
positive total Boltzmann weight: `build_gf_lanczos` returns, and the function returned differs from the thermal Green function at `e + iη` by at most
`ε / η² + 2 δ² / |η| + 2 D / (|η| K)`, where `K` is the Boltzmann weight of the states in `espace` and `D` that of the missing ones. -/
theorem C118_truncated (jk : ℝ) (ha : g.ham.Valid) (hw : g.ham.n ≤ g.w) (hc : g.cfg.Ok) (hpos : pos < g.ham.n) (h0 : EigenEspace g.ham.n g.ham.ham es0)
    (hes : SubEspace g.ham.n g.ham.ham es) (hK : 0 < partition es g.beta g.egs) :
    (∃ r, BuildGfLanczos g pos false es r) ∧ ∀ r, BuildGfLanczos g pos false es r →
      ∃ out, r = .ok out ∧ SubEspace g.ham.n g.ham.ham out.es ∧ out.es.map Prod.fst = es.map Prod.fst ∧ out.gfh = out.gfe ∧ (∀ run ∈ out.log, run.Good g) ∧
        ∀ (e eta ε : ℝ), eta ≠ 0 → 0 ≤ ε → (∀ run ∈ out.log, run.ResLe ε) → ∀ gr,
          IsGreen g.beta g.ham.ham (ann ℝ (orb g.ispin (⟨pos, hpos⟩ : Fin g.ham.n))) (cre ℝ (orb g.ispin (⟨pos, hpos⟩ : Fin g.ham.n))) (e + Complex.I * eta) gr →
          ‖out.gfe.call jk e eta - gr‖ ≤ ε / eta ^ 2 + 2 * (g.cfg.delta ^ 2 / |eta|) +
            2 * (partition es0 g.beta g.egs - partition es g.beta g.egs) / (|eta| * partition es g.beta g.egs) := by
  refine ⟨gfBuild_sub_exists ha hw hc hpos hes, fun r hr => ?_⟩
  obtain ⟨out, h1, h2, h3, h4, h5, h6, h7, h8⟩ := gfBuild_sub (jk := jk) ha hw hc hpos h0 hes hr
  refine ⟨out, h1, h2, h3, h4, h5, fun e eta ε he hε hlog gr hgr => ?_⟩
  have h9 := h8 e eta ε he hε hlog
  have him : (e + Complex.I * eta : ℂ).im = eta := by simp
  have hz : (e + Complex.I * eta : ℂ).im ≠ 0 := by rw [him]; exact he
  obtain ⟨c1, c2, c3⟩ := hes.compare (car_cre (orb g.ispin (⟨pos, hpos⟩ : Fin g.ham.n))) h0 g.beta g.egs
  have c3 := c3 _ hz
  obtain ⟨d1, d2⟩ := h0.green_sum (B := cre ℝ (orb g.ispin (⟨pos, hpos⟩ : Fin g.ham.n))) g.beta g.egs hz hgr
  have c4 : ‖(partition es0 g.beta g.egs : ℂ) * gr‖ ≤ partition es0 g.beta g.egs * (1 / |eta|) := by
    rw [d1]
    have := (h0.subEspace.compare (car_cre (orb g.ispin (⟨pos, hpos⟩ : Fin g.ham.n))) h0 g.beta g.egs).1
    rw [finset_sum_keys _ h0.nodup, partition_keys h0.nodup, finset_sum_keys _ h0.nodup, Finset.sum_mul]
    refine (norm_sum_le _ _).trans (Finset.sum_le_sum fun q hq => ?_)
    have := sctVal_le h0.basis.symm (car_cre (orb g.ispin (⟨pos, hpos⟩ : Fin g.ham.n))) hz g.beta g.egs (h0.subEspace.get (List.mem_toFinset.mp hq)).2
    rwa [him] at this
  rw [← d1, him] at c3
  set W := ((es.map Prod.fst).map fun q => sctWt g.beta g.egs (sctAt es0 q)).sum
  set S := ((es.map Prod.fst).map fun q => sctVal g.ham.n g.ham.ham (cre ℝ (orb g.ispin (⟨pos, hpos⟩ : Fin g.ham.n))) g.beta g.egs (sctAt es0 q) (e + Complex.I * eta)).sum
  set Z0 := partition es0 g.beta g.egs
  set K := partition es g.beta g.egs
  set Z := out.gfe.Z
  set F := fsum jk out.gfe.funcs e eta
  set κ := ε / eta ^ 2 + 2 * (g.cfg.delta ^ 2 / |eta|)
  have hZ : 0 < Z := hK.trans_le h6
  have ha0 : 0 < |eta| := abs_pos.mpr he
  have hgn : ‖gr‖ ≤ 1 / |eta| := by
    rw [norm_mul, Complex.norm_real, Real.norm_of_nonneg d2.le] at c4
    exact le_of_mul_le_mul_left c4 d2
  have hcall : out.gfe.call jk e eta = F / (Z : ℂ) := rfl
  have hZc : (Z : ℂ) ≠ 0 := by exact_mod_cast hZ.ne'
  have e1 : F / (Z : ℂ) - gr = ((F - S) + (S - (Z0 : ℂ) * gr) + ((Z0 - Z : ℝ) : ℂ) * gr) / (Z : ℂ) := by
    push_cast; field_simp; ring
  have e2 : ‖((Z0 - Z : ℝ) : ℂ) * gr‖ ≤ (Z0 - Z) * (1 / |eta|) := by
    rw [norm_mul, Complex.norm_real, Real.norm_of_nonneg (by linarith)]
    exact mul_le_mul_of_nonneg_left hgn (by linarith)
  have e3 : ‖(F - S) + (S - (Z0 : ℂ) * gr) + ((Z0 - Z : ℝ) : ℂ) * gr‖ ≤ Z * κ + 2 * (Z0 - K) * (1 / |eta|) := by
    refine (norm_add_le _ _).trans ?_
    refine (add_le_add ((norm_add_le _ _).trans (add_le_add h9 c3)) e2).trans ?_
    have : 0 ≤ 1 / |eta| := by positivity
    nlinarith
  rw [hcall, e1, norm_div, Complex.norm_real, Real.norm_of_nonneg hZ.le, div_le_iff₀ hZ]
  refine e3.trans ?_
  have e4 : 2 * (Z0 - K) * (1 / |eta|) ≤ 2 * (Z0 - K) / (|eta| * K) * Z := by
    rw [mul_one_div, div_mul_eq_mul_div, div_le_div_iff₀ ha0 (mul_pos ha0 hK)]
    have : 0 ≤ 2 * (Z0 - K) * |eta| * (Z - K) := mul_nonneg (mul_nonneg (by linarith) ha0.le) (by linarith)
    nlinarith
  linarith

/-! ### Where such an `espace` comes from -/

theorem SctSub.of_sublist {n : ℕ} {H : Matrix (Finset (Fin (n + n))) (Finset (Fin (n + n))) ℝ} {q : ℕ × ℕ} {I J : Sct} (hJ : SctSub n H q J) (hs : I.states = J.states) (hd : I.d = J.d)
    (hlen : I.eigvals.length = I.eigvecs.length) (h : (I.eigvals.zip I.eigvecs).Sublist (J.eigvals.zip J.eigvecs)) : SctSub n H q I := by
  obtain ⟨up, dw, hok⟩ := hJ.ok
  obtain ⟨f, hf⟩ := List.sublist_iff_exists_fin_orderEmbedding_get_eq.mp h
  have hI1 : (I.eigvals.zip I.eigvecs).length = I.eigvals.length := by rw [List.length_zip, ← hlen, min_self]
  have hJ1 : (J.eigvals.zip J.eigvecs).length = J.eigvals.length := by rw [List.length_zip, hok.len, min_self]
  let f' : ℕ → ℕ := fun k => if hk : k < (I.eigvals.zip I.eigvecs).length then (f ⟨k, hk⟩ : ℕ) else 0
  have hget : ∀ k < I.eigvals.length, f' k < J.eigvals.length ∧ I.ket n k = J.ket n (f' k) ∧ I.eigvals[k]?.getD 0 = J.eigvals[f' k]?.getD 0 := by
    intro k hk
    have hk' : k < (I.eigvals.zip I.eigvecs).length := by rw [hI1]; exact hk
    have e := hf ⟨k, hk'⟩
    have hf1 : f' k = (f ⟨k, hk'⟩ : ℕ) := by simp only [f', dif_pos hk']
    have hlt : f' k < J.eigvals.length := by rw [hf1, ← hJ1]; exact (f ⟨k, hk'⟩).2
    have hltv : f' k < J.eigvecs.length := by rw [hok.len]; exact hlt
    have hkv : k < I.eigvecs.length := by rw [← hlen]; exact hk
    simp only [List.get_eq_getElem, List.getElem_zip, Prod.mk.injEq] at e
    have e1 : I.eigvals[k] = J.eigvals[f' k] := by simp only [hf1]; exact e.1
    have e2 : I.eigvecs[k] = J.eigvecs[f' k] := by simp only [hf1]; exact e.2
    refine ⟨hlt, ?_, ?_⟩
    · unfold Sct.ket
      rw [hs, List.getElem?_eq_getElem hkv, List.getElem?_eq_getElem hltv, e2]
    · rw [List.getElem?_eq_getElem hk, List.getElem?_eq_getElem hlt, e1]
  have hinj : Set.InjOn f' (Finset.range I.eigvals.length) := by
    intro a ha b hb hab
    have ha' : a < (I.eigvals.zip I.eigvecs).length := by rw [hI1]; exact Finset.mem_range.mp ha
    have hb' : b < (I.eigvals.zip I.eigvecs).length := by rw [hI1]; exact Finset.mem_range.mp hb
    simp only [f', dif_pos ha', dif_pos hb'] at hab
    have := f.injective (Fin.ext hab)
    exact congrArg Fin.val this
  refine ⟨⟨⟨up, dw, by rw [hs]; exact hok.states, hok.hup, hok.hdw, by rw [hd]; exact hok.d, hlen.symm⟩, fun k hk => ?_⟩, ?_⟩
  · obtain ⟨a, b, c⟩ := hget k hk
    rw [b, c]; exact hJ.eig _ a
  · obtain ⟨J', h1, h2, f2, h3, h4⟩ := hJ.sub
    refine ⟨J', h1, h2, f2 ∘ f', ?_, fun k hk => ?_⟩
    · intro a ha b hb hab
      have ha' := (hget a (Finset.mem_range.mp ha)).1
      have hb' := (hget b (Finset.mem_range.mp hb)).1
      exact hinj ha hb (h3 (Finset.mem_coe.mpr (Finset.mem_range.mpr ha')) (Finset.mem_coe.mpr (Finset.mem_range.mpr hb')) hab)
    · obtain ⟨a, b, c⟩ := hget k hk
      obtain ⟨a', b', c'⟩ := h4 _ a
      exact ⟨a', b.trans b', c.trans c'⟩

theorem SubEspace.espaceOk {n : ℕ} {H : Matrix (Finset (Fin (n + n))) (Finset (Fin (n + n))) ℝ} (h : SubEspace n H es) : EspaceOk es :=
  ⟨h.nodup, fun p hp => by obtain ⟨up, dw, hok⟩ := (h.sct p hp).ok; exact hok.len.symm⟩

/-- `screen_espace` keeps part of the eigenstates. -/
theorem SubEspace.screen {n : ℕ} {H : Matrix (Finset (Fin (n + n))) (Finset (Fin (n + n))) ℝ} (h : SubEspace n H es) (egs beta cutoff : ℝ) :
    ∃ es', screenEspace es egs beta cutoff = .ok es' ∧ SubEspace n H es' := by
  obtain ⟨es', h1, h2, h3, h4⟩ := C30_screen_espace es h.espaceOk egs beta cutoff
  refine ⟨es', h1, h2.nodup, fun q hq => ?_, fun p' hp' => ?_⟩
  · rw [h3] at hq
    exact h.grid q (List.map_subset _ (List.filter_subset' _) hq)
  · obtain ⟨p, hp, e1, e2, e3, e4, -⟩ := h4 p' hp'
    rw [e1]
    exact (h.sct p hp).of_sublist e2 e3 (h2.pairs p' hp') (by rw [e4]; exact List.filter_sublist)

/-- `build_espace` with `neig_sector` returns part of the eigenstates. -/
theorem buildEspace_sub {a : HamArgs} (ha : a.Valid) {w : ℕ} (hw : a.n ≤ w) {neig : List ℕ} {e0 : WithTop ℝ} (h : BuildEspace w a (some neig) (.ok (es, e0))) :
    SubEspace a.n a.ham es := by
  obtain ⟨c1, c2, -⟩ := C28_build_espace ha hw neig es e0 h
  have hgrid : ∀ q ∈ es.map Prod.fst, q ∈ ndindex2 (a.n + 1) (a.n + 1) := fun q hq => by rw [c1] at hq; exact List.mem_of_mem_filter hq
  refine ⟨by rw [c1]; exact (nodup_ndindex2 _ _).filter _, hgrid, fun p hp => ?_⟩
  obtain ⟨d1, d2, ⟨D, w', v', e1, e2, e3, e4⟩, d4, d5⟩ := c2 p hp
  obtain ⟨b1, b2⟩ := mem_ndindex2.mp (hgrid _ (List.mem_map.mpr ⟨p, hp, rfl⟩))
  have su := sectorList_of_generate ha.le hw (by omega) (generateStates_gs (w := w) (n := a.n) (p := p.1.1) (by omega))
  have sd := sectorList_of_generate ha.le hw (by omega) (generateStates_gs (w := w) (n := a.n) (p := p.1.2) (by omega))
  have hd : p.2.d = (gs w a.n p.1.1).length * (gs w a.n p.1.2).length := by rw [d2, su.len, sd.len]
  have hsz : D.size = p.2.d := by rw [e1.size, hd]
  have hJ : EigSct a.n a.ham p.1 ⟨p.2.states, p.2.d, w', v'⟩ := by
    refine ⟨⟨_, _, d1, su, sd, hd, by simp only [e2.vlen, e2.wlen]⟩, fun k hk => ?_⟩
    simp only at hk
    have hkt : Sct.ket a.n ⟨p.2.states, p.2.d, w', v'⟩ k = ket a.n (gs w a.n p.1.1) (gs w a.n p.1.2) (v'[k]?.getD 0) := by
      unfold Sct.ket; simp only [d1]; rfl
    rw [hkt]
    apply sector_eigen su sd e1
    intro r hr
    have hkv : k < v'.length := by rw [e2.vlen, ← e2.wlen]; exact hk
    have := e2.eig k hkv hk r hr
    rw [List.getElem?_eq_getElem hkv, List.getElem?_eq_getElem hk]
    exact this
  have hc : Complete p.2.d v' := by
    refine ⟨by rw [e2.vlen, hsz], fun i j hi hj => ?_⟩
    have hiv : i < v'.length := by rw [e2.vlen, hsz]; exact hi
    have hjv : j < v'.length := by rw [e2.vlen, hsz]; exact hj
    have := e2.orth i j hiv hjv
    rw [hsz] at this
    rw [List.getElem?_eq_getElem hiv, List.getElem?_eq_getElem hjv]
    exact this
  refine (SctSub.of_complete hJ hc).of_sublist rfl rfl d5.symm ?_
  simp only [e3, e4]
  simp only [List.zip]
  rw [← List.take_zipWith]
  exact List.take_sublist _ _

/-! ### The weight of the screened states -/

/-- The Boltzmann weight at `β` that `screen_espace(espace, egs, bs, cutoff)` removes. -/
noncomputable def screenedOut (es : Espace (ℕ × ℕ)) (β egs bs cutoff : ℝ) : ℝ :=
  (es.map fun p => ((p.2.eigvals.filter fun E => decide (Real.exp (-bs * (E - egs)) ≤ cutoff)).map fun E => Real.exp (-β * (E - egs))).sum).sum

theorem filter_zip_fst (l : List ℝ) (v : List (ℕ → ℝ)) (h : l.length = v.length) (p : ℝ → Bool) : ((l.zip v).filter fun x => p x.1).map Prod.fst = l.filter p := by
  induction l generalizing v with
  | nil => simp
  | cons x l ih =>
    cases v with
    | nil => simp at h
    | cons y v =>
      simp only [List.length_cons, add_left_inj] at h
      simp only [List.zip_cons_cons, List.filter_cons]
      split
      · rw [List.map_cons, ih v h]
      · rw [ih v h]

theorem sum_filter_split (l : List ℝ) (p : ℝ → Bool) (f : ℝ → ℝ) : (l.map f).sum = ((l.filter p).map f).sum + ((l.filter fun x => !p x).map f).sum := by
  induction l with
  | nil => simp
  | cons x l ih =>
    simp only [List.map_cons, List.sum_cons, List.filter_cons, ih]
    cases p x <;> simp <;> ring

theorem partition_screen (h : EspaceOk es) (β egs bs cutoff : ℝ) {es' : Espace (ℕ × ℕ)} (hs : screenEspace es egs bs cutoff = .ok es') :
    partition es β egs - partition es' β egs = screenedOut es β egs bs cutoff := by
  rw [screenEspace_eq egs bs cutoff es h.pairs h.nodup] at hs
  injection hs with hs; subst hs
  have h1 : ∀ (l : Espace (ℕ × ℕ)), (∀ p ∈ l, p.2.eigvals.length = p.2.eigvecs.length) → partition l β egs - partition ((l.filter fun p => decide (survivors egs bs cutoff p.2 ≠ [])).map
      fun p => (p.1, screenedSct egs bs cutoff p.2)) β egs = screenedOut l β egs bs cutoff := by
    intro l
    induction l with
    | nil => intro _; simp [partition, screenedOut]
    | cons p l ih =>
      intro hl
      have ih := ih fun q hq => hl q (by simp [hq])
      have e1 : ((screenedSct egs bs cutoff p.2).eigvals.map fun E => Real.exp (-β * (E - egs))).sum +
          ((p.2.eigvals.filter fun E => decide (Real.exp (-bs * (E - egs)) ≤ cutoff)).map fun E => Real.exp (-β * (E - egs))).sum =
          (p.2.eigvals.map fun E => Real.exp (-β * (E - egs))).sum := by
        rw [sum_filter_split p.2.eigvals (fun E => keepE egs bs cutoff E)]
        congr 1
        · simp only [screenedSct, survivors]
          rw [filter_zip_fst _ _ (hl p (by simp))]
        · congr 2
          apply List.filter_congr
          intro E _
          simp only [keepE, gt_iff_lt]
          rw [← decide_not]
          exact decide_eq_decide.mpr not_lt.symm
      unfold partition screenedOut at ih ⊢
      simp only [List.map_cons, List.sum_cons, List.filter_cons]
      by_cases hne : survivors egs bs cutoff p.2 = []
      · have e2 : ((screenedSct egs bs cutoff p.2).eigvals.map fun E => Real.exp (-β * (E - egs))).sum = 0 := by
          simp [screenedSct, hne]
        simp only [hne, ne_eq, not_true, decide_false, Bool.false_eq_true, if_false]
        linarith
      · simp only [ne_eq, hne, not_false_eq_true, decide_true, if_true, List.map_cons, List.sum_cons]
        linarith
  exact h1 es h.pairs

/-- If the removed states have weight at most `κ`, at most `κ` per state is lost. -/
theorem screenedOut_le {κ : ℝ} (hκ0 : 0 ≤ κ) {n : ℕ} (h : CompleteEspace n es) {β egs bs cutoff : ℝ}
    (hκ : ∀ p ∈ es, ∀ E ∈ p.2.eigvals, Real.exp (-bs * (E - egs)) ≤ cutoff → Real.exp (-β * (E - egs)) ≤ κ) : screenedOut es β egs bs cutoff ≤ 4 ^ n * κ := by
  have hcard : partition es 0 egs = 4 ^ n := by
    rw [partition_eq h]
    simp only [zero_mul, neg_zero, Real.exp_zero, one_mul, Finset.sum_const, Finset.card_univ, nsmul_eq_mul, mul_one]
    rw [Fintype.card_sigma]
    simp only [Fintype.card_fin]
    rw [Fintype.sum_prod_type]
    simp only [← Finset.mul_sum]
    rw [← Finset.sum_mul]
    have : ∑ i : Fin (n + 1), n.choose i = 2 ^ n := by
      rw [← Finset.sum_range (fun i => n.choose i), Nat.sum_range_choose]
    rw [this]
    push_cast
    rw [← mul_pow]; norm_num
  rw [← hcard]
  unfold partition screenedOut
  rw [← List.sum_map_mul_right]
  apply List.sum_le_sum
  intro p hp
  rw [← List.sum_map_mul_right]
  have : ∀ l : List ℝ, (∀ E ∈ l, E ∈ p.2.eigvals) → ((l.filter fun E => decide (Real.exp (-bs * (E - egs)) ≤ cutoff)).map fun E => Real.exp (-β * (E - egs))).sum ≤
      (l.map fun E => Real.exp (-0 * (E - egs)) * κ).sum := by
    intro l
    induction l with
    | nil => intro _; simp
    | cons E l ih =>
      intro hl
      have ih := ih fun x hx => hl x (by simp [hx])
      simp only [List.filter_cons, List.map_cons, List.sum_cons]
      by_cases hE : Real.exp (-bs * (E - egs)) ≤ cutoff
      · have := hκ p hp E (hl E (by simp)) hE
        simp only [hE, decide_true, if_true, List.map_cons, List.sum_cons, neg_zero, zero_mul, Real.exp_zero, one_mul] at ih ⊢
        linarith
      · simp only [hE, decide_false, Bool.false_eq_true, if_false, neg_zero, zero_mul, Real.exp_zero, one_mul] at ih ⊢
        linarith
  exact this _ fun _ h => h

/-- A state with energy `egs` has weight one. -/
theorem one_le_partition {β egs : ℝ} (h : ∃ p ∈ es, egs ∈ p.2.eigvals) : 1 ≤ partition es β egs := by
  obtain ⟨p, hp, hE⟩ := h
  unfold partition
  have h1 : ((p.2.eigvals.map fun E => Real.exp (-β * (E - egs))).sum) ≤ (es.map fun p => (p.2.eigvals.map fun E => Real.exp (-β * (E - egs))).sum).sum := by
    refine List.single_le_sum ?_ _ (List.mem_map.mpr ⟨p, hp, rfl⟩)
    intro x hx
    obtain ⟨q, -, rfl⟩ := List.mem_map.mp hx
    exact List.sum_nonneg fun y hy => by obtain ⟨E, -, rfl⟩ := List.mem_map.mp hy; exact (Real.exp_pos _).le
  have h2 : (1 : ℝ) ≤ (p.2.eigvals.map fun E => Real.exp (-β * (E - egs))).sum := by
    refine List.single_le_sum ?_ _ (List.mem_map.mpr ⟨egs, hE, by simp⟩)
    intro x hx
    obtain ⟨E, -, rfl⟩ := List.mem_map.mp hx
    exact (Real.exp_pos _).le
  exact h2.trans h1

/-- `build_espace` without truncation. -/
theorem buildEspace_none_some {a : HamArgs} {w : ℕ} {r : Except PyErr (Espace (ℕ × ℕ) × WithTop ℝ)} (h : BuildEspace w a none r) : ∃ l, BuildEspace w a (some l) r := by
  have hl : neigOrDefault a.n none .sz = .ok ((ndindex2 (a.n + 1) (a.n + 1)).map fun p => a.n.choose p.1 * a.n.choose p.2) := by
    simp only [neigOrDefault]; rw [getEspaceDim_sz]; simp [clipDim]
  simp only [BuildEspace, hl] at h
  exact ⟨_, by simpa only [BuildEspace, neigOrDefault] using h⟩

/-- The energy returned by `build_espace` is the lowest of the energies returned. -/
theorem buildEspace_least {a : HamArgs} (ha : a.Valid) {w : ℕ} (hw : a.n ≤ w) {e0 : WithTop ℝ} (h : BuildEspace w a none (.ok (es, e0))) :
    ∃ E : ℝ, e0 = E ∧ IsLeast {x | ∃ p ∈ es, x ∈ p.2.eigvals} E := by
  obtain ⟨l, hl⟩ := buildEspace_none_some h
  rcases (C28_build_espace ha hw l es e0 hl).2.2 with ⟨he, -⟩ | h1
  · have hk := (buildEspace_complete' ha hw h).2
    have : (0, 0) ∈ ndindex2 (a.n + 1) (a.n + 1) := mem_ndindex2.mpr ⟨by omega, by omega⟩
    rw [← hk, he] at this
    simp at this
  · exact h1

/-- The states that `screen_espace` removes from a complete `espace`, and the state it never removes. -/
theorem screen_weights {a : HamArgs} (ha : a.Valid) {w : ℕ} (hw : a.n ≤ w) {egs : ℝ} (h : BuildEspace w a none (.ok (es, (egs : WithTop ℝ)))) {β bs cutoff : ℝ} (hbs : 0 ≤ bs) (hβ : bs ≤ β)
    (hc0 : 0 ≤ cutoff) (hc1 : cutoff < 1) {es' : Espace (ℕ × ℕ)} (hs : screenEspace es egs bs cutoff = .ok es') :
    1 ≤ partition es' β egs ∧ partition es β egs - partition es' β egs ≤ 4 ^ a.n * cutoff := by
  obtain ⟨E, hE, ⟨p, hp, hEp⟩, hmin⟩ := buildEspace_least ha hw h
  have hE' : egs = E := by exact_mod_cast hE
  subst hE'
  have hes := buildEspace_eigen ha hw h
  have hok := hes.subEspace.espaceOk
  constructor
  · obtain ⟨p', h1, -, h2⟩ := C30_ground_state es es' hok egs bs cutoff hc1 p hp hEp hs
    exact one_le_partition ⟨p', h1, h2⟩
  · rw [partition_screen hok β egs bs cutoff hs]
    refine screenedOut_le hc0 hes.toCompleteEspace fun p hp E hE hle => le_trans ?_ hle
    have hge : egs ≤ E := hmin ⟨p, hp, hE⟩
    apply Real.exp_le_exp.mpr
    nlinarith

/-- **C118** from the calls `build_espace(H, V)`, `screen_espace(espace, egs, beta, cutoff)`, `build_gf_lanczos(H, V, espace, beta, egs, pos)`: screening costs at
most `2 · 4ⁿ · cutoff / |η|`. -/
theorem C118_screened (jk : ℝ) (ha : g.ham.Valid) (hw : g.ham.n ≤ g.w) (hc : g.cfg.Ok) (hpos : pos < g.ham.n) (hβ : 0 ≤ g.beta)
    (h : BuildEspace g.w g.ham none (.ok (es, (g.egs : WithTop ℝ)))) {cutoff : ℝ} (hc0 : 0 ≤ cutoff) (hc1 : cutoff < 1) :
    ∃ es', screenEspace es g.egs g.beta cutoff = .ok es' ∧ (∃ r, BuildGfLanczos g pos false es' r) ∧ ∀ r, BuildGfLanczos g pos false es' r →
      ∃ out, r = .ok out ∧ ∀ (e eta ε : ℝ), eta ≠ 0 → 0 ≤ ε → (∀ run ∈ out.log, run.ResLe ε) → ∀ gr,
        IsGreen g.beta g.ham.ham (ann ℝ (orb g.ispin (⟨pos, hpos⟩ : Fin g.ham.n))) (cre ℝ (orb g.ispin (⟨pos, hpos⟩ : Fin g.ham.n))) (e + Complex.I * eta) gr →
        ‖out.gfe.call jk e eta - gr‖ ≤ ε / eta ^ 2 + 2 * (g.cfg.delta ^ 2 / |eta|) + 2 * (4 ^ g.ham.n * cutoff) / |eta| := by
  have h0 := buildEspace_eigen ha hw h
  obtain ⟨es', h1, h2⟩ := h0.subEspace.screen g.egs g.beta cutoff
  obtain ⟨k1, k2⟩ := screen_weights ha hw h hβ le_rfl hc0 hc1 h1
  obtain ⟨t1, t2⟩ := C118_truncated jk ha hw hc hpos h0 h2 (by linarith)
  refine ⟨es', h1, t1, fun r hr => ?_⟩
  obtain ⟨out, e1, -, -, -, -, hb⟩ := t2 r hr
  refine ⟨out, e1, fun e eta ε he hε hlog gr hg => (hb e eta ε he hε hlog gr hg).trans ?_⟩
  have ha0 : 0 < |eta| := abs_pos.mpr he
  have : 2 * (partition es g.beta g.egs - partition es' g.beta g.egs) / (|eta| * partition es' g.beta g.egs) ≤ 2 * (4 ^ g.ham.n * cutoff) / |eta| := by
    rw [div_le_div_iff₀ (mul_pos ha0 (by linarith)) ha0]
    have h4 : (0 : ℝ) ≤ 4 ^ g.ham.n * cutoff := by positivity
    have : 2 * (4 ^ g.ham.n * cutoff) * |eta| ≤ 2 * (4 ^ g.ham.n * cutoff) * (|eta| * partition es' g.beta g.egs) := by
      apply mul_le_mul_of_nonneg_left _ (by positivity)
      nlinarith
    nlinarith
  linarith

end
end Edpyt
