import Verif.Model.SpinImp
import Verif.Props.Relabel
import Verif.Props.SelfEnergy
/-!
C114, C115: the spin-dependent impurity object.
-/
namespace Edpyt
open Matrix Spec

/-- The arguments of `build_espace` and `build_gf_lanczos` in `SpinGfimp.solve`, `edpyt/dmft.py:240-251`: the array `H` of both spins, `V` of the up object and the default
global parameters. -/
def SpinImp.args (n : ℕ) (p : SpinImp) (U : ℝ) : HamArgs := ⟨n, p.H, .array fun i j => if i = 0 ∧ j = 0 then U else 0, none, false, 0⟩

/-- Whether the Hamiltonian of each spin holds its current bath parameters: they do after a fit, they do not after a reset, and `spin_symmetrize` copies the up object. -/
def SpinOp.fresh (f : Bool → Bool) : SpinOp → Bool → Bool
  | .spin s (.fit _ _) => Function.update f s true
  | .spin _ (.update _) => f
  | .spin s (.resetBath _ _) => Function.update f s false
  | .fit _ _ => fun _ => true
  | .fitUpdate _ _ _ => fun _ => true
  | .update _ => f
  | .resetBath _ _ => fun _ => false
  | .symmetrize => fun _ => f false

/-- After a history of calls on a new object. -/
def freshAfter (ops : List SpinOp) : Bool → Bool := ops.foldl SpinOp.fresh fun _ => false

/-- The array of an impurity with the levels `e` and the couplings `v`. -/
structure Arms (nb : ℕ) (H : ℕ → ℕ → ℝ) (e v : ℕ → ℝ) : Prop where
  row : ∀ k < nb, H 0 (k + 1) = v k ∧ H (k + 1) 0 = v k
  diag : ∀ k < nb, H (k + 1) (k + 1) = e k
  bath : BathDiag (nb + 1) H

theorem Arms.siam {nb : ℕ} {H : ℕ → ℕ → ℝ} {e v : ℕ → ℝ} (h : Arms nb H e v) : toMat nb H = siam (H 0 0) (fun k : Fin nb => e k) (fun k : Fin nb => v k) :=
  toMat_siam rfl h.row h.diag h.bath

theorem Arms.fit {nb : ℕ} {i : Imp} (h : BathDiag (nb + 1) i.H) (ek vk : ℕ → ℝ) : Arms nb (i.step (nb + 1) (.fit ek vk)).H ek vk := by
  refine ⟨fun k hk => ?_, fun k hk => ?_, step_bathDiag h _⟩
  · simp only [Imp.step]
    rw [setFlatDiag_eq _ _ (by omega) (by omega), setFlatDiag_eq _ _ (by omega) (by omega), if_neg (by omega), if_neg (by omega)]
    simp [setArms, hk]
  · simp only [Imp.step]
    rw [setFlatDiag_eq _ _ (by omega) (by omega), if_pos (by omega)]
    simp

theorem Arms.update {nb : ℕ} {H : ℕ → ℕ → ℝ} {e v : ℕ → ℝ} (h : Arms nb H e v) (mu : ℝ) : Arms nb (fun i j => if i = 0 ∧ j = 0 then mu else H i j) e v := by
  refine ⟨fun k hk => ?_, fun k hk => ?_, fun i j hi hin hj hjn hij => ?_⟩
  · simpa using h.row k hk
  · simpa using h.diag k hk
  · show (if i = 0 ∧ j = 0 then mu else H i j) = 0
    rw [if_neg (by omega)]
    exact h.bath i j hi hin hj hjn hij

/-- Invariant of every history. -/
structure SpinImp.Ok (nb : ℕ) (p : SpinImp) (f : Bool → Bool) : Prop where
  arms : ∀ s, ∃ e v, Arms nb (p.H (spinIdx s)) e v ∧ (f s = true → e = p.ek s ∧ v = p.vk s)
  rest : ∀ s, 2 ≤ s → p.H s = fun _ _ => 0

theorem spinIdx_inj {s s' : Bool} : spinIdx s = spinIdx s' ↔ s = s' := by cases s <;> cases s' <;> simp [spinIdx]

theorem SpinImp.put_ok {nb : ℕ} {p : SpinImp} {f : Bool → Bool} (h : p.Ok nb f) (s : Bool) (i : Imp) (b : Bool) {e v : ℕ → ℝ} (hi : Arms nb i.H e v) (hb : b = true → e = i.ek ∧ v = i.vk) :
    (p.put s i).Ok nb (Function.update f s b) := by
  refine ⟨fun s' => ?_, fun s' hs' => ?_⟩
  · by_cases hs : s' = s
    · subst hs
      refine ⟨e, v, ?_, ?_⟩
      · simpa [SpinImp.put] using hi
      · simpa [SpinImp.put] using hb
    · have : spinIdx s' ≠ spinIdx s := fun hh => hs (spinIdx_inj.mp hh)
      simpa [SpinImp.put, Function.update_of_ne hs, Function.update_of_ne this] using h.arms s'
  · have : s' ≠ spinIdx s := by cases s <;> simp [spinIdx] <;> omega
    simpa [SpinImp.put, Function.update_of_ne this] using h.rest s' hs'

theorem SpinImp.each_ok {nb : ℕ} {p : SpinImp} {f : Bool → Bool} (h : p.Ok nb f) (op : Bool → List ImpOp) (b : Bool)
    (hop : ∀ (i : Imp) (s : Bool) (e v : ℕ → ℝ), Arms nb i.H e v → ∃ e' v', Arms nb (i.run (nb + 1) (op s)).H e' v' ∧ (b = true → e' = (i.run (nb + 1) (op s)).ek ∧ v' = (i.run (nb + 1) (op s)).vk)) :
    (p.each (nb + 1) op).Ok nb fun _ => b := by
  unfold SpinImp.each
  simp only [List.foldl_cons, List.foldl_nil]
  have step : ∀ (q : SpinImp) (g : Bool → Bool) (s : Bool), q.Ok nb g → (q.put s ((q.get s).run (nb + 1) (op s))).Ok nb (Function.update g s b) := by
    intro q g s hq
    obtain ⟨e, v, h1, -⟩ := hq.arms s
    obtain ⟨e', v', h2, h3⟩ := hop (q.get s) s e v h1
    exact SpinImp.put_ok hq s _ b h2 h3
  have := step _ _ true (step _ _ false h)
  have hf : Function.update (Function.update f false b) true b = fun _ => b := by
    funext s; cases s <;> simp [Function.update]
  rwa [hf] at this

theorem SpinImp.step_ok {nb : ℕ} {p : SpinImp} {f : Bool → Bool} (h : p.Ok nb f) (op : SpinOp) : (p.step (nb + 1) op).Ok nb (op.fresh f) := by
  cases op with
  | spin s op =>
    obtain ⟨e, v, h1, h2⟩ := h.arms s
    cases op with
    | fit ek vk => exact SpinImp.put_ok h s _ true (Arms.fit (i := p.get s) h1.bath ek vk) fun _ => ⟨rfl, rfl⟩
    | update mu =>
      have := SpinImp.put_ok h s ((p.get s).step (nb + 1) (.update mu)) (f s) (h1.update (-mu)) h2
      rwa [Function.update_eq_self] at this
    | resetBath ek0 vk0 => exact SpinImp.put_ok h s _ false (e := e) (v := v) h1 (by simp)
  | fit ek vk =>
    exact SpinImp.each_ok h _ true fun i s e v hi => ⟨ek s, vk s, Arms.fit hi.bath _ _, fun _ => ⟨rfl, rfl⟩⟩
  | fitUpdate ek vk mu =>
    exact SpinImp.each_ok h _ true fun i s e v hi => ⟨ek s, vk s, (Arms.fit hi.bath _ _).update (-mu), fun _ => ⟨rfl, rfl⟩⟩
  | resetBath ek0 vk0 =>
    exact SpinImp.each_ok h _ false fun i s e v hi => ⟨e, v, hi, by simp⟩
  | update mu =>
    refine ⟨fun s => ?_, fun s hs => ?_⟩
    · obtain ⟨e, v, h1, h2⟩ := h.arms s
      refine ⟨e, v, ?_, h2⟩
      have hs : spinIdx s < 2 := by cases s <;> simp [spinIdx]
      simpa only [SpinImp.step, hs, true_and] using h1.update (-mu)
    · simp only [SpinImp.step]
      rw [h.rest s hs]
      simp only [show ¬ s < 2 by omega, false_and, if_false]
  | symmetrize =>
    obtain ⟨e, v, h1, h2⟩ := h.arms false
    refine ⟨fun s => ⟨e, v, ?_, fun hf => ?_⟩, fun s hs => ?_⟩
    · cases s
      · simpa [SpinImp.step, spinIdx] using h1
      · simpa [SpinImp.step, spinIdx] using h1
    · have := h2 hf
      cases s
      · simpa [SpinImp.step] using this
      · simpa [SpinImp.step] using this
    · simp only [SpinImp.step]
      rw [Function.update_of_ne (by omega)]
      exact h.rest s hs

theorem SpinImp.run_ok {nb : ℕ} {p : SpinImp} {f : Bool → Bool} (h : p.Ok nb f) (ops : List SpinOp) : (p.run (nb + 1) ops).Ok nb (ops.foldl SpinOp.fresh f) := by
  induction ops generalizing p f with
  | nil => exact h
  | cons op ops ih => exact ih (SpinImp.step_ok h op)

variable (nb : ℕ) (ek0 vk0 : ℕ → ℝ)

/-- The object after a history of calls. -/
def spinAfter (ops : List SpinOp) : SpinImp := (SpinImp.init ek0 vk0).run (nb + 1) ops

theorem spinAfter_ok (ops : List SpinOp) : (spinAfter nb ek0 vk0 ops).Ok nb (freshAfter ops) :=
  SpinImp.run_ok ⟨fun _ => ⟨fun _ => 0, fun _ => 0, ⟨fun _ _ => ⟨rfl, rfl⟩, fun _ _ => rfl, fun _ _ _ _ _ _ _ => rfl⟩, by simp⟩, fun _ _ => rfl⟩ ops

theorem SpinImp.Ok.valid {nb : ℕ} {p : SpinImp} {f : Bool → Bool} (h : p.Ok nb f) (h1 : 1 ≤ nb) (h2 : nb ≤ 31) (U : ℝ) : (p.args (nb + 1) U).Valid := by
  refine ⟨by simp only [SpinImp.args]; omega, by simp only [SpinImp.args]; omega, rfl, ?_, by simp [SpinImp.args, VArg.array], by simp [SpinImp.args, VArg.array], by simp [SpinImp.args, VArg.array]⟩
  intro s i j hi hj
  simp only [SpinImp.args] at hi hj ⊢
  by_cases hs : 2 ≤ s
  · rw [h.rest s hs]
  · obtain ⟨b, rfl⟩ : ∃ b, s = spinIdx b := by
      rcases (by omega : s = 0 ∨ s = 1) with rfl | rfl
      · exact ⟨false, rfl⟩
      · exact ⟨true, rfl⟩
    obtain ⟨e, v, h3, -⟩ := h.arms b
    have := siam_symm (p.H (spinIdx b) 0 0) (fun k : Fin nb => e k) (fun k : Fin nb => v k)
    rw [← h3.siam] at this
    exact (this.apply ⟨i, hi⟩ ⟨j, hj⟩).symm

theorem SpinImp.args_only (n : ℕ) (p : SpinImp) (U : ℝ) : (p.args (n + 1) U).ImpurityOnly (0 : Fin (n + 1)) := by
  refine ⟨fun i j _ _ h => ?_, rfl, rfl⟩
  simp only [SpinImp.args, VArg.array, Option.getD_some]
  rw [if_neg (by simpa using h)]

/-- Cutting the small couplings of an impurity array. -/
theorem Arms.kept {nb : ℕ} {H : ℕ → ℕ → ℝ} {e v : ℕ → ℝ} (h : Arms nb H e v) (i j : Fin (nb + 1)) :
    kept (n := nb + 1) (0 : ℝ) H i j = Spec.siam (H 0 0) (fun k : Fin nb => e k) (fun k : Fin nb => keptCouplings v k) i j := by
  rw [kept_apply]
  have e' : ∀ i j : Fin (nb + 1), H i j = toMat nb H i j := fun _ _ => rfl
  rw [e', e', h.siam]
  unfold Spec.siam
  simp only [Matrix.of_apply]
  refine Fin.cases ?_ (fun k => ?_) i <;> refine Fin.cases ?_ (fun l => ?_) j
  · simp
  · rw [if_neg (Fin.succ_ne_zero l).symm]
    simp [keptCouplings]
  · rw [if_neg (Fin.succ_ne_zero k)]
    simp [keptCouplings]
  · by_cases hkl : k = l
    · simp [hkl]
    · simp [hkl]

variable {nb ek0 vk0}
variable {junk : ℕ} {es : Espace (ℕ × ℕ)} {egs beta : ℝ}

/-- **C114** `SpinGfimp.Sigma`, for every history of calls and each spin whose Hamiltonian is up to date: its self-energy plus the hybridisation of its couplings below the cut `1e-7`
is the local self-energy of the spin-dependent impurity problem. -/
theorem C114_dyson_cut (hn : 1 ≤ nb) (hn' : nb ≤ 31) (U : ℝ) (ops : List SpinOp) (sp : Bool) (hf : freshAfter ops sp = true) {z : ℂ} (hz : z.im ≠ 0) {gf : Bool → ℂ → ℂ}
    {G : Matrix (Fin (nb + 1)) (Fin (nb + 1)) ℂ}
    (hG : ∀ i j, IsGreen (ι := Finset (Fin (nb + 1 + (nb + 1)))) beta ((spinAfter nb ek0 vk0 ops).args (nb + 1) U).ham (ann ℝ (orb sp i)) (cre ℝ (orb sp j)) z (G i j))
    (hgf : gf sp z = G 0 0) :
    LocalDyson (siam ((spinAfter nb ek0 vk0 ops).H (spinIdx sp) 0 0) (fun k : Fin nb => (spinAfter nb ek0 vk0 ops).ek sp k) (fun k : Fin nb => keptCouplings ((spinAfter nb ek0 vk0 ops).vk sp) k)) 0 z
      ((spinAfter nb ek0 vk0 ops).sigma (nb + 1) gf sp z +
        hybridisation (fun k : Fin nb => (spinAfter nb ek0 vk0 ops).ek sp k) (fun k : Fin nb => droppedCouplings ((spinAfter nb ek0 vk0 ops).vk sp) k) z) G := by
  set p := spinAfter nb ek0 vk0 ops with hp
  have hok : p.Ok nb (freshAfter ops) := spinAfter_ok nb ek0 vk0 ops
  obtain ⟨e, v, h3, h4⟩ := hok.arms sp
  obtain ⟨rfl, rfl⟩ := h4 hf
  have ha := hok.valid hn hn' U
  obtain ⟨es, hes⟩ := eigenEspace_exists ha
  have h := (SpinImp.args_only nb p U).dyson ha hes sp hz (beta := beta) (G := G) hG
  have h1 : ((p.args (nb + 1) U).oneBody sp : Matrix (Fin (nb + 1)) (Fin (nb + 1)) ℝ) =
      siam (p.H (spinIdx sp) 0 0) (fun k : Fin nb => p.ek sp k) (fun k : Fin nb => keptCouplings (p.vk sp) k) :=
    funext fun i => funext fun j => h3.kept i j
  rw [h1] at h
  have hnr := siam_nonreal (p.H (spinIdx sp) 0 0) (fun k : Fin nb => p.ek sp k) (fun k : Fin nb => keptCouplings (p.vk sp) k) hz
  have h4 := siam_green hnr.1 hnr.2
  unfold impurityGreen at h4
  have h5 : p.sigma (nb + 1) gf sp z + hybridisation (fun k : Fin nb => p.ek sp k) (fun k : Fin nb => droppedCouplings (p.vk sp) k) z =
      (Spec.resolvent z (siam (p.H (spinIdx sp) 0 0) (fun k : Fin nb => p.ek sp k) (fun k : Fin nb => keptCouplings (p.vk sp) k)) 0 0)⁻¹ - (G 0 0)⁻¹ := by
    rw [← hgf, h4, inv_inv]
    unfold SpinImp.sigma Imp.sigma Imp.freeInv
    rw [Nat.add_sub_cancel, deltaEval_eq]
    simp only [SpinImp.get]
    rw [hybridisation_split]
    ring
  rw [h5]
  exact h

/-- **C114** the same for couplings that are zero or above the cut: the self-energy solves Dyson's equation of the impurity problem with exactly the bath of that spin. -/
theorem C114_dyson (hn : 1 ≤ nb) (hn' : nb ≤ 31) (U : ℝ) (ops : List SpinOp) (sp : Bool) (hf : freshAfter ops sp = true)
    (hv : ∀ k < nb, (spinAfter nb ek0 vk0 ops).vk sp k = 0 ∨ 1 / 10 ^ 7 < |(spinAfter nb ek0 vk0 ops).vk sp k|) {z : ℂ} (hz : z.im ≠ 0) {gf : Bool → ℂ → ℂ}
    {G : Matrix (Fin (nb + 1)) (Fin (nb + 1)) ℂ}
    (hG : ∀ i j, IsGreen (ι := Finset (Fin (nb + 1 + (nb + 1)))) beta ((spinAfter nb ek0 vk0 ops).args (nb + 1) U).ham (ann ℝ (orb sp i)) (cre ℝ (orb sp j)) z (G i j))
    (hgf : gf sp z = G 0 0) :
    LocalDyson (siam ((spinAfter nb ek0 vk0 ops).H (spinIdx sp) 0 0) (fun k : Fin nb => (spinAfter nb ek0 vk0 ops).ek sp k) (fun k : Fin nb => (spinAfter nb ek0 vk0 ops).vk sp k)) 0 z
      ((spinAfter nb ek0 vk0 ops).sigma (nb + 1) gf sp z) G := by
  have h := C114_dyson_cut hn hn' U ops sp hf hz hG hgf
  obtain ⟨h1, h2⟩ := kept_of_large nb hv
  rwa [h1, h2, hybridisation_zero, add_zero] at h

/-- **C114** with the Green functions that the code computes (`build_gf2_exact` of both spins). -/
theorem C114_exact (hn : 1 ≤ nb) (hn' : nb ≤ 31) (U : ℝ) (ops : List SpinOp) (hf : ∀ sp, freshAfter ops sp = true)
    (hv : ∀ sp, ∀ k < nb, (spinAfter nb ek0 vk0 ops).vk sp k = 0 ∨ 1 / 10 ^ 7 < |(spinAfter nb ek0 vk0 ops).vk sp k|)
    (hes : EigenEspace (nb + 1) ((spinAfter nb ek0 vk0 ops).args (nb + 1) U).ham es) :
    ∃ G : Bool → ℕ → ℕ → GfEx, (∀ sp, buildGf2Exact junk (nb + 1) es beta egs sp = .ok (G sp)) ∧
      ∀ (sp : Bool) (z : ℂ), z.im ≠ 0 →
        LocalDyson (siam ((spinAfter nb ek0 vk0 ops).H (spinIdx sp) 0 0) (fun k : Fin nb => (spinAfter nb ek0 vk0 ops).ek sp k) (fun k : Fin nb => (spinAfter nb ek0 vk0 ops).vk sp k)) 0 z
          ((spinAfter nb ek0 vk0 ops).sigma (nb + 1) (fun sp z => (G sp 0 0).call z.re z.im) sp z) (Matrix.of fun i j : Fin (nb + 1) => (G sp i j).call z.re z.im) := by
  have h : ∀ sp, _ := fun sp => C93_gf2_exact (junk := junk) (beta := beta) (egs := egs) (by omega) hes sp
  choose G h1 h2 using h
  refine ⟨G, h1, fun sp z hz => ?_⟩
  have ez : z = (z.re : ℂ) + Complex.I * (z.im : ℂ) := by rw [mul_comm]; exact (Complex.re_add_im z).symm
  refine C114_dyson (beta := beta) hn hn' U ops sp (hf sp) (hv sp) hz (fun i j => ?_) rfl
  have := (h2 sp i j z.re z.im hz _).mpr rfl
  rw [← ez] at this
  exact this

/-- **C114** with the Green functions of `build_gf_lanczos`, one run for each spin, as in `SpinGfimp.solve` with the complete espace. -/
theorem C114_lanczos {g : GfLArgs} (jk : ℝ) (hn : 1 ≤ nb) (hn' : nb ≤ 31) (U : ℝ) (ops : List SpinOp) (hg : g.ham = (spinAfter nb ek0 vk0 ops).args (nb + 1) U)
    (hw : nb + 1 ≤ g.w) (hc : g.cfg.Ok) (hes : EigenEspace (nb + 1) ((spinAfter nb ek0 vk0 ops).args (nb + 1) U).ham es)
    {out : GfLOut} (hr : BuildGfLanczos g 0 false es (.ok out)) {z : ℂ} (hz : z.im ≠ 0) (ε : ℝ) (h0 : 0 ≤ ε) (hε : ∀ run ∈ out.log, run.ResLe ε) {γ : ℂ}
    (hγ : IsGreen (ι := Finset (Fin (nb + 1 + (nb + 1)))) g.beta ((spinAfter nb ek0 vk0 ops).args (nb + 1) U).ham (ann ℝ (orb g.ispin (0 : Fin (nb + 1)))) (cre ℝ (orb g.ispin (0 : Fin (nb + 1)))) z γ)
    (hδ : ε / z.im ^ 2 + 2 * (g.cfg.delta ^ 2 / |z.im|) < ‖γ‖) :
    ‖(spinAfter nb ek0 vk0 ops).sigma (nb + 1) (fun _ z => out.gfe.call jk z.re z.im) g.ispin z - (spinAfter nb ek0 vk0 ops).sigma (nb + 1) (fun _ _ => γ) g.ispin z‖ ≤
      (ε / z.im ^ 2 + 2 * (g.cfg.delta ^ 2 / |z.im|)) / (‖γ‖ * (‖γ‖ - (ε / z.im ^ 2 + 2 * (g.cfg.delta ^ 2 / |z.im|)))) := by
  obtain ⟨cfg, rep, w, junk, ham, beta, egs, ispin⟩ := g
  simp only at hg
  subst hg
  have ez : z = (z.re : ℂ) + Complex.I * (z.im : ℂ) := by rw [mul_comm]; exact (Complex.re_add_im z).symm
  have ha := (spinAfter_ok nb ek0 vk0 ops).valid hn hn' U
  obtain ⟨out', e1, -, -, -, h⟩ := (C98_gf_lanczos (g := ⟨cfg, rep, w, junk, (spinAfter nb ek0 vk0 ops).args (nb + 1) U, beta, egs, ispin⟩) jk ha hw hc
    (pos := 0) (Nat.succ_pos nb) hes false).2 _ hr
  injection e1 with e1; subst e1
  have him : ((z.re : ℂ) + Complex.I * (z.im : ℂ)).im ≠ 0 := by rw [← ez]; exact hz
  obtain ⟨ge, gh, hp⟩ := greenParts_exist hes beta (ann ℝ (orb ispin (0 : Fin (nb + 1)))) (cre ℝ (orb ispin (0 : Fin (nb + 1)))) him
  have hd := h z.re z.im ε hz h0 hε ge gh hp
  rw [if_neg (by simp)] at hd
  have hγ' : ge + gh = γ := by
    rw [ez] at hγ
    rw [(hes.basis.green beta _ _ him _).mp hγ, ← (hes.basis.green beta _ _ him _).mp (IsGreenParts.isGreen hp)]
  rw [hγ'] at hd
  simp only [SpinImp.sigma, Imp.sigma]
  set δ := ε / z.im ^ 2 + 2 * (cfg.delta ^ 2 / |z.im|) with hδ'
  set γ' := out.gfe.call jk z.re z.im
  have hδ0 : 0 ≤ δ := le_trans (norm_nonneg _) hd
  have hγ0 : 0 < ‖γ‖ := lt_of_le_of_lt hδ0 hδ
  have hγ1 : ‖γ‖ - δ ≤ ‖γ'‖ := by
    have := norm_sub_norm_le γ γ'
    rw [norm_sub_rev] at this
    linarith
  have hγ2 : 0 < ‖γ'‖ := by linarith
  have hne : γ ≠ 0 := norm_pos_iff.mp hγ0
  have hne' : γ' ≠ 0 := norm_pos_iff.mp hγ2
  set F := ((spinAfter nb ek0 vk0 ops).get ispin).freeInv (nb + 1) z
  have e2 : F - γ'⁻¹ - (F - γ⁻¹) = (γ' - γ) / (γ * γ') := by
    field_simp
    ring
  rw [e2, norm_div, norm_mul]
  refine div_le_div₀ hδ0 hd (mul_pos hγ0 (by linarith)) ?_
  exact mul_le_mul_of_nonneg_left hγ1 hγ0.le

/-- Both steps of the self-consistency loop leave both spins up to date, whatever came before. -/
theorem C114_steps_fresh (hist : List SpinOp) (sp : Bool) :
    (∀ ek vk mu ed, freshAfter (hist ++ dmftStepSpin ek vk mu ed) sp = true) ∧
      ∀ ek vk mu ed sign field, freshAfter (hist ++ dmftStepMagnetic ek vk mu ed sign field) sp = true := by
  constructor
  · intro ek vk mu ed
    simp [freshAfter, dmftStepSpin, SpinOp.fresh]
  · intro ek vk mu ed sign field
    simp [freshAfter, dmftStepMagnetic, SpinOp.fresh]

/-! ### C115 -/

theorem spin_magnetic (hist : List SpinOp) (ek vk : ℕ → ℝ) (mu ed sign field : ℝ) :
    let p := spinAfter nb ek0 vk0 (hist ++ dmftStepMagnetic ek vk mu ed sign field)
    (∀ s, p.ek s = ek ∧ p.vk s = vk) ∧ Arms nb (p.H 0) ek vk ∧ Arms nb (p.H 1) ek vk ∧ p.H 0 0 0 = -(mu + sign * field - ed) ∧ p.H 1 0 0 = -(mu - sign * field - ed) := by
  intro p
  have hok : p.Ok nb (freshAfter (hist ++ dmftStepMagnetic ek vk mu ed sign field)) := spinAfter_ok nb ek0 vk0 _
  have hp : p = (spinAfter nb ek0 vk0 hist).run (nb + 1) (dmftStepMagnetic ek vk mu ed sign field) := by
    simp only [p, spinAfter, SpinImp.run, List.foldl_append]
  have hb : ∀ s, p.ek s = ek ∧ p.vk s = vk := by
    intro s
    rw [hp]
    cases s <;> simp [SpinImp.run, dmftStepMagnetic, SpinImp.step, SpinImp.put, SpinImp.get, Imp.step]
  have ha : ∀ s, Arms nb (p.H (spinIdx s)) ek vk := by
    intro s
    obtain ⟨e, v, h1, h2⟩ := hok.arms s
    obtain ⟨rfl, rfl⟩ := h2 ((C114_steps_fresh hist s).2 ek vk mu ed sign field)
    rwa [(hb s).1, (hb s).2] at h1
  refine ⟨hb, ha false, ha true, ?_, ?_⟩
  · rw [hp]
    simp [SpinImp.run, dmftStepMagnetic, SpinImp.step, SpinImp.put, SpinImp.get, Imp.step, spinIdx]
  · rw [hp]
    simp [SpinImp.run, dmftStepMagnetic, SpinImp.step, SpinImp.put, SpinImp.get, Imp.step, spinIdx]

theorem Arms.ext {H H' : ℕ → ℕ → ℝ} {e v : ℕ → ℝ} (h : Arms nb H e v) (h' : Arms nb H' e v) (h0 : H 0 0 = H' 0 0) (i j : Fin (nb + 1)) : H i j = H' i j := by
  have h1 : toMat nb H i j = toMat nb H' i j := by rw [h.siam, h'.siam, h0]
  exact h1

/-- The inputs of the two field directions differ by the names of the spins. -/
theorem magnetic_relabel (U : ℝ) (hist hist' : List SpinOp) {ek0' vk0' : ℕ → ℝ} (ek vk : ℕ → ℝ) (mu ed sign field : ℝ) :
    ((spinAfter nb ek0 vk0 (hist ++ dmftStepMagnetic ek vk mu ed sign field)).args (nb + 1) U).Relabel true (Equiv.refl _)
      ((spinAfter nb ek0' vk0' (hist' ++ dmftStepMagnetic ek vk mu ed (-sign) field)).args (nb + 1) U).H
      ((spinAfter nb ek0 vk0 (hist ++ dmftStepMagnetic ek vk mu ed sign field)).args (nb + 1) U).V none := by
  obtain ⟨-, h1, h2, h3, h4⟩ := spin_magnetic (nb := nb) (ek0 := ek0) (vk0 := vk0) hist ek vk mu ed sign field
  obtain ⟨-, h1', h2', h3', h4'⟩ := spin_magnetic (nb := nb) (ek0 := ek0') (vk0 := vk0') hist' ek vk mu ed (-sign) field
  refine ⟨fun s i j => ?_, fun _ _ => rfl, Or.inl ⟨rfl, rfl⟩, Or.inl ⟨rfl, rfl⟩, Or.inl ⟨rfl, rfl⟩⟩
  cases s
  · exact Arms.ext h2' h1 (by rw [h4', h3]; ring) i j
  · exact Arms.ext h1' h2 (by rw [h3', h4]; ring) i j

/-- **C115** reversing the field of `dmft_step_magnetic` exchanges the two spins: self-energies (computed from the exact Green functions), whatever happened before to the two objects. -/
theorem C115_field_reversal (hn : 1 ≤ nb) (hn' : nb ≤ 31) (U : ℝ) (hist hist' : List SpinOp) {ek0' vk0' : ℕ → ℝ} (ek vk : ℕ → ℝ) (mu ed sign field : ℝ)
    (hes : EigenEspace (nb + 1) ((spinAfter nb ek0 vk0 (hist ++ dmftStepMagnetic ek vk mu ed sign field)).args (nb + 1) U).ham es)
    {junk' : ℕ} {es' : Espace (ℕ × ℕ)} {egs' : ℝ}
    (hes' : EigenEspace (nb + 1) ((spinAfter nb ek0' vk0' (hist' ++ dmftStepMagnetic ek vk mu ed (-sign) field)).args (nb + 1) U).ham es') :
    ∃ G G' : Bool → ℕ → ℕ → GfEx, (∀ sp, buildGf2Exact junk (nb + 1) es beta egs sp = .ok (G sp)) ∧ (∀ sp, buildGf2Exact junk' (nb + 1) es' beta egs' sp = .ok (G' sp)) ∧
      ∀ (sp : Bool) (z : ℂ), z.im ≠ 0 →
        (spinAfter nb ek0' vk0' (hist' ++ dmftStepMagnetic ek vk mu ed (-sign) field)).sigma (nb + 1) (fun sp z => (G' sp 0 0).call z.re z.im) (!sp) z =
          (spinAfter nb ek0 vk0 (hist ++ dmftStepMagnetic ek vk mu ed sign field)).sigma (nb + 1) (fun sp z => (G sp 0 0).call z.re z.im) sp z := by
  have ha := (spinAfter_ok nb ek0 vk0 (hist ++ dmftStepMagnetic ek vk mu ed sign field)).valid hn hn' U
  have h : ∀ sp, _ := fun sp => C93_gf2_exact (junk := junk) (beta := beta) (egs := egs) (by omega) hes sp
  choose G g1 g2 using h
  have h' : ∀ sp, _ := fun sp => C93_gf2_exact (junk := junk') (beta := beta) (egs := egs') (by omega) hes' sp
  choose G' g1' g2' using h'
  refine ⟨G, G', g1, g1', fun sp z hz => ?_⟩
  have hrel := magnetic_relabel (nb := nb) (ek0 := ek0) (vk0 := vk0) U hist hist' (ek0' := ek0') (vk0' := vk0') ek vk mu ed sign field
  have e1 : (G' (!sp) 0 0).call z.re z.im = (G sp 0 0).call z.re z.im := by
    have hx : xor sp true = !sp := by cases sp <;> rfl
    have k1 := hrel.green (beta := beta) ((g2 sp (0 : Fin (nb + 1)) (0 : Fin (nb + 1)) z.re z.im hz _).mpr rfl)
    rw [hx] at k1
    exact ((g2' (!sp) (0 : Fin (nb + 1)) (0 : Fin (nb + 1)) z.re z.im hz _).mp k1).symm
  obtain ⟨b, -, -, h3, h4⟩ := spin_magnetic (nb := nb) (ek0 := ek0) (vk0 := vk0) hist ek vk mu ed sign field
  obtain ⟨b', -, -, h3', h4'⟩ := spin_magnetic (nb := nb) (ek0 := ek0') (vk0 := vk0') hist' ek vk mu ed (-sign) field
  unfold SpinImp.sigma Imp.sigma Imp.freeInv
  simp only [e1, SpinImp.get, (b sp).1, (b sp).2, (b' (!sp)).1, (b' (!sp)).2]
  have e2 : (spinAfter nb ek0' vk0' (hist' ++ dmftStepMagnetic ek vk mu ed (-sign) field)).H (spinIdx (!sp)) 0 0 =
      (spinAfter nb ek0 vk0 (hist ++ dmftStepMagnetic ek vk mu ed sign field)).H (spinIdx sp) 0 0 := by
    cases sp
    · exact h4'.trans ((by ring : -(mu - -sign * field - ed) = -(mu + sign * field - ed)).trans h3.symm)
    · exact h3'.trans ((by ring : -(mu + -sign * field - ed) = -(mu - sign * field - ed)).trans h4.symm)
  rw [e2]

/-- **C115** occupations: the magnetisation changes sign with the field. -/
theorem C115_occupation (U : ℝ) (hist hist' : List SpinOp) {ek0' vk0' : ℕ → ℝ} (ek vk : ℕ → ℝ) (mu ed sign field : ℝ)
    (hes : EigenEspace (nb + 1) ((spinAfter nb ek0 vk0 (hist ++ dmftStepMagnetic ek vk mu ed sign field)).args (nb + 1) U).ham es) {occ : List OccSct} (hocc : List.Forall₂ OccView es occ)
    {es' : Espace (ℕ × ℕ)} {egs' : ℝ} (hes' : EigenEspace (nb + 1) ((spinAfter nb ek0' vk0' (hist' ++ dmftStepMagnetic ek vk mu ed (-sign) field)).args (nb + 1) U).ham es')
    {occ' : List OccSct} (hocc' : List.Forall₂ OccView es' occ') :
    ∃ N D As N' D' As', getOccupation occ egs beta (nb + 1) = .ok (N, D, As) ∧ getOccupation occ' egs' beta (nb + 1) = .ok (N', D', As') ∧
      ∀ k : Fin (nb + 1), N' k - D' k = -(N k - D k) ∧ N' k + D' k = N k + D k := by
  have hrel := magnetic_relabel (nb := nb) (ek0 := ek0) (vk0 := vk0) U hist hist' (ek0' := ek0') (vk0' := vk0') ek vk mu ed sign field
  obtain ⟨N, D, As, N', D', As', h1, h2, h3⟩ := C113_occupation (beta := beta) (egs := egs) (egs' := egs') hrel hes hocc hes' hocc'
  refine ⟨N, D, As, N', D', As', h1, h2, fun k => ?_⟩
  obtain ⟨e1, e2⟩ : N' k = D k ∧ D' k = N k := h3 k
  rw [e1, e2]
  exact ⟨by ring, by ring⟩

/-- **C115** without field both spins have the same self-energy. -/
theorem C115_no_field (hn : 1 ≤ nb) (hn' : nb ≤ 31) (U : ℝ) (hist : List SpinOp) (ek vk : ℕ → ℝ) (mu ed sign : ℝ)
    (hes : EigenEspace (nb + 1) ((spinAfter nb ek0 vk0 (hist ++ dmftStepMagnetic ek vk mu ed sign 0)).args (nb + 1) U).ham es) :
    ∃ G : Bool → ℕ → ℕ → GfEx, (∀ sp, buildGf2Exact junk (nb + 1) es beta egs sp = .ok (G sp)) ∧ ∀ z : ℂ, z.im ≠ 0 →
      (spinAfter nb ek0 vk0 (hist ++ dmftStepMagnetic ek vk mu ed sign 0)).sigma (nb + 1) (fun sp z => (G sp 0 0).call z.re z.im) true z =
        (spinAfter nb ek0 vk0 (hist ++ dmftStepMagnetic ek vk mu ed sign 0)).sigma (nb + 1) (fun sp z => (G sp 0 0).call z.re z.im) false z := by
  have e : dmftStepMagnetic ek vk mu ed (-sign) 0 = dmftStepMagnetic ek vk mu ed sign 0 := by simp [dmftStepMagnetic]
  obtain ⟨G, G', h1, h2, h3⟩ := C115_field_reversal (junk := junk) (junk' := junk) (egs := egs) (egs' := egs) (beta := beta) hn hn' U hist hist ek vk mu ed sign 0 hes (by rw [e]; exact hes)
  have hG : G' = G := by
    funext sp
    have := (h2 sp).symm.trans (h1 sp)
    injection this
  subst hG
  refine ⟨G', h1, fun z hz => ?_⟩
  have := h3 false z hz
  rw [e] at this
  exact this

/-- A history with reset, magnetic step and later update: both spins are up to date, with different levels. -/
example : freshAfter ([.resetBath (fun _ => 0) (fun _ => 1)] ++ dmftStepMagnetic (fun _ => 1) (fun _ => 2) 1 0 1 (1 / 2)) true = true ∧
    (spinAfter 1 (fun _ => 0) (fun _ => 1) ([.resetBath (fun _ => 0) (fun _ => 1)] ++ dmftStepMagnetic (fun _ => 1) (fun _ => 2) 1 0 1 (1 / 2))).H 0 0 0 ≠
      (spinAfter 1 (fun _ => 0) (fun _ => 1) ([.resetBath (fun _ => 0) (fun _ => 1)] ++ dmftStepMagnetic (fun _ => 1) (fun _ => 2) 1 0 1 (1 / 2))).H 1 0 0 := by
  refine ⟨(C114_steps_fresh _ _).2 _ _ _ _ _ _, ?_⟩
  obtain ⟨-, -, -, h3, h4⟩ := spin_magnetic (nb := 1) (ek0 := fun _ => 0) (vk0 := fun _ => 1) [.resetBath (fun _ => 0) (fun _ => 1)] (fun _ => 1) (fun _ => 2) 1 0 1 (1 / 2)
  rw [h3, h4]
  norm_num

/-- Its espace exists. -/
example : ∃ es, EigenEspace 2 ((spinAfter 1 (fun _ => 0) (fun _ => 1) (dmftStepMagnetic (fun _ => 1) (fun _ => 2) 1 0 1 (1 / 2))).args 2 3).ham es :=
  eigenEspace_exists ((spinAfter_ok 1 _ _ _).valid le_rfl (by norm_num) 3)

end Edpyt
