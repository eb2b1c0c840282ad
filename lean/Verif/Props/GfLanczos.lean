import Verif.Proof.GfLoop
import Verif.Proof.LanczosStop
import Verif.Spec.GreenParts
/-!
C98: `build_gf_lanczos` and `build_gf_offdiag` approximate the thermal Green function.
-/
namespace Edpyt
open Spec Matrix

theorem IsGreenParts.isGreen {ι : Type} [Fintype ι] [DecidableEq ι] {β : ℝ} {H A B : Matrix ι ι ℝ} {z ge gh : ℂ} (h : IsGreenParts β H A B z ge gh) :
    IsGreen β H A B z (ge + gh) := by
  obtain ⟨X, h1, rfl, rfl⟩ := h
  refine ⟨X, h1, ?_⟩
  simp only [thermal, Matrix.mul_add, Matrix.trace_add, add_div]

theorem thermal_real_nonneg_bound {n : ℕ} {H : Matrix (Finset (Fin (n + n))) (Finset (Fin (n + n))) ℝ} {es : Espace (ℕ × ℕ)} (h : EigenEspace n H es) (β : ℝ) :
    0 < ∑ a, Real.exp (-β * esVal n es a) := by
  have : Nonempty (EigIdx n) := ⟨⟨(⟨0, by omega⟩, ⟨0, by omega⟩), ⟨0, by simp⟩⟩⟩
  exact Finset.sum_pos (fun a _ => Real.exp_pos _) Finset.univ_nonempty

theorem list_sum_ofReal {α : Type} (l : List α) (f : α → ℝ) : (((l.map f).sum : ℝ) : ℂ) = (l.map fun q => (f q : ℂ)).sum := by
  induction l with
  | nil => simp
  | cons x l ih => simp [ih]

/-- The thermal average of a real matrix as a real number. -/
noncomputable def esAvg (n : ℕ) (es : Espace (ℕ × ℕ)) (β : ℝ) (A : Matrix (Finset (Fin (n + n))) (Finset (Fin (n + n))) ℝ) : ℝ :=
  (∑ a, Real.exp (-β * esVal n es a) * (esKet n es a ⬝ᵥ (A *ᵥ esKet n es a))) / ∑ a, Real.exp (-β * esVal n es a)

theorem esAvg_add {n : ℕ} (es : Espace (ℕ × ℕ)) (β : ℝ) (A A' : Matrix (Finset (Fin (n + n))) (Finset (Fin (n + n))) ℝ) :
    esAvg n es β (A + A') = esAvg n es β A + esAvg n es β A' := by
  unfold esAvg
  rw [← add_div, ← Finset.sum_add_distrib]
  congr 1
  apply Finset.sum_congr rfl; intro a _
  rw [Matrix.add_mulVec, dotProduct_add, mul_add]

theorem esAvg_smul {n : ℕ} (es : Espace (ℕ × ℕ)) (β x : ℝ) (A : Matrix (Finset (Fin (n + n))) (Finset (Fin (n + n))) ℝ) :
    esAvg n es β (x • A) = x * esAvg n es β A := by
  unfold esAvg
  rw [← mul_div_assoc, Finset.mul_sum]
  congr 1
  apply Finset.sum_congr rfl; intro a _
  rw [Matrix.smul_mulVec, dotProduct_smul, smul_eq_mul]; ring

theorem esAvg_one {n : ℕ} {H : Matrix (Finset (Fin (n + n))) (Finset (Fin (n + n))) ℝ} {es : Espace (ℕ × ℕ)} (h : EigenEspace n H es) (β : ℝ) :
    esAvg n es β 1 = 1 := by
  have := thermal_real_nonneg_bound h β
  unfold esAvg
  rw [div_eq_one_iff_eq this.ne']
  apply Finset.sum_congr rfl; intro a _
  rw [Matrix.one_mulVec, h.basis.orth, if_pos rfl, mul_one]

theorem esAvg_nonneg {n : ℕ} {H : Matrix (Finset (Fin (n + n))) (Finset (Fin (n + n))) ℝ} {es : Espace (ℕ × ℕ)} (h : EigenEspace n H es) (β : ℝ)
    (A : Matrix (Finset (Fin (n + n))) (Finset (Fin (n + n))) ℝ) : 0 ≤ esAvg n es β (Aᵀ * A) := by
  have := thermal_real_nonneg_bound h β
  refine div_nonneg (Finset.sum_nonneg fun a _ => mul_nonneg (Real.exp_pos _).le ?_) this.le
  rw [← Matrix.mulVec_mulVec, Matrix.dotProduct_mulVec _ Aᵀ, Matrix.vecMul_transpose]
  simp only [dotProduct]; exact Finset.sum_nonneg fun i _ => mul_self_nonneg _

section
variable {g : GfLArgs} {jk : ℝ} {B : Matrix (Finset (Fin (g.ham.n + g.ham.n))) (Finset (Fin (g.ham.n + g.ham.n))) ℝ}
  {half : Ladder → Sct → ℕ × ℕ → Espace (ℕ × ℕ) → Except PyErr (Espace (ℕ × ℕ) × List GfFn × List LancRun) → Prop} {bad : Ladder → Sct → Prop}

/-- The operators of the two halves. -/
def opOf (B : Matrix (Finset (Fin (g.ham.n + g.ham.n))) (Finset (Fin (g.ham.n + g.ham.n))) ℝ) : Ladder → Matrix (Finset (Fin (g.ham.n + g.ham.n))) (Finset (Fin (g.ham.n + g.ham.n))) ℝ
  | .cdg => B
  | .c => Bᵀ

/-- The common part of `build_gf_lanczos` and `build_gf_offdiag`. -/
theorem gfBuild_out (hspec : HalfSpec g jk (opOf B) bad half) (hB : Grade B (fun t => if t = g.ispin then 1 else 0)) {c : ℝ} (hc0 : 0 ≤ c) (hcar : Bᵀ * B + B * Bᵀ = c • (1 : Matrix _ _ ℝ))
    {es : Espace (ℕ × ℕ)} (hes : EigenEspace g.ham.n g.ham.ham es) (separate : Bool) {r : Except PyErr GfLOut}
    (h : BindR (ForR (GfStep half g separate) (es.map Prod.fst) ⟨es, [], [], []⟩) (fun st =>
      let Z := partition st.es g.beta g.egs
      DetR (.ok ⟨⟨st.fe, Z⟩, if separate then ⟨st.fh, Z⟩ else ⟨st.fe, Z⟩, st.es, st.log⟩)) r) :
    (r = .error .zeroNorm ∧ ∃ op, ∃ q ∈ ndindex2 (g.ham.n + 1) (g.ham.n + 1), ∃ es', EigenEspace g.ham.n g.ham.ham es' ∧ BadAt g bad op q (sctAt es' q)) ∨
    ∃ out, r = .ok out ∧ EigenEspace g.ham.n g.ham.ham out.es ∧ (∀ run ∈ out.log, run.Good g) ∧ (separate = false → out.gfh = out.gfe) ∧
      ∀ (e eta ε : ℝ), eta ≠ 0 → 0 ≤ ε → (∀ run ∈ out.log, run.AccLe g.ham.ham e eta ε) → ∀ ge gh, IsGreenParts g.beta g.ham.ham Bᵀ B (e + Complex.I * eta) ge gh →
        if separate then
          ‖out.gfe.call jk e eta - ge‖ ≤ c * ε / eta ^ 2 + g.cfg.delta ^ 2 / |eta| ∧ ‖out.gfh.call jk e eta - gh‖ ≤ c * ε / eta ^ 2 + g.cfg.delta ^ 2 / |eta| ∧
          ‖out.gfe.call jk e eta + out.gfh.call jk e eta - (ge + gh)‖ ≤ c * ε / eta ^ 2 + 2 * (g.cfg.delta ^ 2 / |eta|)
        else ‖out.gfe.call jk e eta - (ge + gh)‖ ≤ c * ε / eta ^ 2 + 2 * (g.cfg.delta ^ 2 / |eta|) := by
  have hH := hes.basis.symm
  have hBop : ∀ op, Grade (opOf B op) (fun t => if t = g.ispin then op.delta else 0) := by
    intro op
    cases op
    · exact hB.transpose.of_eq fun s => by simp only [Pi.neg_apply, Ladder.delta]; split <;> simp
    · exact hB
  have hX : ∀ e eta : ℝ, ∃ X : Matrix (Finset (Fin (g.ham.n + g.ham.n))) (Finset (Fin (g.ham.n + g.ham.n))) ℂ, eta ≠ 0 →
      (e + Complex.I * eta : ℂ) • X - (X * cplx g.ham.ham - cplx g.ham.ham * X) = cplx Bᵀ := by
    intro e eta
    by_cases he : eta = 0
    · exact ⟨0, fun h => absurd he h⟩
    · obtain ⟨X, h1, -⟩ := (hes.basis.green g.beta Bᵀ B (z := e + Complex.I * eta) (by simpa using he) _).mpr rfl
      exact ⟨X, fun _ => h1⟩
  choose X hX using hX
  have hM : BasisFree g (opOf B) (fun op e eta => match op with | .cdg => X e eta * cplx B | .c => cplx B * X e eta) := by
    intro op e eta he x E hx
    have him : (e + Complex.I * eta : ℂ).im ≠ 0 := by simpa using he
    cases op with
    | cdg => exact eom_electron hH him (hX e eta he) hx
    | c => exact eom_hole hH him (hX e eta he) hx
  have hkeys : ∀ q ∈ es.map Prod.fst, q ∈ ndindex2 (g.ham.n + 1) (g.ham.n + 1) := fun q hq => hes.keys.mem_iff.mp hq
  rcases h with ⟨st, h1, h2⟩ | ⟨e, h1, h2⟩
  swap
  · rcases gfLoop_out hspec hBop hM hes separate _ hkeys hes h1 with ⟨hh, op, q, hq, es', h3, h4⟩ | ⟨st', hr, -⟩
    · injection hh with hh
      exact .inl ⟨by rw [h2, hh], op, q, hkeys q hq, es', h3, h4⟩
    · cases hr
  rcases gfLoop_out hspec hBop hM hes separate _ hkeys hes h1 with ⟨hh, -⟩ | ⟨st', hr, hp⟩
  · cases hh
  injection hr with hr; subst hr
  right
  simp only [DetR] at h2
  obtain ⟨log, a1, a2, a3⟩ := hp.bound
  simp only [List.nil_append] at a1
  refine ⟨_, h2, hp.es, by simp only [a1]; exact a2, fun hs => by simp [hs], fun e eta ε he hε hlog ge gh hg => ?_⟩
  simp only [a1] at hlog
  have hb := a3 e eta ε he hε hlog
  have him : (e + Complex.I * eta : ℂ).im ≠ 0 := by simpa using he
  -- the normalisation
  set Z := partition st.es g.beta g.egs with hZ
  have hZe : (Z : ℂ) = (Real.exp (g.beta * g.egs) : ℂ) * Matrix.trace (cplx (gibbsOp g.beta g.ham.ham)) := by
    rw [hZ, partition_eq hp.es.toCompleteEspace, hp.es.trace_one g.beta]; push_cast; rfl
  have hZpos : 0 < Z := by
    rw [hZ, partition_eq hp.es.toCompleteEspace]
    exact mul_pos (Real.exp_pos _) (thermal_real_nonneg_bound hp.es g.beta)
  have hZ0 : (Z : ℂ) ≠ 0 := by exact_mod_cast hZpos.ne'
  have hex0 : (Real.exp (g.beta * g.egs) : ℂ) ≠ 0 := by exact_mod_cast (Real.exp_pos _).ne'
  have hth : ∀ M, (Real.exp (g.beta * g.egs) : ℂ) * ((es.map Prod.fst).map fun q => secTrace g.ham.n g.beta g.ham.ham q M).sum = (Z : ℂ) * thermal g.beta g.ham.ham M := by
    intro M
    rw [← hes.trace g.beta M, hZe]
    unfold thermal
    have : Matrix.trace (cplx (gibbsOp g.beta g.ham.ham)) ≠ 0 := fun h0 => hZ0 (by rw [hZe, h0, mul_zero])
    field_simp
  obtain ⟨X', hX', rfl, rfl⟩ := hg
  have hgr : ∀ op (b : Bool), ((es.map Prod.fst).map fun q => if b = opPart separate op then
      halfExact g.ham.n g.ham.ham (opOf B op) op.sign g.beta g.egs (sctAt es q) (e + Complex.I * eta) else 0).sum =
      if b = opPart separate op then (Z : ℂ) * thermal g.beta g.ham.ham (match op with | .cdg => X' * cplx B | .c => cplx B * X') else 0 := by
    intro op b
    split
    · rw [← hth, ← List.sum_map_mul_left]
      congr 1
      apply List.map_congr_left
      intro q hq
      refine halfExact_eq ?_ hes g.beta g.egs (hkeys q hq)
      intro x E hx
      cases op with
      | cdg => exact eom_electron hH him hX' hx
      | c => exact eom_hole hH him hX' hx
    · exact List.sum_eq_zero fun x hx => by obtain ⟨q, -, rfl⟩ := List.mem_map.mp hx; rfl
  have hsumX : ∀ b, ((es.map Prod.fst).map fun q => secX g (opOf B) separate es q b e eta).sum =
      (if b = opPart separate .cdg then (Z : ℂ) * thermal g.beta g.ham.ham (X' * cplx B) else 0) +
      (if b = opPart separate .c then (Z : ℂ) * thermal g.beta g.ham.ham (cplx B * X') else 0) := by
    intro b
    unfold secX
    rw [List.sum_map_add]
    exact congrArg₂ (· + ·) (hgr .cdg b) (hgr .c b)
  -- the error bounds
  have hW : ∀ op, (((es.map Prod.fst).map fun q => halfErr g.ham.n (opOf B op) g.beta g.egs (sctAt es q) g.cfg.delta ε eta).sum : ℂ) =
      (Z : ℂ) * thermal g.beta g.ham.ham (cplx ((ε / eta ^ 2) • ((opOf B op)ᵀ * opOf B op) + (g.cfg.delta ^ 2 / |eta|) • (1 : Matrix _ _ ℝ))) := by
    intro op
    rw [← hth, ← List.sum_map_mul_left]
    rw [list_sum_ofReal]
    congr 1
    apply List.map_congr_left
    intro q hq
    exact halfErr_eq hes g.beta g.egs g.cfg.delta ε eta (hkeys q hq)
  set WE := ((es.map Prod.fst).map fun q => halfErr g.ham.n (opOf B .cdg) g.beta g.egs (sctAt es q) g.cfg.delta ε eta).sum with hWE
  set WH := ((es.map Prod.fst).map fun q => halfErr g.ham.n (opOf B .c) g.beta g.egs (sctAt es q) g.cfg.delta ε eta).sum with hWH
  have hval : ∀ op, ((es.map Prod.fst).map fun q => halfErr g.ham.n (opOf B op) g.beta g.egs (sctAt es q) g.cfg.delta ε eta).sum =
      Z * (ε / eta ^ 2 * esAvg g.ham.n es g.beta ((opOf B op)ᵀ * opOf B op) + g.cfg.delta ^ 2 / |eta|) := by
    intro op
    have h3 := hW op
    rw [hes.basis.thermal g.beta] at h3
    have h4 : ((es.map Prod.fst).map fun q => halfErr g.ham.n (opOf B op) g.beta g.egs (sctAt es q) g.cfg.delta ε eta).sum =
      Z * esAvg g.ham.n es g.beta ((ε / eta ^ 2) • ((opOf B op)ᵀ * opOf B op) + (g.cfg.delta ^ 2 / |eta|) • (1 : Matrix _ _ ℝ)) := by
      exact_mod_cast h3
    rw [h4, esAvg_add, esAvg_smul, esAvg_smul, esAvg_one hes, mul_one]
  have hE := hval .cdg
  have hHh := hval .c
  rw [← hWE] at hE
  rw [← hWH] at hHh
  have hsum : esAvg g.ham.n es g.beta ((opOf B .cdg)ᵀ * opOf B .cdg) + esAvg g.ham.n es g.beta ((opOf B .c)ᵀ * opOf B .c) = c := by
    rw [← esAvg_add]
    simp only [opOf, Matrix.transpose_transpose]
    rw [hcar, esAvg_smul, esAvg_one hes, mul_one]
  have hn1 := esAvg_nonneg hes g.beta (opOf B .cdg)
  have hn2 := esAvg_nonneg hes g.beta (opOf B .c)
  set t1 := esAvg g.ham.n es g.beta ((opOf B .cdg)ᵀ * opOf B .cdg)
  set t2 := esAvg g.ham.n es g.beta ((opOf B .c)ᵀ * opOf B .c)
  have hq : 0 ≤ ε / eta ^ 2 := by positivity
  have hboth : WE + WH = Z * (c * ε / eta ^ 2 + 2 * (g.cfg.delta ^ 2 / |eta|)) := by
    rw [hE, hHh, ← hsum]; ring
  have hE1 : WE ≤ Z * (c * ε / eta ^ 2 + g.cfg.delta ^ 2 / |eta|) := by
    rw [hE, ← hsum]
    apply mul_le_mul_of_nonneg_left _ hZpos.le
    have := mul_nonneg hq hn2
    have e1 : (t1 + t2) * ε / eta ^ 2 = ε / eta ^ 2 * t1 + ε / eta ^ 2 * t2 := by ring
    linarith
  have hH1 : WH ≤ Z * (c * ε / eta ^ 2 + g.cfg.delta ^ 2 / |eta|) := by
    rw [hHh, ← hsum]
    apply mul_le_mul_of_nonneg_left _ hZpos.le
    have := mul_nonneg hq hn1
    have e1 : (t1 + t2) * ε / eta ^ 2 = ε / eta ^ 2 * t1 + ε / eta ^ 2 * t2 := by ring
    linarith
  have hsumW : ∀ b, ((es.map Prod.fst).map fun q => secW g (opOf B) separate es q b eta ε).sum =
      (if b = opPart separate .cdg then WE else 0) + (if b = opPart separate .c then WH else 0) := by
    intro b
    unfold secW
    rw [List.sum_map_add]
    congr 1
    · split
      · rfl
      · exact List.sum_eq_zero fun x hx => by obtain ⟨q, -, rfl⟩ := List.mem_map.mp hx; rfl
    · split
      · rfl
      · exact List.sum_eq_zero fun x hx => by obtain ⟨q, -, rfl⟩ := List.mem_map.mp hx; rfl
  have hdiv : ∀ (S t : ℂ) (W : ℝ), ‖S - (Z : ℂ) * t‖ ≤ Z * W → ‖S / (Z : ℂ) - t‖ ≤ W := by
    intro S t W hS
    have : S / (Z : ℂ) - t = (S - (Z : ℂ) * t) / (Z : ℂ) := by field_simp
    rw [this, norm_div, Complex.norm_real, Real.norm_of_nonneg hZpos.le, div_le_iff₀ hZpos, mul_comm W]
    exact hS
  have hpart : ∀ b, fsum jk ((⟨es, [], [], []⟩ : GfLSt).part b) e eta = 0 := by intro b; cases b <;> simp [GfLSt.part, fsum]
  have hb0 := hb false
  have hb1 := hb true
  rw [hsumX, hsumW, hpart, sub_zero] at hb0 hb1
  cases separate with
  | false =>
    simp only [opPart, Bool.false_eq_true, false_and, decide_false, if_true, GfLSt.part] at hb0 ⊢
    rw [if_neg (by simp)]
    refine hdiv _ _ _ ?_
    rw [← hboth, mul_add]
    exact hb0
  | true =>
    have c1 : opPart true .cdg = false := by decide
    have c2 : opPart true .c = true := by decide
    simp only [c1, c2, Bool.true_eq_false, Bool.false_eq_true, if_true, if_false, add_zero, zero_add, GfLSt.part] at hb0 hb1 ⊢
    refine ⟨hdiv _ _ _ (hb0.trans hE1), hdiv _ _ _ (hb1.trans hH1), ?_⟩
    have e1 : ∀ x y : ℂ, GfL.call jk ⟨st.fe, Z⟩ e eta + GfL.call jk ⟨st.fh, Z⟩ e eta - (x + y) = (fsum jk st.fe e eta + fsum jk st.fh e eta) / (Z : ℂ) - (x + y) := by
      intro x y; simp only [GfL.call, fsum]; rw [add_div]
    rw [e1]
    refine hdiv _ _ _ ?_
    rw [← hboth, mul_add, add_sub_add_comm]
    exact (norm_add_le _ _).trans (add_le_add hb0 hb1)

end

theorem forR_exists_inv {α σ : Type} {body : σ → α → Except PyErr σ → Prop} {P : σ → Prop} {xs : List α} (h : ∀ st, P st → ∀ x ∈ xs, ∃ r, body st x r)
    (hP : ∀ st, P st → ∀ x ∈ xs, ∀ st', body st x (.ok st') → P st') (st : σ) (hst : P st) : ∃ r, ForR body xs st r := by
  induction xs generalizing st with
  | nil => exact ⟨_, rfl⟩
  | cons x xs ih =>
    obtain ⟨r, hr⟩ := h st hst x (by simp)
    cases r with
    | error e => exact ⟨_, .inr ⟨e, hr, rfl⟩⟩
    | ok st' =>
      obtain ⟨r', hr'⟩ := ih (fun st h1 x hx => h st h1 x (by simp [hx])) (fun st h1 x hx => hP st h1 x (by simp [hx])) st' (hP st hst x (by simp) st' hr)
      exact ⟨r', .inl ⟨st', hr, hr'⟩⟩

section
variable {g : GfLArgs} {pos : ℕ} {es : Espace (ℕ × ℕ)}

theorem car_cre (i : Fin (g.ham.n + g.ham.n)) : (cre ℝ i)ᵀ * cre ℝ i + cre ℝ i * (cre ℝ i)ᵀ = (1 : ℝ) • (1 : Matrix (Finset (Fin (g.ham.n + g.ham.n))) (Finset (Fin (g.ham.n + g.ham.n))) ℝ) := by
  have := ann_cre_anticomm (R := ℝ) i i
  rw [if_pos rfl] at this
  rw [one_smul, ← this]
  rfl

theorem gfHalf_spec (jk : ℝ) (hc : g.cfg.Ok) (ha : g.ham.Valid) (hH : g.ham.ham.IsSymm) (hw : g.ham.n ≤ g.w) (hpos : pos < g.ham.n) :
    HalfSpec g jk (opOf (cre ℝ (orb g.ispin (⟨pos, hpos⟩ : Fin g.ham.n)))) (fun _ _ => False) (GfHalf g pos) := by
  intro op qI qJ I es r hsh hqJ hI hes h
  right
  have e : opOf (g := g) (cre ℝ (orb g.ispin (⟨pos, hpos⟩ : Fin g.ham.n))) op = op.mat (orb g.ispin (⟨pos, hpos⟩ : Fin g.ham.n)) := by
    cases op <;> rfl
  rw [e]
  exact gfHalf_out jk hc ha hH hw hpos hsh hqJ hI hes h

theorem gfStep_exists {half : Ladder → Sct → ℕ × ℕ → Espace (ℕ × ℕ) → Except PyErr (Espace (ℕ × ℕ) × List GfFn × List LancRun) → Prop} {jk : ℝ}
    {B : Ladder → Matrix (Finset (Fin (g.ham.n + g.ham.n))) (Finset (Fin (g.ham.n + g.ham.n))) ℝ} {bad : Ladder → Sct → Prop}
    (hspec : HalfSpec g jk B bad half) (hB : ∀ op, Grade (B op) (fun t => if t = g.ispin then op.delta else 0))
    (hex : ∀ op I qJ es, EigenEspace g.ham.n g.ham.ham es → (qJ.1 ≤ g.ham.n ∧ qJ.2 ≤ g.ham.n) → ∃ r, half op I qJ es r) (separate : Bool) {st : GfLSt}
    (hst : EigenEspace g.ham.n g.ham.ham st.es) {q : ℕ × ℕ} (hq : q ∈ ndindex2 (g.ham.n + 1) (g.ham.n + 1)) : ∃ r, GfStep half g separate st q r := by
  obtain ⟨h1, h2, -⟩ := hst.get hq
  have hhalf : ∀ (op : Ladder) (I : Sct) (st : GfLSt), EigenEspace g.ham.n g.ham.ham st.es → ∃ r, GfStepHalf half g separate op q I st r := by
    intro op I st hst
    unfold GfStepHalf
    rcases gfArrival_cases (s := g.ispin) (op := op) hq with ⟨q', h1, -, h3⟩ | ⟨h1, -⟩
    · rw [h1]
      simp only [Int.toNat_natCast]
      exact bindR_exists (hex op I q' st.es hst h3) fun x _ => ⟨_, rfl⟩
    · rw [h1]; exact ⟨_, rfl⟩
  unfold GfStep
  refine bindR_exists ⟨_, rfl⟩ fun I hI => bindR_exists (hhalf .cdg I st hst) fun st1 hst1 => ?_
  have hI' : Except.ok I = dictGet st.es q := hI
  rw [h1] at hI'
  injection hI' with hI'; subst hI'
  rcases gfStepHalf_out hspec hB separate .cdg hq h2 hst hst1 with ⟨-, hh⟩ | ⟨st1', hr, -, hp⟩
  · cases hh
  · injection hr with hr; subst hr
    exact hhalf .c _ _ hp.es

theorem gfBuild_exists {half : Ladder → Sct → ℕ × ℕ → Espace (ℕ × ℕ) → Except PyErr (Espace (ℕ × ℕ) × List GfFn × List LancRun) → Prop} {jk : ℝ}
    {B : Ladder → Matrix (Finset (Fin (g.ham.n + g.ham.n))) (Finset (Fin (g.ham.n + g.ham.n))) ℝ} {bad : Ladder → Sct → Prop}
    (hspec : HalfSpec g jk B bad half) (hB : ∀ op, Grade (B op) (fun t => if t = g.ispin then op.delta else 0))
    (hex : ∀ op I qJ es, EigenEspace g.ham.n g.ham.ham es → (qJ.1 ≤ g.ham.n ∧ qJ.2 ≤ g.ham.n) → ∃ r, half op I qJ es r) (separate : Bool)
    (hes : EigenEspace g.ham.n g.ham.ham es) (f : GfLSt → Except PyErr GfLOut → Prop) (hf : ∀ st, ∃ r, f st r) :
    ∃ r, BindR (ForR (GfStep half g separate) (es.map Prod.fst) ⟨es, [], [], []⟩) f r := by
  refine bindR_exists (forR_exists_inv (P := fun st => EigenEspace g.ham.n g.ham.ham st.es) (fun st hst q hq =>
    gfStep_exists hspec hB hex separate hst (hes.keys.mem_iff.mp hq)) (fun st hst q hq st' h => ?_) _ hes) fun st _ => hf st
  rcases gfStep_out hspec hB separate (hes.keys.mem_iff.mp hq) hst h with ⟨hh, -⟩ | ⟨st1, hr, hp⟩
  · cases hh
  · injection hr with hr; subst hr; exact hp.es

theorem grade_opOf {B : Matrix (Finset (Fin (g.ham.n + g.ham.n))) (Finset (Fin (g.ham.n + g.ham.n))) ℝ} (hB : Grade B (fun t => if t = g.ispin then 1 else 0)) (op : Ladder) :
    Grade (opOf B op) (fun t => if t = g.ispin then op.delta else 0) := by
  cases op
  · exact hB.transpose.of_eq fun s => by simp only [Pi.neg_apply, Ladder.delta]; split <;> simp
  · exact hB

/-- The accuracy of `build_gf_lanczos` in terms of that of its Lanczos runs. -/
theorem gf_lanczos_acc (jk : ℝ) (ha : g.ham.Valid) (hw : g.ham.n ≤ g.w) (hc : g.cfg.Ok) (hpos : pos < g.ham.n) (hes : EigenEspace g.ham.n g.ham.ham es) (separate : Bool) :
    (∃ r, BuildGfLanczos g pos separate es r) ∧ ∀ r, BuildGfLanczos g pos separate es r →
      ∃ out, r = .ok out ∧ EigenEspace g.ham.n g.ham.ham out.es ∧ (∀ run ∈ out.log, run.Good g) ∧ (separate = false → out.gfh = out.gfe) ∧
        ∀ (e eta ε : ℝ), eta ≠ 0 → 0 ≤ ε → (∀ run ∈ out.log, run.AccLe g.ham.ham e eta ε) → ∀ ge gh,
          IsGreenParts g.beta g.ham.ham (ann ℝ (orb g.ispin (⟨pos, hpos⟩ : Fin g.ham.n))) (cre ℝ (orb g.ispin (⟨pos, hpos⟩ : Fin g.ham.n))) (e + Complex.I * eta) ge gh →
          if separate then
            ‖out.gfe.call jk e eta - ge‖ ≤ ε / eta ^ 2 + g.cfg.delta ^ 2 / |eta| ∧ ‖out.gfh.call jk e eta - gh‖ ≤ ε / eta ^ 2 + g.cfg.delta ^ 2 / |eta| ∧
            ‖out.gfe.call jk e eta + out.gfh.call jk e eta - (ge + gh)‖ ≤ ε / eta ^ 2 + 2 * (g.cfg.delta ^ 2 / |eta|)
          else ‖out.gfe.call jk e eta - (ge + gh)‖ ≤ ε / eta ^ 2 + 2 * (g.cfg.delta ^ 2 / |eta|) := by
  have hspec := gfHalf_spec (pos := pos) jk hc ha hes.basis.symm hw hpos
  have hB := grade_cre (n := g.ham.n) g.ispin ⟨pos, hpos⟩
  refine ⟨gfBuild_exists hspec (grade_opOf hB) (fun op I qJ es h1 h2 => gfHalf_exists hc ha hw h2 h1.sct) separate hes _ fun st => ⟨_, rfl⟩, fun r hr => ?_⟩
  rcases gfBuild_out hspec hB (c := 1) zero_le_one (car_cre _) hes separate hr with ⟨-, op, q, -, es', -, hbad⟩ | h
  · exact hbad.1.elim
  · have e : (cre ℝ (orb g.ispin (⟨pos, hpos⟩ : Fin g.ham.n)))ᵀ = ann ℝ (orb g.ispin (⟨pos, hpos⟩ : Fin g.ham.n)) := rfl
    simpa only [one_mul, e] using h

/-- **C98** For every admissible Hamiltonian, every complete set of eigenpairs of all its sectors, every site, spin, temperature, reference
energy and representation, and whatever the workspace contains: `build_gf_lanczos` returns (it never raises and never loops), the sectors it
overwrites are again complete sets of eigenpairs, and the function returned differs from the thermal Green function `⟨⟨c; c†⟩⟩` at `e + iη` by at
most `ε / η² + 2 δ² / |η|`, where `δ` is the threshold of the Lanczos loop and `ε` bounds the norm of the vectors that its Lanczos runs
neglect. With `separate` the same holds for the electron and hole parts. -/
theorem C98_gf_lanczos (jk : ℝ) (ha : g.ham.Valid) (hw : g.ham.n ≤ g.w) (hc : g.cfg.Ok) (hpos : pos < g.ham.n) (hes : EigenEspace g.ham.n g.ham.ham es) (separate : Bool) :
    (∃ r, BuildGfLanczos g pos separate es r) ∧ ∀ r, BuildGfLanczos g pos separate es r →
      ∃ out, r = .ok out ∧ EigenEspace g.ham.n g.ham.ham out.es ∧ (∀ run ∈ out.log, run.Good g) ∧ (separate = false → out.gfh = out.gfe) ∧
        ∀ (e eta ε : ℝ), eta ≠ 0 → 0 ≤ ε → (∀ run ∈ out.log, run.ResLe ε) → ∀ ge gh,
          IsGreenParts g.beta g.ham.ham (ann ℝ (orb g.ispin (⟨pos, hpos⟩ : Fin g.ham.n))) (cre ℝ (orb g.ispin (⟨pos, hpos⟩ : Fin g.ham.n))) (e + Complex.I * eta) ge gh →
          if separate then
            ‖out.gfe.call jk e eta - ge‖ ≤ ε / eta ^ 2 + g.cfg.delta ^ 2 / |eta| ∧ ‖out.gfh.call jk e eta - gh‖ ≤ ε / eta ^ 2 + g.cfg.delta ^ 2 / |eta| ∧
            ‖out.gfe.call jk e eta + out.gfh.call jk e eta - (ge + gh)‖ ≤ ε / eta ^ 2 + 2 * (g.cfg.delta ^ 2 / |eta|)
          else ‖out.gfe.call jk e eta - (ge + gh)‖ ≤ ε / eta ^ 2 + 2 * (g.cfg.delta ^ 2 / |eta|) := by
  obtain ⟨h1, h2⟩ := gf_lanczos_acc (es := es) jk ha hw hc hpos hes separate
  refine ⟨h1, fun r hr => ?_⟩
  obtain ⟨out, a1, a2, a3, a4, a5⟩ := h2 r hr
  exact ⟨out, a1, a2, a3, a4, fun e eta ε he hε hlog => a5 e eta ε he hε fun run hrun => (hlog run hrun).accLe hc (a3 run hrun).2 _ e eta he⟩

/-- The two parts of the thermal Green function exist. -/
theorem greenParts_exist {n : ℕ} {H : Matrix (Finset (Fin (n + n))) (Finset (Fin (n + n))) ℝ} (hes : EigenEspace n H es) (β : ℝ) (A B : Matrix (Finset (Fin (n + n))) (Finset (Fin (n + n))) ℝ)
    {z : ℂ} (hz : z.im ≠ 0) : ∃ ge gh, IsGreenParts β H A B z ge gh := by
  obtain ⟨X, h1, -⟩ := (hes.basis.green β A B hz _).mpr rfl
  exact ⟨_, _, X, h1, rfl, rfl⟩

/-- **C98** (full chains). If the Lanczos loop is not cut short (no sector is larger than `maxn - 1` and the energy test never fires), the Green
function returned differs from the thermal one by at most `δ / η² + 2 δ² / |η|`. -/
theorem C98_exact (jk : ℝ) (ha : g.ham.Valid) (hw : g.ham.n ≤ g.w) (hc : g.cfg.Ok) (hpos : pos < g.ham.n) (hes : EigenEspace g.ham.n g.ham.ham es)
    (hND : 2 ≤ g.cfg.ND) (hclose : ∀ x y, g.cfg.close x y = false) (hmax : ∀ q ∈ ndindex2 (g.ham.n + 1) (g.ham.n + 1), g.ham.n.choose q.1 * g.ham.n.choose q.2 ≤ g.cfg.maxn - 1)
    {out : GfLOut} (hr : BuildGfLanczos g pos false es (.ok out)) (e eta : ℝ) (he : eta ≠ 0) (gr : ℂ)
    (hg : IsGreen g.beta g.ham.ham (ann ℝ (orb g.ispin (⟨pos, hpos⟩ : Fin g.ham.n))) (cre ℝ (orb g.ispin (⟨pos, hpos⟩ : Fin g.ham.n))) (e + Complex.I * eta) gr) :
    ‖out.gfe.call jk e eta - gr‖ ≤ g.cfg.delta / eta ^ 2 + 2 * (g.cfg.delta ^ 2 / |eta|) := by
  obtain ⟨out', e1, -, hlog, -, h⟩ := (C98_gf_lanczos jk ha hw hc hpos hes false).2 _ hr
  injection e1 with e1; subst e1
  have him : (e + Complex.I * eta : ℂ).im ≠ 0 := by simpa using he
  obtain ⟨ge, gh, hp⟩ := greenParts_exist hes g.beta (ann ℝ (orb g.ispin (⟨pos, hpos⟩ : Fin g.ham.n))) (cre ℝ (orb g.ispin (⟨pos, hpos⟩ : Fin g.ham.n))) him
  have := h e eta g.cfg.delta he hc.delta.le (fun run hrun => by
    obtain ⟨⟨q, hq, h1⟩, h2⟩ := hlog run hrun
    exact LancRun.resLe_delta hc hND hclose h2 (by rw [h1]; exact hmax q hq)) ge gh hp
  rw [if_neg (by simp)] at this
  rwa [(hes.basis.green g.beta _ _ him _).mp hg, ← (hes.basis.green g.beta _ _ him _).mp (IsGreenParts.isGreen hp)]

/-- **C98** for the sectors that `build_espace` returns when no truncation is asked for. -/
theorem C98_from_build_espace (jk : ℝ) (ha : g.ham.Valid) (hw : g.ham.n ≤ g.w) (hc : g.cfg.Ok) (hpos : pos < g.ham.n) {e0 : WithTop ℝ}
    (h : BuildEspace g.w g.ham none (.ok (es, e0))) (hND : 2 ≤ g.cfg.ND) (hclose : ∀ x y, g.cfg.close x y = false)
    (hmax : ∀ q ∈ ndindex2 (g.ham.n + 1) (g.ham.n + 1), g.ham.n.choose q.1 * g.ham.n.choose q.2 ≤ g.cfg.maxn - 1) :
    ∃ out, BuildGfLanczos g pos false es (.ok out) ∧ ∀ (e eta : ℝ), eta ≠ 0 → ∀ gr,
      IsGreen g.beta g.ham.ham (ann ℝ (orb g.ispin (⟨pos, hpos⟩ : Fin g.ham.n))) (cre ℝ (orb g.ispin (⟨pos, hpos⟩ : Fin g.ham.n))) (e + Complex.I * eta) gr →
      ‖out.gfe.call jk e eta - gr‖ ≤ g.cfg.delta / eta ^ 2 + 2 * (g.cfg.delta ^ 2 / |eta|) := by
  have hes := buildEspace_eigen ha hw h
  obtain ⟨⟨r, hr⟩, h2⟩ := C98_gf_lanczos (es := es) jk ha hw hc hpos hes false
  obtain ⟨out, rfl, -⟩ := h2 r hr
  exact ⟨out, hr, fun e eta he gr hg => C98_exact jk ha hw hc hpos hes hND hclose hmax hr e eta he gr hg⟩

/-- Non-vacuity: the two-site Hubbard model of `exampleArgs`, with the default `maxn = 500`, `ND = 10`. -/
example : ∃ es out, EigenEspace 2 exampleArgs.ham es ∧
    BuildGfLanczos ⟨⟨500, 10, 1 / 10 ^ 13, fun _ _ => 0, fun _ _ => false⟩, .cf, 32, 0, exampleArgs, 10, 0, false⟩ 1 false es (.ok out) := by
  obtain ⟨es, hes⟩ := exampleArgs_eigenEspace
  obtain ⟨⟨r, hr⟩, h2⟩ := C98_gf_lanczos (g := ⟨⟨500, 10, 1 / 10 ^ 13, fun _ _ => 0, fun _ _ => false⟩, .cf, 32, 0, exampleArgs, 10, 0, false⟩) (pos := 1) (es := es) 0
    exampleArgs_valid (by decide) ⟨by norm_num, by norm_num, by norm_num⟩ (by decide) hes false
  obtain ⟨out, rfl, -⟩ := h2 r hr
  exact ⟨es, out, hes, hr⟩

end
end Edpyt
