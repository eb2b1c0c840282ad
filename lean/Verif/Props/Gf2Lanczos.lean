import Verif.Proof.GfOff
import Verif.Props.GfLanczos
import Verif.Props.Gf2
/-!
C99, C100: `build_gf_offdiag` and `build_gf2_lanczos` approximate the matrix of thermal Green functions, unless they raise.
-/
namespace Edpyt
open Spec Matrix

/-! ### Polarisation of thermal Green functions -/
section
variable {ι : Type} [Fintype ι] [DecidableEq ι]

theorem gibbs_symm {H : Matrix ι ι ℝ} (hH : H.IsSymm) (β : ℝ) : (gibbsOp β H)ᵀ = gibbsOp β H := by
  unfold gibbsOp
  rw [← Matrix.exp_transpose, Matrix.transpose_smul, hH.eq]

theorem gibbs_comm (H : Matrix ι ι ℝ) (β : ℝ) : H * gibbsOp β H = gibbsOp β H * H := by
  unfold gibbsOp
  letI : NormedRing (Matrix ι ι ℝ) := Matrix.linftyOpNormedRing
  letI : NormedAlgebra ℝ (Matrix ι ι ℝ) := Matrix.linftyOpNormedAlgebra
  exact ((Commute.refl H).smul_right (-β)).exp_right

/-- For a symmetric Hamiltonian the two parts of `⟨⟨A; Dᵀ⟩⟩` and `⟨⟨D; Aᵀ⟩⟩` agree. -/
theorem thermal_swap {H A D : Matrix ι ι ℝ} (hH : H.IsSymm) (β : ℝ) {z : ℂ} {X Y : Matrix ι ι ℂ}
    (hX : z • X - (X * cplx H - cplx H * X) = cplx A) (hY : z • Y - (Y * cplx H - cplx H * Y) = cplx D) :
    thermal β H (X * cplx Dᵀ) = thermal β H (Y * cplx Aᵀ) ∧ thermal β H (cplx Dᵀ * X) = thermal β H (cplx Aᵀ * Y) := by
  have hA : z • Xᵀ - (cplx H * Xᵀ - Xᵀ * cplx H) = cplx Aᵀ := by
    have := congrArg Matrix.transpose hX
    simp only [Matrix.transpose_sub, Matrix.transpose_smul, Matrix.transpose_mul] at this
    have e : (cplx H)ᵀ = cplx H := by unfold cplx; rw [← Matrix.transpose_map, hH.eq]
    rw [e] at this
    rw [this]; unfold cplx; rw [Matrix.transpose_map]
  have hDt : cplx Dᵀ = (cplx D)ᵀ := by unfold cplx; rw [Matrix.transpose_map]
  set ρ := cplx (gibbsOp β H) with hρ
  have hρs : ρᵀ = ρ := by rw [hρ]; unfold cplx; rw [← Matrix.transpose_map, gibbs_symm hH]
  have hρc : cplx H * ρ = ρ * cplx H := by
    have := congrArg (fun M : Matrix ι ι ℝ => cplx M) (gibbs_comm H β)
    simp only [cplx_mul'] at this
    exact this
  have cyc : ∀ M : Matrix ι ι ℂ, trace (ρ * (M * cplx H)) = trace (ρ * (cplx H * M)) := by
    intro M
    rw [← Matrix.mul_assoc, Matrix.trace_mul_comm, ← Matrix.mul_assoc, hρc, Matrix.mul_assoc]
  have tr : ∀ M : Matrix ι ι ℂ, trace (ρ * M) = trace (ρ * Mᵀ) := by
    intro M
    rw [← Matrix.trace_transpose, Matrix.transpose_mul, hρs, Matrix.trace_mul_comm]
  unfold thermal
  rw [← hρ]
  constructor
  · congr 1
    rw [tr, Matrix.transpose_mul, hDt, Matrix.transpose_transpose, ← hY, ← hA]
    simp only [Matrix.mul_sub, Matrix.sub_mul, Matrix.mul_smul, Matrix.smul_mul, Matrix.trace_sub, Matrix.trace_smul]
    rw [show Y * (Xᵀ * cplx H) = Y * Xᵀ * cplx H from (Matrix.mul_assoc _ _ _).symm, cyc]
    simp only [Matrix.mul_assoc]
  · congr 1
    rw [tr, Matrix.transpose_mul, hDt, Matrix.transpose_transpose, ← hY, ← hA]
    simp only [Matrix.mul_sub, Matrix.sub_mul, Matrix.mul_smul, Matrix.smul_mul, Matrix.trace_sub, Matrix.trace_smul]
    rw [show Xᵀ * (Y * cplx H) = Xᵀ * Y * cplx H from (Matrix.mul_assoc _ _ _).symm, cyc]
    simp only [Matrix.mul_assoc]

theorem thermal_add (β : ℝ) (H : Matrix ι ι ℝ) (M N : Matrix ι ι ℂ) : thermal β H (M + N) = thermal β H M + thermal β H N := by
  unfold thermal
  rw [Matrix.mul_add, Matrix.trace_add, add_div]

/-- The off-diagonal parts from the diagonal ones of `A`, `D` and `A + D`. -/
theorem greenParts_polar {H A D : Matrix ι ι ℝ} (hH : H.IsSymm) {β : ℝ} {z ge gh : ℂ} (h : IsGreenParts β H A Dᵀ z ge gh)
    (hD : ∃ x y, IsGreenParts β H D Dᵀ z x y) :
    ∃ ge1 gh1 ge2 gh2, IsGreenParts β H A Aᵀ z ge1 gh1 ∧ IsGreenParts β H D Dᵀ z ge2 gh2 ∧
      IsGreenParts β H (A + D) (A + D)ᵀ z (ge1 + ge2 + 2 * ge) (gh1 + gh2 + 2 * gh) := by
  obtain ⟨X, hX, rfl, rfl⟩ := h
  obtain ⟨-, -, Y, hY, -, -⟩ := hD
  obtain ⟨s1, s2⟩ := thermal_swap hH β hX hY
  have e : cplx (A + D)ᵀ = cplx Aᵀ + cplx Dᵀ := by
    rw [Matrix.transpose_add]; unfold cplx; ext i j; simp
  refine ⟨_, _, _, _, ⟨X, hX, rfl, rfl⟩, ⟨Y, hY, rfl, rfl⟩, X + Y, ?_, ?_, ?_⟩
  · have e2 : cplx (A + D) = cplx A + cplx D := by unfold cplx; ext i j; simp
    rw [e2, ← hX, ← hY, smul_add, Matrix.add_mul, Matrix.mul_add]
    abel
  · rw [e, Matrix.mul_add, Matrix.add_mul, Matrix.add_mul, thermal_add, thermal_add, thermal_add, s1]
    ring
  · rw [e, Matrix.mul_add, Matrix.add_mul, Matrix.add_mul, thermal_add, thermal_add, thermal_add, s2]
    ring

end

/-! ### The loops -/

theorem forR_out {α σ : Type} {body : σ → α → Except PyErr σ → Prop} {P : List α → σ → Prop} {Q : PyErr → Prop} {L : List α}
    (hstep : ∀ xs x ys, L = xs ++ x :: ys → ∀ st, P xs st → ∀ r, body st x r → (∃ st', r = .ok st' ∧ P (xs ++ [x]) st') ∨ ∃ e, r = .error e ∧ Q e)
    (xs ys : List α) (hL : L = xs ++ ys) {st : σ} (hst : P xs st) {r : Except PyErr σ} (h : ForR body ys st r) :
    (∃ st', r = .ok st' ∧ P L st') ∨ ∃ e, r = .error e ∧ Q e := by
  induction ys generalizing xs st with
  | nil =>
    rw [List.append_nil] at hL; subst hL
    exact .inl ⟨st, h, hst⟩
  | cons y ys ih =>
    rcases h with ⟨st1, h1, h2⟩ | ⟨e, h1, rfl⟩
    · rcases hstep xs y ys hL st hst _ h1 with ⟨st', e, hP⟩ | ⟨e, he, -⟩
      · injection e with e; subst e
        exact ih (xs ++ [y]) (by simpa using hL) hP h2
      · cases he
    · rcases hstep xs y ys hL st hst _ h1 with ⟨st', e, hP⟩ | ⟨e', he, hQ⟩
      · cases e
      · injection he with he; subst he
        exact .inr ⟨e, rfl, hQ⟩

section
variable {g : GfLArgs} {es : Espace (ℕ × ℕ)}

/-- `c†_i` on the diagonal and `c†_i + c†_j` off the diagonal. -/
def pairB (g : GfLArgs) (i j : Fin g.ham.n) : Matrix (Finset (Fin (g.ham.n + g.ham.n))) (Finset (Fin (g.ham.n + g.ham.n))) ℝ :=
  if i = j then cre ℝ (orb g.ispin i) else cre ℝ (orb g.ispin i) + cre ℝ (orb g.ispin j)

def pairC {n : ℕ} (i j : Fin n) : ℝ := if i = j then 1 else 2

theorem car_pair {i j : Fin g.ham.n} (h : i ≠ j) : (cre ℝ (orb g.ispin i) + cre ℝ (orb g.ispin j))ᵀ * (cre ℝ (orb g.ispin i) + cre ℝ (orb g.ispin j)) +
    (cre ℝ (orb g.ispin i) + cre ℝ (orb g.ispin j)) * (cre ℝ (orb g.ispin i) + cre ℝ (orb g.ispin j))ᵀ =
    (2 : ℝ) • (1 : Matrix (Finset (Fin (g.ham.n + g.ham.n))) (Finset (Fin (g.ham.n + g.ham.n))) ℝ) := by
  have hne : orb g.ispin i ≠ orb g.ispin j := fun e => h (by unfold orb at e; split at e <;> simpa using e)
  have h1 := ann_cre_anticomm (R := ℝ) (orb g.ispin i) (orb g.ispin i)
  have h2 := ann_cre_anticomm (R := ℝ) (orb g.ispin i) (orb g.ispin j)
  have h3 := ann_cre_anticomm (R := ℝ) (orb g.ispin j) (orb g.ispin i)
  have h4 := ann_cre_anticomm (R := ℝ) (orb g.ispin j) (orb g.ispin j)
  rw [if_pos rfl] at h1 h4
  rw [if_neg hne] at h2
  rw [if_neg hne.symm] at h3
  have e : ∀ k, (cre ℝ (orb g.ispin k))ᵀ = ann ℝ (orb g.ispin (k : Fin g.ham.n)) := fun _ => rfl
  rw [Matrix.transpose_add, e, e, two_smul]
  simp only [Matrix.add_mul, Matrix.mul_add]
  calc _ = (ann ℝ (orb g.ispin i) * cre ℝ (orb g.ispin i) + cre ℝ (orb g.ispin i) * ann ℝ (orb g.ispin i)) +
        (ann ℝ (orb g.ispin i) * cre ℝ (orb g.ispin j) + cre ℝ (orb g.ispin j) * ann ℝ (orb g.ispin i)) +
        (ann ℝ (orb g.ispin j) * cre ℝ (orb g.ispin i) + cre ℝ (orb g.ispin i) * ann ℝ (orb g.ispin j)) +
        (ann ℝ (orb g.ispin j) * cre ℝ (orb g.ispin j) + cre ℝ (orb g.ispin j) * ann ℝ (orb g.ispin j)) := by abel
    _ = _ := by rw [h1, h2, h3, h4]; simp

/-- `op` can act on the orbital `a` in the configuration `T`: it is empty for `c†`, occupied for `c`. -/
def Ladder.Fits {M : Type} (op : Ladder) (a : M) (T : Finset M) : Prop :=
  match op with
  | .cdg => a ∉ T
  | .c => a ∈ T

/-- An eigenstate of the Hamiltonian that `c†_i + c†_j` (or `c_i + c_j`) nearly annihilates although every configuration in it has an empty (occupied) orbital of the spin. -/
def NearlyKilled (g : GfLArgs) (i j : Fin g.ham.n) : Prop :=
  ∃ (ψ : Finset (Fin (g.ham.n + g.ham.n)) → ℝ) (E : ℝ), ψ ⬝ᵥ ψ = 1 ∧ g.ham.ham *ᵥ ψ = E • ψ ∧ ∃ op : Ladder,
    (∀ T, ψ T ≠ 0 → ∃ k : Fin g.ham.n, op.Fits (orb g.ispin k) T) ∧
    ((op.mat (orb g.ispin i) + op.mat (orb g.ispin j)) *ᵥ ψ) ⬝ᵥ ((op.mat (orb g.ispin i) + op.mat (orb g.ispin j)) *ᵥ ψ) < g.cfg.delta ^ 2

/-- How far the functions `f`, `f'` are from the parts of the thermal Green function of `Bᵀ` and `B`. -/
def GfAcc (g : GfLArgs) (jk : ℝ) (separate : Bool) (log : List LancRun) (B : Matrix (Finset (Fin (g.ham.n + g.ham.n))) (Finset (Fin (g.ham.n + g.ham.n))) ℝ)
    (c : ℝ) (f f' : GfL) : Prop :=
  ∀ (e eta ε : ℝ), eta ≠ 0 → 0 ≤ ε → (∀ run ∈ log, run.AccLe g.ham.ham e eta ε) → ∀ ge gh, IsGreenParts g.beta g.ham.ham Bᵀ B (e + Complex.I * eta) ge gh →
    if separate then
      ‖f.call jk e eta - ge‖ ≤ c * ε / eta ^ 2 + g.cfg.delta ^ 2 / |eta| ∧ ‖f'.call jk e eta - gh‖ ≤ c * ε / eta ^ 2 + g.cfg.delta ^ 2 / |eta| ∧
      ‖f.call jk e eta + f'.call jk e eta - (ge + gh)‖ ≤ c * ε / eta ^ 2 + 2 * (g.cfg.delta ^ 2 / |eta|)
    else ‖f.call jk e eta - (ge + gh)‖ ≤ c * ε / eta ^ 2 + 2 * (g.cfg.delta ^ 2 / |eta|)

theorem gfOff_spec (jk : ℝ) (hc : g.cfg.Ok) (ha : g.ham.Valid) (hH : g.ham.ham.IsSymm) (hw : g.ham.n ≤ g.w) (i j : Fin g.ham.n) :
    HalfSpec g jk (opOf (cre ℝ (orb g.ispin i) + cre ℝ (orb g.ispin j)))
      (fun op I => ∃ k < I.eigvals.length, ((op.mat (orb g.ispin i) + op.mat (orb g.ispin j)) *ᵥ I.ket g.ham.n k) ⬝ᵥ ((op.mat (orb g.ispin i) + op.mat (orb g.ispin j)) *ᵥ I.ket g.ham.n k) < g.cfg.delta ^ 2)
      (GfOffHalf g i j) := by
  intro op qI qJ I es r hsh hqJ hI hes h
  have e : opOf (g := g) (cre ℝ (orb g.ispin i) + cre ℝ (orb g.ispin j)) op = op.mat (orb g.ispin i) + op.mat (orb g.ispin j) := by
    cases op <;> rfl
  rcases gfOffHalf_out jk hc ha hH hw i.2 j.2 hsh hqJ hI hes e h with h1 | ⟨-, fs, log, h1, h2, h3⟩
  · rw [e] at h1
    exact .inl h1
  · exact .inr ⟨es, fs, log, h1, .inl rfl, h2, h3⟩

/-- `build_gf_offdiag` for two sites: it ends, and either raises because of an eigenstate that is nearly annihilated, or returns an approximation of the
thermal Green function of `c_i + c_j`. -/
theorem shift_room {n : ℕ} {s : Bool} {op : Ladder} {q q' : ℕ × ℕ} (hsh : SectorShift s op q q') (hq' : q'.1 ≤ n ∧ q'.2 ≤ n) {T : Finset (Fin (n + n))}
    (hT : spinCount false T = q.1 ∧ spinCount true T = q.2) : ∃ k : Fin n, op.Fits (orb s k) T := by
  obtain ⟨h1, h2⟩ := hT
  simp only [spinCount, Bool.false_eq_true, if_false, if_true, Nat.cast_inj] at h1 h2
  cases op
  all_goals simp only [Ladder.Fits]
  all_goals by_contra hno
  all_goals push Not at hno
  all_goals cases s
  all_goals simp only [SectorShift, Ladder.Shift, Bool.false_eq_true, if_false, if_true] at hsh
  · have : upPart T = ∅ := by
      ext k; simpa [orb] using hno k
    rw [this] at h1; simp at h1; omega
  · have : dwPart T = ∅ := by
      ext k; simpa [orb] using hno k
    rw [this] at h2; simp at h2; omega
  · have : upPart T = Finset.univ := by
      ext k; simpa [orb] using hno k
    rw [this] at h1; simp at h1; omega
  · have : dwPart T = Finset.univ := by
      ext k; simpa [orb] using hno k
    rw [this] at h2; simp at h2; omega

theorem gfOff_out (jk : ℝ) (ha : g.ham.Valid) (hw : g.ham.n ≤ g.w) (hc : g.cfg.Ok) {i j : Fin g.ham.n} (hij : i ≠ j) (hes : EigenEspace g.ham.n g.ham.ham es) (separate : Bool) :
    (∃ r, BuildGfOffdiag g i j separate es r) ∧ ∀ r, BuildGfOffdiag g i j separate es r →
      (r = .error .zeroNorm ∧ NearlyKilled g i j) ∨
      ∃ out, r = .ok out ∧ EigenEspace g.ham.n g.ham.ham out.es ∧ (∀ run ∈ out.log, run.Good g) ∧ (separate = false → out.gfh = out.gfe) ∧
        GfAcc g jk separate out.log (pairB g i j) (pairC i j) out.gfe out.gfh := by
  have hspec := gfOff_spec jk hc ha hes.basis.symm hw i j
  have hB := (grade_cre (n := g.ham.n) g.ispin i).add (grade_cre (n := g.ham.n) g.ispin j)
  refine ⟨gfBuild_exists hspec (grade_opOf hB) (fun op I qJ es h1 h2 => gfOffHalf_exists hc ha hw h2 h1.sct) separate hes _ fun st => ⟨_, rfl⟩, fun r hr => ?_⟩
  rcases gfBuild_out hspec hB (c := 2) zero_le_two (car_pair hij) hes separate hr with ⟨h1, op, q, hq, es', he', ⟨k, hk, hlt⟩, q', hsh, hq'⟩ | h
  · refine .inl ⟨h1, (sctAt es' q).ket g.ham.n k, _, ?_, (he'.get hq).2.1.eig k hk, op, ?_, hlt⟩
    swap
    · intro T hT
      obtain ⟨up, dw, hok⟩ := (he'.get hq).2.1.ok
      rw [hok.ket_eq] at hT
      exact shift_room hsh hq' (ket_support hok.hup hok.hdw _ hT)
    have b := mem_ndindex2.mp hq
    have hlen := (he'.get hq).2.2
    have := he'.basis.orth ⟨(⟨q.1, b.1⟩, ⟨q.2, b.2⟩), ⟨k, by rw [← hlen]; exact hk⟩⟩ ⟨(⟨q.1, b.1⟩, ⟨q.2, b.2⟩), ⟨k, by rw [← hlen]; exact hk⟩⟩
    rw [if_pos rfl] at this
    exact this
  · obtain ⟨out, h1, h2, h3, h4, h5⟩ := h
    refine .inr ⟨out, h1, h2, h3, h4, ?_⟩
    unfold pairB pairC
    rw [if_neg hij, if_neg hij]
    exact h5

theorem gfDiag_out (jk : ℝ) (ha : g.ham.Valid) (hw : g.ham.n ≤ g.w) (hc : g.cfg.Ok) (i : Fin g.ham.n) (hes : EigenEspace g.ham.n g.ham.ham es) (separate : Bool) :
    (∃ r, BuildGfLanczos g i separate es r) ∧ ∀ r, BuildGfLanczos g i separate es r →
      ∃ out, r = .ok out ∧ EigenEspace g.ham.n g.ham.ham out.es ∧ (∀ run ∈ out.log, run.Good g) ∧ (separate = false → out.gfh = out.gfe) ∧
        GfAcc g jk separate out.log (pairB g i i) (pairC i i) out.gfe out.gfh := by
  obtain ⟨h1, h2⟩ := gf_lanczos_acc (es := es) jk ha hw hc i.2 hes separate
  refine ⟨h1, fun r hr => ?_⟩
  obtain ⟨out, a1, a2, a3, a4, a5⟩ := h2 r hr
  refine ⟨out, a1, a2, a3, a4, ?_⟩
  unfold pairB pairC
  rw [if_pos rfl, if_pos rfl]
  unfold GfAcc
  simp only [one_mul]
  exact a5

/-- Entry `(i, j)` of the arrays is filled with accurate functions. -/
def Entry (g : GfLArgs) (jk : ℝ) (separate : Bool) (st : Gf2LSt) (i j : Fin g.ham.n) : Prop :=
  ∃ f f' : GfL, st.gfe i j = some f ∧ (separate = true → st.gfh i j = some f') ∧ GfAcc g jk separate st.log (pairB g i j) (pairC i j) f f'

theorem GfAcc.mono {jk : ℝ} {separate : Bool} {log log' : List LancRun} {B : Matrix (Finset (Fin (g.ham.n + g.ham.n))) (Finset (Fin (g.ham.n + g.ham.n))) ℝ} {c : ℝ} {f f' : GfL}
    (h : GfAcc g jk separate log B c f f') (hl : ∀ run ∈ log, run ∈ log') : GfAcc g jk separate log' B c f f' :=
  fun e eta ε he hε hlog => h e eta ε he hε fun run hr => hlog run (hl run hr)

theorem entry_add {jk : ℝ} {separate : Bool} {st : Gf2LSt} {i j : Fin g.ham.n} {out : GfLOut} (h : GfAcc g jk separate out.log (pairB g i j) (pairC i j) out.gfe out.gfh) :
    Entry g jk separate (gf2Add separate st i j out) i j ∧ ∀ a b, Entry g jk separate st a b → Entry g jk separate (gf2Add separate st i j out) a b := by
  have hnew : Entry g jk separate (gf2Add separate st i j out) i j := by
    refine ⟨out.gfe, out.gfh, by simp [gf2Add, upd2], fun hs => by simp [gf2Add, upd2, hs], h.mono fun run hr => ?_⟩
    simp [gf2Add, hr]
  refine ⟨hnew, fun a b hab => ?_⟩
  by_cases he : a = i ∧ b = j
  · obtain ⟨rfl, rfl⟩ := he; exact hnew
  · obtain ⟨f, f', h1, h2, h3⟩ := hab
    have he' : ¬ ((a : ℕ) = i ∧ (b : ℕ) = j) := fun h => he ⟨Fin.ext h.1, Fin.ext h.2⟩
    refine ⟨f, f', by simp [gf2Add, upd2, he', h1], fun hs => by simp [gf2Add, upd2, he', hs, h2 hs], h3.mono fun run hr => ?_⟩
    simp [gf2Add, hr]

/-- What holds all along. -/
structure Gf2Inv (g : GfLArgs) (st : Gf2LSt) : Prop where
  es : EigenEspace g.ham.n g.ham.ham st.es
  log : ∀ run ∈ st.log, run.Good g

theorem gf2Diag_out (jk : ℝ) (ha : g.ham.Valid) (hw : g.ham.n ≤ g.w) (hc : g.cfg.Ok) (separate : Bool) {st : Gf2LSt} (hst : Gf2Inv g st) (i : Fin g.ham.n) :
    (∃ r, Gf2Diag g separate st i r) ∧ ∀ r, Gf2Diag g separate st i r →
      ∃ st', r = .ok st' ∧ Gf2Inv g st' ∧ Entry g jk separate st' i i ∧ ∀ a b, Entry g jk separate st a b → Entry g jk separate st' a b := by
  obtain ⟨h1, h2⟩ := gfDiag_out jk ha hw hc i hst.es separate
  refine ⟨bindR_exists h1 fun x _ => ⟨_, rfl⟩, fun r hr => ?_⟩
  rcases hr with ⟨out, hout, hr⟩ | ⟨e, he, -⟩
  · obtain ⟨out', e1, a2, a3, -, a5⟩ := h2 _ hout
    injection e1 with e1; subst e1
    refine ⟨_, hr, ⟨a2, fun run hrun => ?_⟩, entry_add a5⟩
    simp only [gf2Add, List.mem_append] at hrun
    exact hrun.elim (hst.log run) (a3 run)
  · obtain ⟨out', e1, -⟩ := h2 _ he
    cases e1

theorem gf2Off_out (jk : ℝ) (ha : g.ham.Valid) (hw : g.ham.n ≤ g.w) (hc : g.cfg.Ok) (separate : Bool) {st : Gf2LSt} (hst : Gf2Inv g st) {i j : Fin g.ham.n} (hij : i ≠ j) :
    (∃ r, Gf2Off g separate i st j r) ∧ ∀ r, Gf2Off g separate i st j r → (r = .error .zeroNorm ∧ NearlyKilled g i j) ∨
      ∃ st', r = .ok st' ∧ Gf2Inv g st' ∧ Entry g jk separate st' i j ∧ ∀ a b, Entry g jk separate st a b → Entry g jk separate st' a b := by
  obtain ⟨h1, h2⟩ := gfOff_out jk ha hw hc hij hst.es separate
  refine ⟨bindR_exists h1 fun x _ => ⟨_, rfl⟩, fun r hr => ?_⟩
  rcases hr with ⟨out, hout, hr⟩ | ⟨e, he, rfl⟩
  · rcases h2 _ hout with ⟨h, -⟩ | ⟨out', e1, a2, a3, -, a5⟩
    · cases h
    injection e1 with e1; subst e1
    refine .inr ⟨_, hr, ⟨a2, fun run hrun => ?_⟩, entry_add a5⟩
    simp only [gf2Add, List.mem_append] at hrun
    exact hrun.elim (hst.log run) (a3 run)
  · rcases h2 _ he with ⟨h, hk⟩ | ⟨out', e1, -⟩
    · injection h with h; subst h
      exact .inl ⟨rfl, hk⟩
    · cases e1

theorem gf2DiagLoop_out (jk : ℝ) (ha : g.ham.Valid) (hw : g.ham.n ≤ g.w) (hc : g.cfg.Ok) (hes : EigenEspace g.ham.n g.ham.ham es) (separate : Bool) :
    ∀ r, ForR (Gf2Diag g separate) (List.range g.ham.n) ⟨es, fun _ _ => none, fun _ _ => none, []⟩ r →
      ∃ st, r = .ok st ∧ Gf2Inv g st ∧ ∀ i : Fin g.ham.n, Entry g jk separate st i i := by
  have h0 : Gf2Inv g ⟨es, fun _ _ => none, fun _ _ => none, []⟩ := ⟨hes, by simp⟩
  intro r hr
  rcases forR_out (P := fun xs st => Gf2Inv g st ∧ ∀ i : Fin g.ham.n, (i : ℕ) ∈ xs → Entry g jk separate st i i) (Q := fun _ => False) (by
        rintro xs i ys hL st1 ⟨b1, b2⟩ r1 hr1
        have hi : i < g.ham.n := List.mem_range.mp (by rw [hL]; simp)
        obtain ⟨st2, e, d1, d2, d3⟩ := (gf2Diag_out jk ha hw hc separate b1 ⟨i, hi⟩).2 _ hr1
        refine .inl ⟨st2, e, d1, fun i' hi' => ?_⟩
        rcases List.mem_append.mp hi' with h | h
        · exact d3 _ _ (b2 i' h)
        · obtain rfl : i' = ⟨i, hi⟩ := Fin.ext (by simpa using h)
          exact d2) [] _ (List.nil_append _).symm
      ⟨h0, by simp⟩ hr with ⟨st', e, h1, h2⟩ | ⟨_, _, h⟩
  · exact ⟨st', e, h1, fun i => h2 i (List.mem_range.mpr i.2)⟩
  · exact absurd h id

/-- `build_gf2_lanczos` ends; it raises only because of a nearly annihilated eigenstate, and otherwise fills the upper triangle. -/
theorem gf2Build_out (jk : ℝ) (ha : g.ham.Valid) (hw : g.ham.n ≤ g.w) (hc : g.cfg.Ok) (hes : EigenEspace g.ham.n g.ham.ham es) (separate : Bool) :
    (∃ r, BuildGf2Lanczos g separate es r) ∧ ∀ r, BuildGf2Lanczos g separate es r →
      (r = .error .zeroNorm ∧ ∃ i j, i < j ∧ NearlyKilled g i j) ∨ ∃ st, r = .ok st ∧ Gf2Inv g st ∧ ∀ i j : Fin g.ham.n, i ≤ j → Entry g jk separate st i j := by
  have h0 : Gf2Inv g ⟨es, fun _ _ => none, fun _ _ => none, []⟩ := ⟨hes, by simp⟩
  have hinner : ∀ (i : ℕ) (hi : i < g.ham.n) (st : Gf2LSt), Gf2Inv g st →
      (∃ r, ForR (Gf2Off g separate i) (List.range' (i + 1) (g.ham.n - (i + 1))) st r) ∧
      ∀ r, ForR (Gf2Off g separate i) (List.range' (i + 1) (g.ham.n - (i + 1))) st r →
        (∃ st', r = .ok st' ∧ Gf2Inv g st' ∧ (∀ a b, Entry g jk separate st a b → Entry g jk separate st' a b) ∧
          ∀ j : Fin g.ham.n, i < (j : ℕ) → Entry g jk separate st' ⟨i, hi⟩ j) ∨
        ∃ e, r = .error e ∧ e = .zeroNorm ∧ ∃ i j, i < j ∧ NearlyKilled g i j := by
    intro i hi st hst
    have hrange : ∀ j ∈ List.range' (i + 1) (g.ham.n - (i + 1)), i < j ∧ j < g.ham.n := by
      intro j hj
      rw [List.mem_range'_1] at hj
      omega
    constructor
    · refine forR_exists_inv (P := Gf2Inv g) (fun st hst j hj => ?_) (fun st hst j hj st' h => ?_) st hst
      · obtain ⟨h1, h2⟩ := hrange j hj
        exact (gf2Off_out jk ha hw hc separate hst (i := ⟨i, hi⟩) (j := ⟨j, h2⟩) (by simp; omega)).1
      · obtain ⟨h1, h2⟩ := hrange j hj
        rcases (gf2Off_out jk ha hw hc separate hst (i := ⟨i, hi⟩) (j := ⟨j, h2⟩) (by simp; omega)).2 _ h with ⟨h, -⟩ | ⟨st1, e, h3, -⟩
        · cases h
        · injection e with e; subst e; exact h3
    · intro r hr
      rcases forR_out (P := fun xs st' => Gf2Inv g st' ∧ (∀ a b, Entry g jk separate st a b → Entry g jk separate st' a b) ∧
          ∀ j : Fin g.ham.n, (j : ℕ) ∈ xs → Entry g jk separate st' ⟨i, hi⟩ j) (Q := fun e => e = .zeroNorm ∧ ∃ i j, i < j ∧ NearlyKilled g i j) (by
            rintro xs j ys hL st1 ⟨b1, b2, b3⟩ r1 hr1
            obtain ⟨c1, c2⟩ := hrange j (by rw [hL]; simp)
            rcases (gf2Off_out jk ha hw hc separate b1 (i := ⟨i, hi⟩) (j := ⟨j, c2⟩) (by simp; omega)).2 _ hr1 with ⟨h, hk⟩ | ⟨st2, e, d1, d2, d3⟩
            · exact .inr ⟨_, h, rfl, _, _, by simpa [Fin.lt_def] using c1, hk⟩
            · refine .inl ⟨st2, e, d1, fun a b h => d3 a b (b2 a b h), fun j' hj' => ?_⟩
              rcases List.mem_append.mp hj' with h | h
              · exact d3 _ _ (b3 j' h)
              · obtain rfl : j' = ⟨j, c2⟩ := Fin.ext (by simpa using h)
                exact d2) [] _ (List.nil_append _).symm
          ⟨hst, fun a b h => h, by simp⟩ hr with ⟨st', e, h1, h2, h3⟩ | h
      · refine .inl ⟨st', e, h1, h2, fun j hj => h3 j ?_⟩
        rw [List.mem_range'_1]
        have := j.2
        omega
      · exact .inr h
  have hdiagP : ∀ st, Gf2Inv g st → ∀ i ∈ List.range g.ham.n, ∃ r, Gf2Diag g separate st i r := fun st hst i hi =>
    (gf2Diag_out jk ha hw hc separate hst ⟨i, List.mem_range.mp hi⟩).1
  have hdiag := gf2DiagLoop_out jk ha hw hc hes separate
  constructor
  · refine bindR_exists (forR_exists_inv hdiagP (fun st hst i hi st' h => ?_) _ h0) fun st hst => ?_
    · obtain ⟨st1, e, h1, -⟩ := (gf2Diag_out jk ha hw hc separate hst ⟨i, List.mem_range.mp hi⟩).2 _ h
      injection e with e; subst e; exact h1
    · obtain ⟨st1, e, h1, -⟩ := hdiag _ hst
      injection e with e; subst e
      refine forR_exists_inv (P := Gf2Inv g) (fun st hst i hi => (hinner i (List.mem_range.mp hi) st hst).1) (fun st hst i hi st' h => ?_) st h1
      rcases (hinner i (List.mem_range.mp hi) st hst).2 _ h with ⟨st1, e, h1, -⟩ | ⟨_, h, -⟩
      · injection e with e; subst e; exact h1
      · cases h
  · intro r hr
    rcases hr with ⟨st, hst, hr⟩ | ⟨e, he, -⟩
    swap
    · obtain ⟨st, h, -⟩ := hdiag _ he
      cases h
    obtain ⟨st1, e, h1, h2⟩ := hdiag _ hst
    injection e with e; subst e
    rcases forR_out (P := fun xs st' => Gf2Inv g st' ∧ (∀ i, Entry g jk separate st' i i) ∧ ∀ i j : Fin g.ham.n, (i : ℕ) ∈ xs → i < j → Entry g jk separate st' i j)
        (Q := fun e => e = .zeroNorm ∧ ∃ i j, i < j ∧ NearlyKilled g i j) (by
          rintro xs i ys hL st1 ⟨b1, b2, b3⟩ r1 hr1
          have hi : i < g.ham.n := List.mem_range.mp (by rw [hL]; simp)
          rcases (hinner i hi st1 b1).2 _ hr1 with ⟨st2, e, d1, d2, d3⟩ | h
          · refine .inl ⟨st2, e, d1, fun i => d2 _ _ (b2 i), fun i' j' hi' hlt => ?_⟩
            rcases List.mem_append.mp hi' with h | h
            · exact d2 _ _ (b3 i' j' h hlt)
            · obtain rfl : i' = ⟨i, hi⟩ := Fin.ext (by simpa using h)
              exact d3 j' hlt
          · exact .inr h) [] _ (List.nil_append _).symm ⟨h1, h2, by simp⟩ hr with ⟨st', e, a1, a2, a3⟩ | ⟨e, rfl, rfl, h⟩
    · refine .inr ⟨st', e, a1, fun i j hij => ?_⟩
      rcases eq_or_lt_of_le hij with rfl | hlt
      · exact a2 i
      · exact a3 i j (List.mem_range.mpr i.2) hlt
    · exact .inl ⟨rfl, h⟩

/-! ### C99 -/

theorem IsGreen.parts {ι : Type} [Fintype ι] [DecidableEq ι] {β : ℝ} {H A B : Matrix ι ι ℝ} {z gr : ℂ} (h : IsGreen β H A B z gr) :
    ∃ ge gh, IsGreenParts β H A B z ge gh ∧ gr = ge + gh := by
  obtain ⟨X, h1, rfl⟩ := h
  exact ⟨_, _, ⟨X, h1, rfl, rfl⟩, thermal_add _ _ _ _⟩

theorem half_bound {f1 f2 f3 g1 g2 gx : ℂ} {b b' : ℝ} (h1 : ‖f1 - g1‖ ≤ b) (h2 : ‖f2 - g2‖ ≤ b) (h3 : ‖f3 - (g1 + g2 + 2 * gx)‖ ≤ b') :
    ‖1 / 2 * (f3 - f1 - f2) - gx‖ ≤ b'/ 2 + b := by
  have e : 1 / 2 * (f3 - f1 - f2) - gx = 1 / 2 * ((f3 - (g1 + g2 + 2 * gx)) - (f1 - g1) - (f2 - g2)) := by ring
  rw [e, norm_mul]
  have n1 : ‖(1 / 2 : ℂ)‖ = 1 / 2 := by norm_num
  rw [n1]
  have := (norm_sub_le (f3 - (g1 + g2 + 2 * gx) - (f1 - g1)) (f2 - g2)).trans (add_le_add (norm_sub_le _ _) le_rfl)
  linarith

/-- The three functions that enter an off-diagonal element. -/
theorem entry_off {jk : ℝ} {separate : Bool} {st : Gf2LSt} (hes : EigenEspace g.ham.n g.ham.ham es) (hst : ∀ i j : Fin g.ham.n, i ≤ j → Entry g jk separate st i j) {e eta ε : ℝ} (he : eta ≠ 0) (hε : 0 ≤ ε)
    (hlog : ∀ run ∈ st.log, run.AccLe g.ham.ham e eta ε) {i j : Fin g.ham.n} (hij : i < j) {ge gh : ℂ}
    (hg : IsGreenParts g.beta g.ham.ham (ann ℝ (orb g.ispin i)) (cre ℝ (orb g.ispin j)) (e + Complex.I * eta) ge gh ∨
      IsGreenParts g.beta g.ham.ham (ann ℝ (orb g.ispin j)) (cre ℝ (orb g.ispin i)) (e + Complex.I * eta) ge gh) :
    ∃ fi fi' fj fj' fx fx' : GfL, st.gfe i i = some fi ∧ st.gfe j j = some fj ∧ st.gfe i j = some fx ∧
      (separate = true → st.gfh i i = some fi' ∧ st.gfh j j = some fj' ∧ st.gfh i j = some fx') ∧
      (separate = false → ‖1 / 2 * (fx.call jk e eta - fi.call jk e eta - fj.call jk e eta) - (ge + gh)‖ ≤ 2 * ε / eta ^ 2 + 3 * (g.cfg.delta ^ 2 / |eta|)) ∧
      (separate = true → ‖1 / 2 * (fx.call jk e eta - fi.call jk e eta - fj.call jk e eta) - ge‖ ≤ 2 * ε / eta ^ 2 + 3 / 2 * (g.cfg.delta ^ 2 / |eta|) ∧
        ‖1 / 2 * (fx'.call jk e eta - fi'.call jk e eta - fj'.call jk e eta) - gh‖ ≤ 2 * ε / eta ^ 2 + 3 / 2 * (g.cfg.delta ^ 2 / |eta|)) := by
  obtain ⟨fi, fi', i1, i2, i3⟩ := hst i i le_rfl
  obtain ⟨fj, fj', j1, j2, j3⟩ := hst j j le_rfl
  obtain ⟨fx, fx', x1, x2, x3⟩ := hst i j hij.le
  have him : (e + Complex.I * eta : ℂ).im ≠ 0 := by simpa using he
  have hpol : ∃ ge1 gh1 ge2 gh2, IsGreenParts g.beta g.ham.ham (pairB g i i)ᵀ (pairB g i i) (e + Complex.I * eta) ge1 gh1 ∧
      IsGreenParts g.beta g.ham.ham (pairB g j j)ᵀ (pairB g j j) (e + Complex.I * eta) ge2 gh2 ∧
      IsGreenParts g.beta g.ham.ham (pairB g i j)ᵀ (pairB g i j) (e + Complex.I * eta) (ge1 + ge2 + 2 * ge) (gh1 + gh2 + 2 * gh) := by
    have p1 : pairB g i i = cre ℝ (orb g.ispin i) := if_pos rfl
    have p2 : pairB g j j = cre ℝ (orb g.ispin j) := if_pos rfl
    have p3 : pairB g i j = cre ℝ (orb g.ispin i) + cre ℝ (orb g.ispin j) := if_neg hij.ne
    rw [p1, p2, p3, Matrix.transpose_add]
    rcases hg with h | h
    · exact greenParts_polar hes.basis.symm h (greenParts_exist hes g.beta _ _ him)
    · obtain ⟨a, b, c, d, h1, h2, h3⟩ := greenParts_polar hes.basis.symm h (greenParts_exist hes g.beta _ _ him)
      refine ⟨c, d, a, b, h2, h1, ?_⟩
      rw [add_comm c, add_comm d, add_comm (cre ℝ (orb g.ispin i))ᵀ, add_comm (cre ℝ (orb g.ispin i))]
      exact h3
  obtain ⟨ge1, gh1, ge2, gh2, q1, q2, q3⟩ := hpol
  have b1 := i3 e eta ε he hε hlog _ _ q1
  have b2 := j3 e eta ε he hε hlog _ _ q2
  have b3 := x3 e eta ε he hε hlog _ _ q3
  have c1 : pairC i i = 1 := if_pos rfl
  have c2 : pairC j j = 1 := if_pos rfl
  have c3 : pairC i j = 2 := if_neg hij.ne
  rw [c1] at b1
  rw [c2] at b2
  rw [c3] at b3
  refine ⟨fi, fi', fj, fj', fx, fx', i1, j1, x1, fun h => ⟨i2 h, j2 h, x2 h⟩, fun h => ?_, fun h => ⟨?_, ?_⟩⟩
  · subst h
    simp only [Bool.false_eq_true, if_false] at b1 b2 b3
    refine (half_bound b1 b2 (by convert b3 using 2; ring)).trans (le_of_eq (by ring))
  · subst h
    simp only [if_true] at b1 b2 b3
    exact (half_bound b1.1 b2.1 b3.1).trans (le_of_eq (by ring))
  · subst h
    simp only [if_true] at b1 b2 b3
    exact (half_bound b1.2.1 b2.2.1 b3.2.1).trans (le_of_eq (by ring))

/-- The accuracy of `build_gf2_lanczos` in terms of that of its Lanczos runs. -/
theorem gf2_lanczos_acc (jk : ℝ) (ha : g.ham.Valid) (hw : g.ham.n ≤ g.w) (hc : g.cfg.Ok) (hes : EigenEspace g.ham.n g.ham.ham es) (separate : Bool) :
    (∃ r, BuildGf2Lanczos g separate es r) ∧ ∀ r, BuildGf2Lanczos g separate es r →
      (r = .error .zeroNorm ∧ ∃ i j, i < j ∧ NearlyKilled g i j) ∨
      ∃ st, r = .ok st ∧ EigenEspace g.ham.n g.ham.ham st.es ∧ (∀ run ∈ st.log, run.Good g) ∧
        ∀ (e eta ε : ℝ), eta ≠ 0 → 0 ≤ ε → (∀ run ∈ st.log, run.AccLe g.ham.ham e eta ε) → ∀ empty : ℕ → ℕ → ℂ,
          (separate = false → ∃ G, gf2Evaluate empty g.ham.n (gArrOf jk st.gfe) e eta = .ok G ∧ ∀ (i j : Fin g.ham.n) (gr : ℂ),
            IsGreen g.beta g.ham.ham (ann ℝ (orb g.ispin i)) (cre ℝ (orb g.ispin j)) (e + Complex.I * eta) gr →
            ‖G i j - gr‖ ≤ 2 * ε / eta ^ 2 + 3 * (g.cfg.delta ^ 2 / |eta|)) ∧
          (separate = true → ∃ Ge Gh, gf2Evaluate empty g.ham.n (gArrOf jk st.gfe) e eta = .ok Ge ∧ gf2Evaluate empty g.ham.n (gArrOf jk st.gfh) e eta = .ok Gh ∧
            ∀ (i j : Fin g.ham.n) (ge gh : ℂ), IsGreenParts g.beta g.ham.ham (ann ℝ (orb g.ispin i)) (cre ℝ (orb g.ispin j)) (e + Complex.I * eta) ge gh →
            ‖Ge i j - ge‖ ≤ 2 * ε / eta ^ 2 + 3 / 2 * (g.cfg.delta ^ 2 / |eta|) ∧ ‖Gh i j - gh‖ ≤ 2 * ε / eta ^ 2 + 3 / 2 * (g.cfg.delta ^ 2 / |eta|)) := by
  obtain ⟨h1, h2⟩ := gf2Build_out (g := g) jk ha hw hc hes separate
  refine ⟨h1, fun r hr => (h2 r hr).imp id ?_⟩
  rintro ⟨st, e1, hinv, hent⟩
  refine ⟨st, e1, hinv.es, hinv.log, fun e eta ε he hε hlog empty => ?_⟩
  have hq : 0 ≤ ε / eta ^ 2 := by positivity
  have hd : 0 ≤ g.cfg.delta ^ 2 / |eta| := by positivity
  have e2 : 2 * ε / eta ^ 2 = 2 * (ε / eta ^ 2) := by ring
  have e3 : 1 * ε / eta ^ 2 = ε / eta ^ 2 := by ring
  have hE : ∀ i j : ℕ, i ≤ j → j < g.ham.n → gArrOf jk st.gfe i j = some (fun e eta => ((st.gfe i j).getD ⟨[], 0⟩).call jk e eta) := by
    intro i j hij hj
    obtain ⟨f, f', h, -⟩ := hent ⟨i, by omega⟩ ⟨j, hj⟩ hij
    simp only at h
    simp [gArrOf, h]
  constructor
  · intro hs
    obtain ⟨G, a1, a2, a3, a4⟩ := C41_evaluate (e := e) (eta := eta) empty hE
    refine ⟨G, a1, fun i j gr hgr => ?_⟩
    obtain ⟨ge, gh, hp, rfl⟩ := IsGreen.parts hgr
    rcases lt_trichotomy i j with hij | rfl | hij
    · obtain ⟨fi, -, fj, -, fx, -, b1, b2, b3, -, b4, -⟩ := entry_off hes hent he hε hlog hij (.inl hp)
      rw [a3 i j hij j.2, b1, b2, b3]
      exact b4 hs
    · obtain ⟨f, f', b1, -, b2⟩ := hent i i le_rfl
      have p1 : pairB g i i = cre ℝ (orb g.ispin i) := if_pos rfl
      have c1 : pairC i i = 1 := if_pos rfl
      rw [p1, c1] at b2
      have := b2 e eta ε he hε hlog ge gh hp
      subst hs
      simp only [Bool.false_eq_true, if_false] at this
      rw [a2 i i.2, b1]
      refine le_trans this ?_
      rw [e2, e3]; linarith
    · obtain ⟨fi, -, fj, -, fx, -, b1, b2, b3, -, b4, -⟩ := entry_off hes hent he hε hlog hij (.inr hp)
      rw [a4 i j i.2 j.2, a3 j i hij i.2, b1, b2, b3]
      exact b4 hs
  · intro hs
    have hE' : ∀ i j : ℕ, i ≤ j → j < g.ham.n → gArrOf jk st.gfh i j = some (fun e eta => ((st.gfh i j).getD ⟨[], 0⟩).call jk e eta) := by
      intro i j hij hj
      obtain ⟨f, f', -, h, -⟩ := hent ⟨i, by omega⟩ ⟨j, hj⟩ hij
      simp only at h
      simp [gArrOf, h hs]
    obtain ⟨G, a1, a2, a3, a4⟩ := C41_evaluate (e := e) (eta := eta) empty hE
    obtain ⟨G', a1', a2', a3', a4'⟩ := C41_evaluate (e := e) (eta := eta) empty hE'
    refine ⟨G, G', a1, a1', fun i j ge gh hp => ?_⟩
    rcases lt_trichotomy i j with hij | rfl | hij
    · obtain ⟨fi, fi', fj, fj', fx, fx', b1, b2, b3, b5, -, b4⟩ := entry_off hes hent he hε hlog hij (.inl hp)
      obtain ⟨d1, d2, d3⟩ := b5 hs
      rw [a3 i j hij j.2, a3' i j hij j.2, b1, b2, b3, d1, d2, d3]
      exact b4 hs
    · obtain ⟨f, f', b1, b3, b2⟩ := hent i i le_rfl
      have p1 : pairB g i i = cre ℝ (orb g.ispin i) := if_pos rfl
      have c1 : pairC i i = 1 := if_pos rfl
      rw [p1, c1] at b2
      have := b2 e eta ε he hε hlog ge gh hp
      rw [a2 i i.2, a2' i i.2, b1, b3 hs]
      subst hs
      simp only [if_true] at this
      refine ⟨le_trans this.1 ?_, le_trans this.2.1 ?_⟩
      · rw [e2, e3]; linarith
      · rw [e2, e3]; linarith
    · obtain ⟨fi, fi', fj, fj', fx, fx', b1, b2, b3, b5, -, b4⟩ := entry_off hes hent he hε hlog hij (.inr hp)
      obtain ⟨d1, d2, d3⟩ := b5 hs
      rw [a4 i j i.2 j.2, a4' i j i.2 j.2, a3 j i hij i.2, a3' j i hij i.2, b1, b2, b3, d1, d2, d3]
      exact b4 hs

/-- **C99**, the part that holds. For every admissible Hamiltonian and every complete set of eigenpairs, `build_gf2_lanczos` ends. It raises
`ZeroNormInitialVector` only if some eigenstate is annihilated, up to the norm `δ`, by `c†_i + c†_j` or by `c_i + c_j` for two sites. Otherwise
evaluating the object gives for every pair of sites the thermal Green function `⟨⟨c_i; c_j†⟩⟩` up to `2 ε / η² + 3 δ² / |η|`, and with `separate`
its electron and hole parts. Missing: the claim for Hamiltonians with such eigenstates, where it is false (`C99_refuted`). -/
theorem C99_gf2_lanczos_partial (jk : ℝ) (ha : g.ham.Valid) (hw : g.ham.n ≤ g.w) (hc : g.cfg.Ok) (hes : EigenEspace g.ham.n g.ham.ham es) (separate : Bool) :
    (∃ r, BuildGf2Lanczos g separate es r) ∧ ∀ r, BuildGf2Lanczos g separate es r →
      (r = .error .zeroNorm ∧ ∃ i j, i < j ∧ NearlyKilled g i j) ∨
      ∃ st, r = .ok st ∧ EigenEspace g.ham.n g.ham.ham st.es ∧ (∀ run ∈ st.log, run.Good g) ∧
        ∀ (e eta ε : ℝ), eta ≠ 0 → 0 ≤ ε → (∀ run ∈ st.log, run.ResLe ε) → ∀ empty : ℕ → ℕ → ℂ,
          (separate = false → ∃ G, gf2Evaluate empty g.ham.n (gArrOf jk st.gfe) e eta = .ok G ∧ ∀ (i j : Fin g.ham.n) (gr : ℂ),
            IsGreen g.beta g.ham.ham (ann ℝ (orb g.ispin i)) (cre ℝ (orb g.ispin j)) (e + Complex.I * eta) gr →
            ‖G i j - gr‖ ≤ 2 * ε / eta ^ 2 + 3 * (g.cfg.delta ^ 2 / |eta|)) ∧
          (separate = true → ∃ Ge Gh, gf2Evaluate empty g.ham.n (gArrOf jk st.gfe) e eta = .ok Ge ∧ gf2Evaluate empty g.ham.n (gArrOf jk st.gfh) e eta = .ok Gh ∧
            ∀ (i j : Fin g.ham.n) (ge gh : ℂ), IsGreenParts g.beta g.ham.ham (ann ℝ (orb g.ispin i)) (cre ℝ (orb g.ispin j)) (e + Complex.I * eta) ge gh →
            ‖Ge i j - ge‖ ≤ 2 * ε / eta ^ 2 + 3 / 2 * (g.cfg.delta ^ 2 / |eta|) ∧ ‖Gh i j - gh‖ ≤ 2 * ε / eta ^ 2 + 3 / 2 * (g.cfg.delta ^ 2 / |eta|)) := by
  obtain ⟨h1, h2⟩ := gf2_lanczos_acc (g := g) jk ha hw hc hes separate
  refine ⟨h1, fun r hr => (h2 r hr).imp id ?_⟩
  rintro ⟨st, a1, a2, a3, a4⟩
  exact ⟨st, a1, a2, a3, fun e eta ε he hε hlog => a4 e eta ε he hε fun run hrun => (hlog run hrun).accLe hc (a3 run hrun).2 _ e eta he⟩

/-- When every eigenstate vector passes the norm test, `build_gf_offdiag` was able to return: conversely, if it returned, each eigenstate of each
sector with an arrival sector passes it. -/
theorem off_ok_nz (ha : g.ham.Valid) (hw : g.ham.n ≤ g.w) (hc : g.cfg.Ok) (i j : Fin g.ham.n) (hes : EigenEspace g.ham.n g.ham.ham es) (separate : Bool) {out : GfLOut}
    (h : BuildGfOffdiag g i j separate es (.ok out)) {q : ℕ × ℕ} (hq : q ∈ ndindex2 (g.ham.n + 1) (g.ham.n + 1)) {op : Ladder} {q' : ℤ × ℤ} (hq' : gfArrival g.ham.n op g.ispin q = .ok q')
    {k : ℕ} (hk : k < (sctAt es q).eigvals.length) :
    g.cfg.delta ^ 2 ≤ ((op.mat (orb g.ispin i) + op.mat (orb g.ispin j)) *ᵥ (sctAt es q).ket g.ham.n k) ⬝ᵥ
      ((op.mat (orb g.ispin i) + op.mat (orb g.ispin j)) *ᵥ (sctAt es q).ket g.ham.n k) := by
  have hhalf : ∀ (op : Ladder) (q : ℕ × ℕ), q ∈ ndindex2 (g.ham.n + 1) (g.ham.n + 1) → ∀ st st' : GfLSt, st.es = es → GfStepHalf (GfOffHalf g i j) g separate op q (sctAt es q) st (.ok st') →
      st'.es = es ∧ ∀ q', gfArrival g.ham.n op g.ispin q = .ok q' → ∀ k < (sctAt es q).eigvals.length,
        g.cfg.delta ^ 2 ≤ ((op.mat (orb g.ispin i) + op.mat (orb g.ispin j)) *ᵥ (sctAt es q).ket g.ham.n k) ⬝ᵥ
          ((op.mat (orb g.ispin i) + op.mat (orb g.ispin j)) *ᵥ (sctAt es q).ket g.ham.n k) := by
    intro op q hq st st' hst h
    unfold GfStepHalf at h
    rcases gfArrival_cases (s := g.ispin) (op := op) hq with ⟨q1, h1, h2, h3⟩ | ⟨h1, -⟩
    · rw [h1] at h
      simp only [Int.toNat_natCast] at h
      rcases h with ⟨o, ho, h⟩ | ⟨e, -, h⟩
      · rcases gfOffHalf_out 0 hc ha hes.basis.symm hw i.2 j.2 h2 h3 (hes.get hq).2.1 (by rw [hst]; exact hes.sct) rfl ho with ⟨-, h⟩ | ⟨hnz, fs, log, e1, -⟩
        · cases h
        · injection e1 with e1; subst e1
          simp only [DetR] at h
          injection h with h
          refine ⟨?_, fun _ _ => hnz⟩
          rw [h]
          split <;> exact hst
      · cases h
    · rw [h1] at h
      simp only at h
      injection h with h; subst h
      exact ⟨hst, fun q' h => by rw [h1] at h; cases h⟩
  have hloop : ∀ (xs : List (ℕ × ℕ)), (∀ q ∈ xs, q ∈ ndindex2 (g.ham.n + 1) (g.ham.n + 1)) → ∀ st st' : GfLSt, st.es = es → ForR (GfStep (GfOffHalf g i j) g separate) xs st (.ok st') →
      ∀ q ∈ xs, ∀ op q', gfArrival g.ham.n op g.ispin q = .ok q' → ∀ k < (sctAt es q).eigvals.length,
        g.cfg.delta ^ 2 ≤ ((op.mat (orb g.ispin i) + op.mat (orb g.ispin j)) *ᵥ (sctAt es q).ket g.ham.n k) ⬝ᵥ
          ((op.mat (orb g.ispin i) + op.mat (orb g.ispin j)) *ᵥ (sctAt es q).ket g.ham.n k) := by
    intro xs
    induction xs with
    | nil => simp
    | cons x xs ih =>
      intro hxs st st' hst h
      rcases h with ⟨st2, h1, h2⟩ | ⟨e, -, h⟩
      · unfold GfStep at h1
        have hx := hxs x (by simp)
        rw [hst, bindR_ok (hes.get hx).1] at h1
        rcases h1 with ⟨st1, h3, h4⟩ | ⟨e, -, h⟩
        · obtain ⟨a1, a2⟩ := hhalf .cdg x hx _ _ hst h3
          obtain ⟨b1, b2⟩ := hhalf .c x hx _ _ a1 h4
          intro q hq op
          rcases List.mem_cons.mp hq with rfl | hq
          · cases op
            · exact b2
            · exact a2
          · exact ih (fun q hq => hxs q (by simp [hq])) _ _ b1 h2 q hq op
        · cases h
      · cases h
  rcases h with ⟨st, h1, -⟩ | ⟨e, -, h⟩
  · exact hloop _ (fun q hq => hes.keys.mem_iff.mp hq) _ _ rfl h1 q (hes.keys.mem_iff.mpr hq) op q' hq' k hk
  · cases h

end
/-! ### The dimer -/

theorem mul_num_apply {M : Type} [Fintype M] [LinearOrder M] {R : Type} [CommRing R] (A : Matrix (Finset M) (Finset M) R) (i : M) (T S : Finset M) : (A * num R i) T S = if i ∈ S then A T S else 0 := by
  rw [Matrix.mul_apply]
  simp only [num_apply, mul_ite, mul_one, mul_zero]
  by_cases h : i ∈ S
  · rw [if_pos h]
    rw [Finset.sum_eq_single S]
    · simp [h]
    · intro b _ hb; simp [hb]
    · simp
  · rw [if_neg h]
    exact Finset.sum_eq_zero fun b _ => by simp [h]

/-- The Hamiltonian of `exampleArgs`: two sites with hopping 1 and `U = 4`. -/
noncomputable def dimerH : Matrix (Finset (Fin (2 + 2))) (Finset (Fin (2 + 2))) ℝ :=
  hubbard true (fun _ i j => if i = j then 0 else 1) (fun _ => 1) (fun i j => if i = j then 4 else 0)

theorem dimer_ham : exampleArgs.ham = dimerH := by
  have h1 : (codeExchange exampleArgs.V.Jx exampleArgs.V.Jp : Matrix (Finset (Fin (2 + 2))) (Finset (Fin (2 + 2))) ℝ) = 0 := by
    rw [show exampleArgs.V.Jx = none from rfl, show exampleArgs.V.Jp = none from rfl]
    simp [codeExchange, optMat, exchangeSame, exchangeFlip, pairHopping, offdiag]
  unfold HamArgs.ham
  refine (congrArg₂ (· + ·) (?_ : _ = dimerH) h1).trans (add_zero _)
  unfold dimerH
  have e1 : ∀ (s : ℕ) (i j : Fin 2), kept (n := 2) exampleArgs.mu (exampleArgs.H s) i j = if i = j then 0 else 1 := by
    intro s i j
    rw [kept_apply]
    by_cases h : i = j
    · simp [h, exampleArgs]
    · have : ((i : ℕ) = j) = False := by simpa [Fin.ext_iff] using h
      simp only [h, exampleArgs, this, if_false]
      norm_num
  have e2 : ∀ i j : Fin 2, exampleArgs.V.U.getD 0 i j = if i = j then 4 else 0 := by
    intro i j
    rw [show exampleArgs.V.U = some (fun i j => if i = j then 4 else 0) from rfl]
    simp [Fin.ext_iff]
  congr 1
  · funext s i j
    exact e1 _ i j
  · funext i j
    exact e2 i j

theorem dimer_col (k : Fin 2) (T : Finset (Fin (2 + 2))) : dimerH T {orb false k} = if T = {orb false (1 - k)} then 1 else 0 := by
  have f0 : ({k ∈ ({0} : Finset (Fin (2 + 2))) | 0 < k}).card = 0 := by decide
  have f1 : ({k ∈ ({1} : Finset (Fin (2 + 2))) | 1 < k}).card = 0 := by decide
  unfold dimerH hubbard kinetic onsiteU interSite
  fin_cases k
  · simp [orb, sgn, Matrix.mul_sub, mul_ann_apply, mul_num_apply, num_apply, Matrix.one_apply, cre_apply]
    rw [f0]
    split_ifs <;> norm_num
  · simp [orb, sgn, Matrix.mul_sub, mul_ann_apply, mul_num_apply, num_apply, Matrix.one_apply, cre_apply]
    rw [f1]
    split_ifs <;> norm_num

/-- In every complete set of eigenstates of the dimer the symmetric one-electron state is present, and `c†_1 + c†_2` annihilates it. -/
theorem dimer_killed {es : Espace (ℕ × ℕ)} (hes : EigenEspace 2 dimerH es) :
    ∃ k < (sctAt es (1, 0)).eigvals.length, (cre ℝ (orb false (0 : Fin 2)) + cre ℝ (orb false (1 : Fin 2))) *ᵥ (sctAt es (1, 0)).ket 2 k = 0 := by
  have hq : (1, 0) ∈ ndindex2 (2 + 1) (2 + 1) := by decide
  have c0 : ∀ T, dimerH T {0} = if T = {1} then 1 else 0 := dimer_col 0
  have c1 : ∀ T, dimerH T {1} = if T = {0} then 1 else 0 := dimer_col 1
  set φ : Finset (Fin (2 + 2)) → ℝ := Pi.single {0} 1 + Pi.single {1} 1 with hφ
  have hHφ : dimerH *ᵥ φ = φ := by
    funext T
    rw [hφ, Matrix.mulVec_add]
    simp only [Matrix.mulVec_single_one, Pi.add_apply, Matrix.col_apply, c0, c1, Pi.single_apply]
    ring
  obtain ⟨a, ha⟩ : ∃ a, esKet 2 es a ⬝ᵥ φ ≠ 0 := by
    by_contra hno
    push Not at hno
    have hd := hes.basis.diag (Fintype.equivOfCardEq hes.basis.card.symm)
    have h0 : (Matrix.of fun i b => esKet 2 es (Fintype.equivOfCardEq hes.basis.card.symm b) i)ᵀ *ᵥ φ = 0 := by
      funext b
      exact hno _
    have h1 := congrArg (fun v => (Matrix.of fun i b => esKet 2 es (Fintype.equivOfCardEq hes.basis.card.symm b) i) *ᵥ v) h0
    simp only [Matrix.mulVec_mulVec, Matrix.mulVec_zero] at h1
    rw [hd.right, Matrix.one_mulVec] at h1
    have := congrFun h1 {0}
    have hne : ({0} : Finset (Fin (2 + 2))) ≠ {1} := by decide
    simp [hφ, Pi.single_apply, hne] at this
  have hE : esVal 2 es a = 1 := by
    have h1 := hes.basis.eig a
    have h2 : (dimerH *ᵥ esKet 2 es a) ⬝ᵥ φ = esKet 2 es a ⬝ᵥ (dimerH *ᵥ φ) := by
      rw [Matrix.dotProduct_mulVec, ← Matrix.mulVec_transpose, hes.basis.symm.eq]
    rw [h1, hHφ, smul_dotProduct, smul_eq_mul] at h2
    exact mul_right_cancel₀ ha (by rw [h2, one_mul])
  obtain ⟨⟨u, d⟩, k⟩ := a
  have hsup : ∀ T, esKet 2 es ⟨(u, d), k⟩ T ≠ 0 → spinCount false T = (u : ℕ) ∧ spinCount true T = (d : ℕ) := by
    intro T hT
    obtain ⟨up, dw, hok⟩ := (hes.get (q := ((u : ℕ), (d : ℕ))) (mem_ndindex2.mpr ⟨u.2, d.2⟩)).2.1.ok
    unfold esKet at hT
    rw [hok.ket_eq] at hT
    exact ket_support hok.hup hok.hdw _ hT
  have hud : (u : ℕ) = 1 ∧ (d : ℕ) = 0 := by
    have : esKet 2 es ⟨(u, d), k⟩ {0} ≠ 0 ∨ esKet 2 es ⟨(u, d), k⟩ {1} ≠ 0 := by
      by_contra hno
      push Not at hno
      apply ha
      rw [hφ, dotProduct_add]
      simp [hno.1, hno.2]
    rcases this with h | h
    · have := hsup _ h
      have s1 : spinCount (n := 2) false {0} = 1 := by decide
      have s2 : spinCount (n := 2) true {0} = 0 := by decide
      rw [s1, s2] at this
      omega
    · have := hsup _ h
      have s1 : spinCount (n := 2) false {1} = 1 := by decide
      have s2 : spinCount (n := 2) true {1} = 0 := by decide
      rw [s1, s2] at this
      omega
  obtain rfl : u = 1 := Fin.ext hud.1
  obtain rfl : d = 0 := Fin.ext hud.2
  have hψ : esKet 2 es ⟨(1, 0), k⟩ = (sctAt es (1, 0)).ket 2 k := rfl
  refine ⟨k, ?_, ?_⟩
  · rw [(hes.get hq).2.2]; exact k.2
  rw [← hψ]
  set ψ := esKet 2 es ⟨(1, 0), k⟩ with hψd
  have hone : ∀ T : Finset (Fin (2 + 2)), spinCount (n := 2) false T = 1 → spinCount (n := 2) true T = 0 → T = {0} ∨ T = {1} := by decide
  have hrow : ∀ T, dimerH {0} T = if T = {1} then 1 else 0 := fun T => by rw [← c0 T]; exact congrFun (congrFun hes.basis.symm.eq T) {0} |>.symm ▸ rfl
  have h01 : ψ {0} = ψ {1} := by
    have h1 := congrFun (hes.basis.eig ⟨(1, 0), k⟩) {0}
    rw [hE, one_smul, ← hψd] at h1
    rw [← h1]
    simp only [Matrix.mulVec, dotProduct, hrow]
    simp
  have hsplit : ψ = ψ {0} • φ := by
    funext T
    by_cases hT : ψ T = 0
    · by_cases t0 : T = {0}
      · subst t0; simp [hT]
      · by_cases t1 : T = {1}
        · subst t1; rw [h01]; simp [hT]
        · simp [hφ, Pi.single_apply, t0, t1, hT]
    · have hne : ({0} : Finset (Fin (2 + 2))) ≠ {1} := by decide
      obtain ⟨a1, a2⟩ := hsup T hT
      rcases hone T a1 a2 with rfl | rfl
      · simp [hφ, Pi.single_apply, hne]
      · simp [hφ, Pi.single_apply, hne.symm, h01]
  have hAφ : (cre ℝ (orb false (0 : Fin 2)) + cre ℝ (orb false (1 : Fin 2))) *ᵥ φ = 0 := by
    funext T
    rw [hφ, Matrix.mulVec_add]
    have f0 : ({k ∈ ({0} : Finset (Fin (2 + 2))) | 1 < k}).card = 0 := by decide
    have f1 : ({k ∈ ({1} : Finset (Fin (2 + 2))) | 0 < k}).card = 1 := by decide
    have e : insert 0 ({1} : Finset (Fin (2 + 2))) = insert 1 {0} := by decide
    simp [cre_apply, orb, sgn, f0, f1, e]
    split_ifs <;> norm_num
  rw [hsplit, Matrix.mulVec_smul, hAφ, smul_zero]

/-- **C99 is false as stated**: for the two-site Hubbard model, any complete set of eigenpairs, any parameters of the Lanczos loop, either representation,
any temperature, `build_gf2_lanczos` for spin up raises `ZeroNormInitialVector`: `c†_1 + c†_2` annihilates the symmetric one-electron state. -/
theorem C99_refuted {g : GfLArgs} {es : Espace (ℕ × ℕ)} (hg : g.ham = exampleArgs) (hs : g.ispin = false) (hw : 2 ≤ g.w) (hc : g.cfg.Ok) (hes : EigenEspace 2 exampleArgs.ham es) (separate : Bool) :
    (∃ r, BuildGf2Lanczos g separate es r) ∧ ∀ r, BuildGf2Lanczos g separate es r → r = .error .zeroNorm := by
  obtain ⟨cfg, rep, w, junk, ham, beta, egs, ispin⟩ := g
  simp only at hg hs hw hc
  subst hg hs
  obtain ⟨h1, h2⟩ := gf2Build_out (g := ⟨cfg, rep, w, junk, exampleArgs, beta, egs, false⟩) (es := es) 0 exampleArgs_valid hw hc hes separate
  refine ⟨h1, fun r hr => ?_⟩
  rcases h2 r hr with ⟨h, -⟩ | ⟨st, rfl, -⟩
  · exact h
  exfalso
  rcases hr with ⟨st1, hd, ho⟩ | ⟨e, -, h⟩
  swap
  · cases h
  obtain ⟨st1', e1, hinv, -⟩ := gf2DiagLoop_out (g := ⟨cfg, rep, w, junk, exampleArgs, beta, egs, false⟩) (es := es) 0 exampleArgs_valid hw hc hes separate _ hd
  injection e1 with e1; subst e1
  have hr2 : List.range exampleArgs.n = [0, 1] := rfl
  have hr1 : List.range' (0 + 1) (exampleArgs.n - (0 + 1)) = [1] := rfl
  simp only at ho
  rw [hr2] at ho
  rcases ho with ⟨st2, h3, -⟩ | ⟨e, -, h⟩
  swap
  · cases h
  rw [hr1] at h3
  rcases h3 with ⟨st3, h3, -⟩ | ⟨e, -, h⟩
  swap
  · cases h
  rcases h3 with ⟨out, h3, -⟩ | ⟨e, -, h⟩
  swap
  · cases h
  have hes1 : EigenEspace 2 exampleArgs.ham st1.es := hinv.es
  obtain ⟨k, hk, hz⟩ := dimer_killed (es := st1.es) (by rw [← dimer_ham]; exact hes1)
  have := off_ok_nz (g := ⟨cfg, rep, w, junk, exampleArgs, beta, egs, false⟩) exampleArgs_valid hw hc (0 : Fin 2) (1 : Fin 2) hes1 separate h3
    (q := (1, 0)) (show (1, 0) ∈ ndindex2 (2 + 1) (2 + 1) by decide) (op := .cdg) (q' := (2, 0)) (by rfl) hk
  have hz' : ((Ladder.cdg.mat (orb false (0 : Fin 2)) + Ladder.cdg.mat (orb false (1 : Fin 2))) *ᵥ (sctAt st1.es (1, 0)).ket 2 k : Finset (Fin (2 + 2)) → ℝ) = 0 := hz
  have this' : cfg.delta ^ 2 ≤ ((Ladder.cdg.mat (orb false (0 : Fin 2)) + Ladder.cdg.mat (orb false (1 : Fin 2))) *ᵥ (sctAt st1.es (1, 0)).ket 2 k : Finset (Fin (2 + 2)) → ℝ) ⬝ᵥ
      ((Ladder.cdg.mat (orb false (0 : Fin 2)) + Ladder.cdg.mat (orb false (1 : Fin 2))) *ᵥ (sctAt st1.es (1, 0)).ket 2 k) := this
  rw [hz', dotProduct_zero] at this'
  have := pow_pos hc.delta 2
  linarith

/-- Non-vacuity: the default parameters of the Lanczos loop and a complete set of eigenpairs of the dimer. -/
example : ∃ es, EigenEspace 2 exampleArgs.ham es ∧ LancCfg.Ok ⟨500, 10, 1 / 10 ^ 13, fun _ _ => 0, fun _ _ => false⟩ := by
  obtain ⟨es, hes⟩ := exampleArgs_eigenEspace
  exact ⟨es, hes, ⟨by norm_num, by norm_num, by norm_num⟩⟩

end Edpyt
