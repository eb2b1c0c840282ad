import Verif.Proof.GfLoop
/-!
Lemmas about `build_gf_offdiag`: the half steps of its loop.
-/
namespace Edpyt
open Spec Matrix

/-- A start vector that fails the norm test raises. -/
theorem slTridiag_zero {K V : Type} {step : V → V → K × K × V × V} {tiny : K → Bool} {eg : List K → List K → K} {close : K → Option K → Bool} {maxn ND : ℕ}
    (hmaxn : 2 ≤ maxn) (hND : 1 ≤ ND) {junk : List K} (hjunk : junk.length = maxn) {zero phi0 : V} (h0 : tiny (step phi0 zero).2.1 = true) {r : Except PyErr (List K × List K)}
    (h : BuildSlTridiag step tiny eg close maxn ND junk zero phi0 r) : r = .error .zeroNorm := by
  obtain ⟨r', h1, h2, -⟩ := C39_terminates step tiny eg close hmaxn hND junk hjunk zero phi0
  rw [h2 r h]
  symm
  apply h2
  obtain ⟨k, rfl⟩ : ∃ k, ND = k + 1 := ⟨ND - 1, by omega⟩
  refine .error (.raised rfl ?_)
  have : 0 < junk.length := by omega
  simp [slPass, setItem, pyIndex, bind, Except.bind, h0, this]

section
variable {cfg : LancCfg} {rep : GfRepr} {d : ℕ} {mv : (Fin d → ℝ) → Fin d → ℝ} {v0 : ℕ → ℕ → ℝ} {E : List ℝ} {ex : ℝ → ℝ} {sign : ℝ}

theorem lanczosRow_nz (hc : cfg.Ok) {st st' : List GfFn × List LancRun} {k : ℕ} (h : LanczosRow cfg rep false d mv v0 E ex sign st k (.ok st')) :
    cfg.delta ^ 2 ≤ (fun c : Fin d => v0 k c) ⬝ᵥ (fun c : Fin d => v0 k c) := by
  obtain ⟨jk, t, hjk, ht, hm⟩ := h
  by_contra hlt
  rw [not_le] at hlt
  have := slTridiag_zero hc.maxn hc.ND hjk (by
    apply decide_eq_true
    have h1 : Real.sqrt ((fun c : Fin d => v0 k c) ⬝ᵥ (fun c : Fin d => v0 k c)) < cfg.delta := (Real.sqrt_lt' hc.delta).mpr hlt
    exact (abs_of_nonneg (Real.sqrt_nonneg _)).trans_lt h1) ht
  subst this
  simp at hm

theorem lanczosRows_nz (hc : cfg.Ok) (xs : List ℕ) {st st' : List GfFn × List LancRun} (h : ForR (LanczosRow cfg rep false d mv v0 E ex sign) xs st (.ok st')) :
    ∀ k ∈ xs, cfg.delta ^ 2 ≤ (fun c : Fin d => v0 k c) ⬝ᵥ (fun c : Fin d => v0 k c) := by
  induction xs generalizing st with
  | nil => simp
  | cons x xs ih =>
    rcases h with ⟨st1, h1, h2⟩ | ⟨e, -, h⟩
    · intro k hk
      rcases List.mem_cons.mp hk with rfl | hk
      · exact lanczosRow_nz hc h1
      · exact ih h2 k hk
    · cases h
end

/-- `c† ↦ B`, `c ↦ Bᵀ` for the sum of two sites. -/
theorem pairOp (n : ℕ) (s : Bool) (i j : Fin n) (op : Ladder) :
    (match op with | .c => (cre ℝ (orb s i) + cre ℝ (orb s j))ᵀ | .cdg => cre ℝ (orb s i) + cre ℝ (orb s j)) = op.mat (orb s i) + op.mat (orb s j) := by
  cases op <;> rfl

section
variable {g : GfLArgs}

theorem gfOffHalf_out (jk : ℝ) (hc : g.cfg.Ok) (ha : g.ham.Valid) (hH : g.ham.ham.IsSymm) (hw : g.ham.n ≤ g.w) {ipos jpos : ℕ} (hi : ipos < g.ham.n) (hj : jpos < g.ham.n)
    {op : Ladder} {qI qJ : ℕ × ℕ} (hsh : SectorShift g.ispin op qI qJ) (hqJ : qJ.1 ≤ g.ham.n ∧ qJ.2 ≤ g.ham.n) {I : Sct} (hI : EigSct g.ham.n g.ham.ham qI I)
    {es : Espace (ℕ × ℕ)} (hes : ∀ p ∈ es, EigSct g.ham.n g.ham.ham p.1 p.2) {r : Except PyErr (Espace (ℕ × ℕ) × List GfFn × List LancRun)}
    {B : Matrix (Finset (Fin (g.ham.n + g.ham.n))) (Finset (Fin (g.ham.n + g.ham.n))) ℝ}
    (hB : B = op.mat (orb g.ispin (⟨ipos, hi⟩ : Fin g.ham.n)) + op.mat (orb g.ispin (⟨jpos, hj⟩ : Fin g.ham.n)))
    (h : GfOffHalf g ipos jpos op I qJ es r) :
    ((∃ k < I.eigvals.length, (B *ᵥ I.ket g.ham.n k) ⬝ᵥ (B *ᵥ I.ket g.ham.n k) < g.cfg.delta ^ 2) ∧ r = .error .zeroNorm) ∨
    (∀ k < I.eigvals.length, g.cfg.delta ^ 2 ≤ (B *ᵥ I.ket g.ham.n k) ⬝ᵥ (B *ᵥ I.ket g.ham.n k)) ∧
    ∃ fs log, r = .ok (es, fs, log) ∧
      (∀ run ∈ log, run.d = g.ham.n.choose qJ.1 * g.ham.n.choose qJ.2 ∧ run.Of g.cfg) ∧
      ∀ (e eta ε : ℝ), eta ≠ 0 → 0 ≤ ε → (∀ run ∈ log, run.AccLe g.ham.ham e eta ε) →
        ‖(fs.map fun f => f.eval jk e eta).sum - halfExact g.ham.n g.ham.ham B op.sign g.beta g.egs I (e + Complex.I * eta)‖ ≤
          halfErr g.ham.n B g.beta g.egs I g.cfg.delta ε eta := by
  obtain ⟨upI, dwI, hIok⟩ := hI.ok
  obtain ⟨J, b, up, dw, hJ, hJok, hb⟩ := arrivalSector_ok ha.le hw hes hqJ
  have hs1 : (if g.ispin then 1 else (-1) ^ qI.2 : ℝ) ^ 2 = 1 := by
    split
    · simp
    · rw [← pow_mul, mul_comm, pow_mul]; simp
  unfold GfOffHalf at h
  rw [bindR_ok hJ] at h
  obtain ⟨M1, hM1, hv1⟩ := projectPickL_ok (junk := g.junk) ha.le hi g.ispin op hsh hIok hJok
  obtain ⟨M2, hM2, hv2⟩ := projectPickL_ok (junk := g.junk) ha.le hj g.ispin op hsh hIok hJok
  simp only at h
  rw [bindR_ok hM1, bindR_ok hM2] at h
  have hv : ∀ k, ket g.ham.n up dw (fun c => M1 k c + M2 k c) = (if g.ispin then 1 else (-1) ^ qI.2 : ℝ) • (B *ᵥ I.ket g.ham.n k) := by
    intro k
    rw [hB, Matrix.add_mulVec, smul_add, ← hv1, ← hv2]
    funext T
    simp only [ket, Pi.add_apply, ← Finset.sum_add_distrib]
    refine Finset.sum_congr rfl fun a _ => Finset.sum_congr rfl fun b _ => ?_
    split <;> simp
  have hgen := hJok.gen ha.le hw hqJ.1 hqJ.2
  obtain ⟨ops, hops, -, h⟩ := bindR_of (P := fun _ => True) (fun x hx => by
    cases x with
    | ok y => exact ⟨y, rfl, trivial⟩
    | error e =>
      rw [hJok.states] at hx
      exact absurd hx (build_no_error ha hw hqJ.1 hqJ.2 hgen.1 hgen.2)) h
  obtain ⟨mv, hmv, h⟩ := h
  have hnorm : ∀ k, (fun c : Fin J.d => M1 k c + M2 k c) ⬝ᵥ (fun c : Fin J.d => M1 k c + M2 k c) = (B *ᵥ I.ket g.ham.n k) ⬝ᵥ (B *ᵥ I.ket g.ham.n k) := by
    intro k
    have h1 := ket_inner hJok.hup hJok.hdw (fun c => M1 k c + M2 k c) (fun c => M1 k c + M2 k c)
    rw [hv, smul_dotProduct, dotProduct_smul, smul_smul, ← pow_two, hs1, one_smul, Finset.sum_range] at h1
    rw [h1]
    simp only [dotProduct]
    exact Fin.sum_congr' (fun c : Fin (up.length * dw.length) => (M1 k c + M2 k c) * (M1 k c + M2 k c)) hJok.d
  rcases h with ⟨⟨fs, log⟩, hx, h⟩ | ⟨e, hx, rfl⟩
  · have hnz := lanczosRows_nz hc _ hx
    rcases lanczosHalf_out jk hc ha hH hw hqJ.1 hqJ.2 hJok hs1 hv hops hmv op g.beta g.egs hx with ⟨-, h, -⟩ | ⟨fs', log', e1, h1, h2⟩
    · cases h
    · injection e1 with e1
      injection e1 with e1 e2
      subst e1 e2
      refine .inr ⟨fun k hk => ?_, fs, log, h, fun run hr => ⟨?_, (h1 run hr).2⟩, h2⟩
      · rw [← hnorm]; exact hnz k (List.mem_range.mpr hk)
      · rw [(h1 run hr).1, hJok.d, hJok.hup.len, hJok.hdw.len]
  · rcases lanczosHalf_out jk hc ha hH hw hqJ.1 hqJ.2 hJok hs1 hv hops hmv op g.beta g.egs hx with ⟨-, h, h3⟩ | ⟨fs', log', e1, h1, h2⟩
    · injection h with h; subst h
      exact .inl ⟨h3, rfl⟩
    · cases e1

theorem gfOffHalf_exists (hc : g.cfg.Ok) (ha : g.ham.Valid) (hw : g.ham.n ≤ g.w) {ipos jpos : ℕ}
    {op : Ladder} {qJ : ℕ × ℕ} (hqJ : qJ.1 ≤ g.ham.n ∧ qJ.2 ≤ g.ham.n) {I : Sct}
    {es : Espace (ℕ × ℕ)} (hes : ∀ p ∈ es, EigSct g.ham.n g.ham.ham p.1 p.2) : ∃ r, GfOffHalf g ipos jpos op I qJ es r := by
  unfold GfOffHalf
  obtain ⟨J, b, up, dw, hJ, hJok, hb⟩ := arrivalSector_ok ha.le hw hes hqJ
  have hgen := hJok.gen ha.le hw hqJ.1 hqJ.2
  refine bindR_exists ⟨_, rfl⟩ fun x hx => ?_
  have hx' : Except.ok x = arrivalSector g.w g.ham.n es qJ := hx
  rw [hJ] at hx'
  injection hx' with hx'; subst hx'
  refine bindR_exists ⟨_, rfl⟩ fun y _ => bindR_exists ⟨_, rfl⟩ fun z _ => bindR_exists ?_ fun ops hops => ?_
  · simp only
    rw [hJok.states]
    obtain ⟨ops, h⟩ := build_exists ha hw hqJ.1 hqJ.2 hgen.1 hgen.2
    exact ⟨_, h⟩
  · obtain ⟨Jst, Jd, Jv, Jw⟩ := J
    obtain rfl : Jst = .spin up dw := hJok.states
    obtain rfl : Jd = up.length * dw.length := hJok.d
    obtain ⟨D, -, -, hmv⟩ := isMatvec_eq ha hw hqJ.1 hqJ.2 hgen.1 hgen.2 hops
    obtain ⟨r, hr⟩ := bindR_exists (f := fun st : List GfFn × List LancRun => DetR (.ok (es, st.1, st.2)))
      (forR_exists (body := LanczosRow g.cfg g.rep false (up.length * dw.length) (secMat D (up.length * dw.length) *ᵥ ·) (fun k c => y k c + z k c) I.eigvals
        (fun E => Real.exp (-g.beta * (E - g.egs))) op.sign) (xs := List.range I.eigvals.length) (fun st k _ => lanczosRow_exists hc _ st k) ([], [])) (fun x _ => ⟨_, rfl⟩)
    exact ⟨r, _, (hmv _).mpr rfl, hr⟩

end
end Edpyt
