import Verif.Proof.ResolventApprox
import Verif.Props.LanczosGs
import Verif.Props.LanczosMoments
import Verif.Props.Gf2Lanczos
import Verif.Props.OccupationGf
/-!
C185: the Lanczos Green functions converge geometrically in the number of steps, at a rate known in advance.
-/
namespace Edpyt
open Spec Matrix

section
variable {ι : Type} [Fintype ι] [DecidableEq ι] {A : Matrix ι ι ℝ} {phi : ι → ℝ} {delta : ℝ} {eg : List ℝ → List ℝ → ℝ} {close : ℝ → Option ℝ → Bool} {maxn ND : ℕ}

omit [DecidableEq ι] in
theorem slLoop_len {st st' : LancSt ℝ (ι → ℝ)} {egs : Option ℝ} {r : Except PyErr (LancSt ℝ (ι → ℝ))}
    (h : SlLoop (slStep (A *ᵥ ·)) (tinyB delta) eg close maxn ND st egs r) (hok : LancOk maxn st) (hinv : LancInv A phi delta st)
    (hst : st.converged = false) (hr : r = .ok st') : lancB A phi st'.n < delta ∨ min (st.n + ND) (maxn - 1) ≤ st'.n := by
  induction h with
  | done hc => rw [hst] at hc; cases hc
  | raised _ _ => cases hr
  | @one st egs st'' hf hp hn =>
    injection hr with hr; subst hr
    rcases slPass_stop ND _ _ hok hf hinv hp with ⟨-, h⟩ | ⟨-, h⟩
    · exact h.imp id (by simp only; omega)
    · right; simp only; omega
  | @again st egs st'' r hf hp hn hrec ih =>
    have h1 := slPass_inv ND _ _ hok hf hinv hp
    have he := slPass_end (step := slStep (A *ᵥ ·)) (tiny := tinyB delta) ND st hok
    rw [hp] at he
    have hk : LancOk maxn st'' := by cases he with
      | full h _ _ => exact h
      | stop h _ _ _ => exact h
    rcases slPass_stop ND _ _ hok hf hinv hp with ⟨hcv, h⟩ | ⟨hcv, h⟩
    · have hd : st'.n = st''.n := by
        rw [hr] at hrec
        split at hrec
        · cases hrec with
          | done _ => rfl
          | one h => cases h
          | again h => cases h
        · cases hrec with
          | done _ => rfl
          | one h => rw [hcv] at h; cases h
          | again h => rw [hcv] at h; cases h
      rw [hd]
      exact h.imp id (by omega)
    · by_cases hcl : close (eg (st''.a.take st''.n) ((st''.b.take st''.n).drop 1)) egs = true
      · have hd : st'.n = st''.n := by
          rw [hr] at hrec
          simp only [hcl, if_true] at hrec
          cases hrec with
          | done _ => rfl
          | one h => cases h
          | again h => cases h
        right; rw [hd]; omega
      · simp only [hcl, if_false, Bool.false_eq_true] at ih
        rcases ih hk h1 hcv hr with h2 | h2
        · exact .inl h2
        · right; omega

omit [DecidableEq ι] in
/-- A recurrence that is not stopped by a small coefficient makes at least `2 ND` steps, or `maxn - 1`: the energy test needs two blocks. -/
theorem lanczos_len (hmaxn : 2 ≤ maxn) (hND : 2 ≤ ND) (hclose : ∀ x, close x none = false) {junk a b : List ℝ} (hjunk : junk.length = maxn)
    (h : BuildSlTridiag (slStep (A *ᵥ ·)) (tinyB delta) eg close maxn ND junk 0 phi (.ok (a, b))) : lancB A phi a.length < delta ∨ min (2 * ND) (maxn - 1) ≤ a.length := by
  cases h with
  | @ok st h =>
    have hok : LancOk maxn (⟨0, junk, junk, 0, phi, false⟩ : LancSt ℝ (ι → ℝ)) := ⟨hjunk, hjunk, by simp only; omega⟩
    have hinv : LancInv A phi delta (⟨0, junk, junk, 0, phi, false⟩ : LancSt ℝ (ι → ℝ)) := ⟨by simp, by simp, by simp, fun _ => rfl⟩
    have key : lancB A phi st.n < delta ∨ min (2 * ND) (maxn - 1) ≤ st.n := by
      generalize hr : (Except.ok st : Except PyErr (LancSt ℝ (ι → ℝ))) = r at h
      cases h with
      | done hc => cases hc
      | raised _ _ => cases hr
      | @one _ _ st'' hf hp hn =>
        injection hr with hr; subst hr
        rcases slPass_stop ND _ _ hok hf hinv hp with ⟨-, h⟩ | ⟨-, h⟩
        · exact h.imp id (by simp only; omega)
        · simp only at h; omega
      | @again _ _ st'' _ hf hp hn hrec =>
        have h1 := slPass_inv ND _ _ hok hf hinv hp
        have he := slPass_end (step := slStep (A *ᵥ ·)) (tiny := tinyB delta) ND _ hok
        rw [hp] at he
        have hk : LancOk maxn st'' := by cases he with
          | full h _ _ => exact h
          | stop h _ _ _ => exact h
        rw [hclose] at hrec
        simp only [Bool.false_eq_true, if_false] at hrec
        rcases slPass_stop ND _ _ hok hf hinv hp with ⟨hcv, h⟩ | ⟨hcv, h⟩
        · rw [← hr] at hrec
          have hd : st = st'' := by
            cases hrec with
            | done _ => rfl
            | one h => rw [hcv] at h; cases h
            | again h => rw [hcv] at h; cases h
          rw [hd]
          exact h.imp id (by omega)
        · rcases slLoop_len hrec hk h1 hcv hr.symm with h2 | h2
          · exact .inl h2
          · right; simp only at h; omega
    rcases slLoop_out (by omega) h hok (by simp) with h1 | ⟨st', e, h1, h2⟩
    · cases h1
    · injection e with e; subst e
      have hl : (st.a.take st.n).length = st.n := by rw [List.length_take, h1.alen]; have := h1.lt; omega
      rw [hl]; exact key

/-- The numerical range is that of the eigenvalues. -/
theorem EigBasis.range {κ : Type} [Fintype κ] [DecidableEq κ] {u : κ → ι → ℝ} {E : κ → ℝ} (hu : EigBasis A u E) {W : ℝ} (hW : ∀ k l, |E k - E l| ≤ W) (hne : Nonempty ι) :
    ∃ lo hi, NumRange A lo hi ∧ hi - lo ≤ W ∧ 0 ≤ W := by
  have hk : Nonempty κ := Fintype.card_pos_iff.mp (by rw [hu.card]; exact Fintype.card_pos)
  obtain ⟨k0, -, h0⟩ := Finset.exists_min_image Finset.univ E Finset.univ_nonempty
  obtain ⟨k1, -, h1⟩ := Finset.exists_max_image Finset.univ E Finset.univ_nonempty
  refine ⟨E k0, E k1, fun x => ?_, (le_abs_self _).trans (hW _ _), (abs_nonneg _).trans (hW k0 k0)⟩
  rw [(hu.quad x).1, (hu.quad x).2, Finset.mul_sum, Finset.mul_sum]
  exact ⟨Finset.sum_le_sum fun k _ => mul_le_mul_of_nonneg_right (h0 k (Finset.mem_univ _)) (sq_nonneg _),
    Finset.sum_le_sum fun k _ => mul_le_mul_of_nonneg_right (h1 k (Finset.mem_univ _)) (sq_nonneg _)⟩

/-- The tridiagonal matrix is a compression of the operator. -/
theorem krylov_range {a b : List ℝ} {q : Fin a.length → ι → ℝ} {res : ι → ℝ} (hq : KrylovBasis A phi a b q res) {lo hi : ℝ} (h : NumRange A lo hi) :
    NumRange (tridiag a.length (fun k => a[k]?.getD 0) (fun k => b[k]?.getD 0)) lo hi := by
  intro y
  have h1 := h (∑ i, y i • q i)
  rwa [(krylov_quad hq y).1, (krylov_quad hq y).2] at h1

theorem signOf_cases (s : ℝ) : signOf s = 1 ∨ signOf s = -1 := by
  unfold signOf
  split
  · exact .inr rfl
  · exact .inl rfl

/-- After `m` steps the resolvent element is known up to `2 ρ^m / |η|`. -/
theorem krylov_rate {a b : List ℝ} {q : Fin a.length → ι → ℝ} {res : ι → ℝ} (hA : A.IsSymm) (hm : 0 < a.length) (hq : KrylovBasis A phi a b q res) {lo hi W : ℝ} (h : NumRange A lo hi)
    (hW : hi - lo ≤ W) (hW0 : 0 ≤ W) (Ei sign : ℝ) {z : ℂ} (hz : z.im ≠ 0) {m : ℕ} (h0 : 0 < m) (hml : m ≤ a.length) :
    ‖(((b[0]?.getD 0) ^ 2 : ℝ) : ℂ) * resolvent z (chainMat a b Ei sign) ⟨0, hm⟩ ⟨0, hm⟩ - resElem z (signOf sign • (A - Ei • (1 : Matrix ι ι ℝ))) phi phi‖ ≤
      2 * (phi ⬝ᵥ phi) * (lancRate W z.im ^ m / |z.im|) := by
  set b0 := b[0]?.getD 0 with hb0
  have hNs : (chainMat a b Ei sign).IsSymm := by rw [chainMat_eq]; exact tridiag_symm _ _ _
  obtain ⟨lo', hi', hw, hr⟩ := NumRange.shift lo hi (signOf sign) Ei (signOf_cases sign)
  have hb := resElem_quadrature (M := signOf sign • (A - Ei • (1 : Matrix ι ι ℝ))) (N := chainMat a b Ei sign) ((hA.sub (Matrix.isSymm_one.smul Ei)).smul _) hNs
    (hr _ _ h) (hr _ _ (krylov_range hq h)) (W := W) (by rw [hw]; exact hW) hW0 phi (b0 • Pi.single ⟨0, hm⟩ 1) h0 (fun k hk => by
      rw [affine_moments hA hm hq _ _ (by omega : k < 2 * a.length), ← hb0, Matrix.mulVec_smul, smul_dotProduct, dotProduct_smul, Matrix.mulVec_single_one, dotProduct_single_one,
        smul_eq_mul, smul_eq_mul]
      change _ = b0 * (b0 * (chainMat a b Ei sign ^ k) ⟨0, hm⟩ ⟨0, hm⟩)
      unfold chainMat
      ring) hz
  have hN : resElem z (chainMat a b Ei sign) (b0 • Pi.single ⟨0, hm⟩ 1) (b0 • Pi.single ⟨0, hm⟩ 1) = ((b0 ^ 2 : ℝ) : ℂ) * resolvent z (chainMat a b Ei sign) ⟨0, hm⟩ ⟨0, hm⟩ := by
    have hv : (fun i => (((b0 • Pi.single ⟨0, hm⟩ 1 : Fin a.length → ℝ) i : ℝ) : ℂ)) = (b0 : ℂ) • Pi.single ⟨0, hm⟩ (1 : ℂ) := by
      funext i
      by_cases hi : i = ⟨0, hm⟩
      · rw [hi]; simp
      · simp [hi]
    unfold resElem
    rw [hv, Matrix.mulVec_smul, smul_dotProduct, dotProduct_smul, Matrix.mulVec_single_one, single_one_dotProduct, smul_eq_mul, smul_eq_mul]
    change _ * (_ * resolvent z (chainMat a b Ei sign) ⟨0, hm⟩ ⟨0, hm⟩) = _
    push_cast
    ring
  rwa [hN] at hb

/-- **C185** (one recurrence). Both Green function kernels, built from the coefficients of a recurrence of at least `m` steps with a symmetric operator whose spectrum
lies in an interval of length `W`, agree at `e + iη` with the exact Green function of the start vector up to `2 ‖phi‖² ρ^m / |η|`, `ρ = W² / (W² + 2η²) < 1`, whatever
the frequency, the start vector and the reason why the recurrence stopped. -/
theorem C185_recurrence (junkr : ℝ) (hA : A.IsSymm) (hdelta : 0 < delta) (hmaxn : 2 ≤ maxn) (hND : 1 ≤ ND) {junk a b : List ℝ} (hjunk : junk.length = maxn)
    (h : BuildSlTridiag (slStep (A *ᵥ ·)) (tinyB delta) eg close maxn ND junk 0 phi (.ok (a, b))) (Ei ex sign : ℝ) {w : List ℝ} {U : ℕ → ℕ → ℝ} (hw : EighTri a b.tail w U)
    {W : ℝ} (hW : ∀ (E E' : ℝ) (x y : ι → ℝ), x ≠ 0 → y ≠ 0 → A *ᵥ x = E • x → A *ᵥ y = E' • y → |E - E'| ≤ W) {m : ℕ} (hm0 : 0 < m) (hm : m ≤ a.length) :
    ∃ a' b' l r, gfCoeffCf a b Ei ex sign = .ok (a', b') ∧ gfCoeffSp b w U Ei ex sign = .ok (l, r) ∧ ∀ e eta : ℝ, eta ≠ 0 → W ^ 2 / (W ^ 2 + 2 * eta ^ 2) < 1 ∧
      ‖cfEval junkr a' b' e eta - (ex : ℂ) * resElem (e + Complex.I * eta) (signOf sign • (A - Ei • (1 : Matrix ι ι ℝ))) phi phi‖
        ≤ |ex| * (2 * (phi ⬝ᵥ phi) * ((W ^ 2 / (W ^ 2 + 2 * eta ^ 2)) ^ m / |eta|)) ∧
      ‖spEval l r e eta - (ex : ℂ) * resElem (e + Complex.I * eta) (signOf sign • (A - Ei • (1 : Matrix ι ι ℝ))) phi phi‖
        ≤ |ex| * (2 * (phi ⬝ᵥ phi) * ((W ^ 2 / (W ^ 2 + 2 * eta ^ 2)) ^ m / |eta|)) := by
  obtain ⟨q, hq⟩ := lanczos_basis hA hdelta hmaxn hND hjunk h
  obtain ⟨hl, hab, hco, hbne⟩ := lanczos_coeffs hdelta hmaxn hND hjunk h
  obtain ⟨u, E, hu⟩ := EigBasis.of_symm hA
  have hne : ∀ k, u k ≠ 0 := fun k h0 => by have := hu.orth k k; rw [h0, zero_dotProduct, if_pos rfl] at this; exact zero_ne_one this
  obtain ⟨lo, hi, hr, hw', hW0⟩ := hu.range (fun k l => hW _ _ _ _ (hne k) (hne l) (hu.eig k) (hu.eig l)) (by
    by_contra hcon
    rw [not_nonempty_iff] at hcon
    have := hq.orth ⟨0, hl⟩ ⟨0, hl⟩
    rw [if_pos rfl, dotProduct, Finset.univ_eq_empty, Finset.sum_empty] at this
    exact zero_ne_one this)
  obtain ⟨a', b', h1, -⟩ := C38_continued_fraction junkr a b hab hl Ei ex sign 0 1 one_ne_zero
  obtain ⟨l, r, h2, -⟩ := C38_spectral a b w U hab hl Ei ex sign 0 1 one_ne_zero hw
  have hb0 : b[0]?.getD 0 = b[0] := by rw [List.getElem?_eq_getElem (by omega)]; rfl
  have key : ∀ e eta : ℝ, eta ≠ 0 → ‖((ex * b[0] ^ 2 : ℝ) : ℂ) * resolvent (e + Complex.I * eta) (chainMat a b Ei sign) ⟨0, hl⟩ ⟨0, hl⟩ -
      (ex : ℂ) * resElem (e + Complex.I * eta) (signOf sign • (A - Ei • (1 : Matrix ι ι ℝ))) phi phi‖ ≤ |ex| * (2 * (phi ⬝ᵥ phi) * ((W ^ 2 / (W ^ 2 + 2 * eta ^ 2)) ^ m / |eta|)) := by
    intro e eta heta
    have him : (e + Complex.I * eta : ℂ).im = eta := by simp
    have h3 := krylov_rate hA hl hq hr hw' hW0 Ei sign (z := e + Complex.I * eta) (by rw [him]; exact heta) hm0 hm
    rw [him, hb0] at h3
    rw [Complex.ofReal_mul, mul_assoc, ← mul_sub, norm_mul, Complex.norm_real, Real.norm_eq_abs]
    exact mul_le_mul_of_nonneg_left h3 (abs_nonneg _)
  refine ⟨a', b', l, r, h1, h2, fun e eta heta => ⟨lancRate_lt W heta, ?_, ?_⟩⟩
  · obtain ⟨a'', b'', h1', h5⟩ := C38_continued_fraction junkr a b hab hl Ei ex sign e eta heta
    rw [h1] at h1'; injection h1' with h1'; injection h1' with e1 e2
    subst e1; subst e2
    rw [h5]
    exact key e eta heta
  · obtain ⟨l', r', h2', h5⟩ := C38_spectral a b w U hab hl Ei ex sign e eta heta hw
    rw [h2] at h2'; injection h2' with h2'; injection h2' with e1 e2
    subst e1; subst e2
    rw [h5]
    exact key e eta heta

end

/-- A run that makes at least `m` steps. -/
theorem LancRun.Of.rate {cfg : LancCfg} (hc : cfg.Ok) {run : LancRun} (ho : run.Of cfg) {κ : Type} [Fintype κ] {H : Matrix κ κ ℝ} {lo hi W : ℝ} (h : NumRange H lo hi)
    (hW : hi - lo ≤ W) (hW0 : 0 ≤ W) {m : ℕ} (h0 : 0 < m) (hm : m ≤ run.a.length) (e eta : ℝ) (he : eta ≠ 0) : run.AccLe H e eta (2 * |eta| * lancRate W eta ^ m) := by
  obtain ⟨-, jk, hjk, ht⟩ := ho
  obtain ⟨d, mv, phi, a, b⟩ := run
  intro (A : Matrix (Fin d) (Fin d) ℝ) hA hmv hAH hm' Ei sign
  simp only at ht hm' hm ⊢
  obtain rfl : mv = (A *ᵥ ·) := hmv
  obtain ⟨q, hq⟩ := lanczos_basis hA hc.delta hc.maxn hc.ND hjk ht
  have him : (e + Complex.I * eta : ℂ).im = eta := by simp
  have h3 := krylov_rate hA hm' hq (hAH lo hi h) hW hW0 Ei sign (z := e + Complex.I * eta) (by rw [him]; exact he) h0 hm
  rw [him] at h3
  refine h3.trans (le_of_eq ?_)
  rw [← sq_abs eta]
  have : |eta| ≠ 0 := abs_ne_zero.mpr he
  field_simp

/-- Any run: it is accurate enough because it is long or because what it neglects is small. -/
theorem LancRun.Of.rate_all {cfg : LancCfg} (hc : cfg.Ok) (hND : 2 ≤ cfg.ND) (hclose : ∀ x, cfg.close x none = false) {run : LancRun} (ho : run.Of cfg) {κ : Type} [Fintype κ] {H : Matrix κ κ ℝ}
    {lo hi W : ℝ} (h : NumRange H lo hi) (hW : hi - lo ≤ W) (hW0 : 0 ≤ W) (e eta : ℝ) (he : eta ≠ 0) :
    run.AccLe H e eta (cfg.delta + 2 * |eta| * lancRate W eta ^ min (2 * cfg.ND) (cfg.maxn - 1)) := by
  have hmono : ∀ {ε ε' : ℝ}, ε ≤ ε' → run.AccLe H e eta ε → run.AccLe H e eta ε' := by
    intro ε ε' hle hacc A hA hmv hAH hm Ei sign
    refine (hacc A hA hmv hAH hm Ei sign).trans ?_
    have hpos : 0 ≤ run.phi ⬝ᵥ run.phi := by
      simp only [dotProduct]
      exact Finset.sum_nonneg fun i _ => mul_self_nonneg _
    exact div_le_div_of_nonneg_right (mul_le_mul_of_nonneg_left hle hpos) (by positivity)
  have hr := pow_nonneg (lancRate_nonneg W eta) (min (2 * cfg.ND) (cfg.maxn - 1))
  have hd := hc.delta
  obtain ⟨⟨A, hA, hmv⟩, jk, hjk, ht⟩ := id ho
  rw [hmv] at ht
  rcases lanczos_len hc.maxn hND hclose hjk ht with h1 | h1
  · refine hmono (ε := cfg.delta) (by have := mul_nonneg (mul_nonneg zero_le_two (abs_nonneg eta)) hr; linarith) ?_
    refine LancRun.ResLe.accLe hc ho (fun A' hA' q res hK => ?_) H e eta he
    obtain rfl : A = A' := by
      apply Matrix.ext_of_mulVec_single
      intro i
      exact congrFun (hmv.symm.trans hA') _
    obtain ⟨hl, hab, hco, hb⟩ := lanczos_coeffs hc.delta hc.maxn hc.ND hjk ht
    obtain ⟨q', hK'⟩ := lanczos_basis hA hc.delta hc.maxn hc.ND hjk ht
    obtain ⟨-, rfl⟩ := krylov_unique (fun i hi => by rw [(hco i hi).2]; exact hb i hi) hK hK' hl
    exact h1.le
  · refine hmono (by linarith) (ho.rate hc h hW hW0 ?_ h1 e eta he)
    have := hc.maxn
    omega

variable {g : GfLArgs} {es : Espace (ℕ × ℕ)}

theorem SpreadLe.range {n : ℕ} {H : Matrix (Finset (Fin (n + n))) (Finset (Fin (n + n))) ℝ} (hes : EigenEspace n H es) {W : ℝ} (hW : SpreadLe es W) :
    ∃ lo hi, NumRange H lo hi ∧ hi - lo ≤ W ∧ 0 ≤ W :=
  hes.basis.range (fun k l => hW.esVal hes.toCompleteEspace l k) ⟨∅⟩

theorem rate_eps {eta : ℝ} (he : eta ≠ 0) (δ x : ℝ) : (δ + 2 * |eta| * x) / eta ^ 2 = δ / eta ^ 2 + 2 * (x / |eta|) := by
  rw [← sq_abs eta]
  have : |eta| ≠ 0 := abs_ne_zero.mpr he
  field_simp

/-- **C185** (`build_gf_lanczos`). For every admissible Hamiltonian whose energies lie within `W`, every complete set of eigenpairs, every site, spin, temperature and
representation, the function returned differs from the thermal Green function at `e + iη`, for every frequency `e`, by at most `2 ρ^m / |η| + δ / η² + 2 δ² / |η|` with
`ρ = W² / (W² + 2η²)` and `m = min (2 ND) (maxn - 1)`, `ND` being the length of a block and `δ` the threshold. Nothing is assumed about the vectors that the Lanczos runs
neglect, nor about the test on the energy, except that it fails the first time. With `separate` the two parts obey the same bound. -/
theorem C185_gf_lanczos (jk : ℝ) (ha : g.ham.Valid) (hw : g.ham.n ≤ g.w) (hc : g.cfg.Ok) (hND : 2 ≤ g.cfg.ND) (hclose : ∀ x, g.cfg.close x none = false) {pos : ℕ} (hpos : pos < g.ham.n)
    (hes : EigenEspace g.ham.n g.ham.ham es) {W : ℝ} (hW : SpreadLe es W) (separate : Bool) {out : GfLOut} (hr : BuildGfLanczos g pos separate es (.ok out)) (e eta : ℝ) (he : eta ≠ 0) :
    (separate = false → ∀ gr, IsGreen g.beta g.ham.ham (ann ℝ (orb g.ispin (⟨pos, hpos⟩ : Fin g.ham.n))) (cre ℝ (orb g.ispin (⟨pos, hpos⟩ : Fin g.ham.n))) (e + Complex.I * eta) gr →
      ‖out.gfe.call jk e eta - gr‖ ≤
        2 * ((W ^ 2 / (W ^ 2 + 2 * eta ^ 2)) ^ min (2 * g.cfg.ND) (g.cfg.maxn - 1) / |eta|) + g.cfg.delta / eta ^ 2 + 2 * (g.cfg.delta ^ 2 / |eta|)) ∧
    (separate = true → ∀ ge gh, IsGreenParts g.beta g.ham.ham (ann ℝ (orb g.ispin (⟨pos, hpos⟩ : Fin g.ham.n))) (cre ℝ (orb g.ispin (⟨pos, hpos⟩ : Fin g.ham.n))) (e + Complex.I * eta) ge gh →
      ‖out.gfe.call jk e eta - ge‖ ≤
        2 * ((W ^ 2 / (W ^ 2 + 2 * eta ^ 2)) ^ min (2 * g.cfg.ND) (g.cfg.maxn - 1) / |eta|) + g.cfg.delta / eta ^ 2 + g.cfg.delta ^ 2 / |eta| ∧
      ‖out.gfh.call jk e eta - gh‖ ≤
        2 * ((W ^ 2 / (W ^ 2 + 2 * eta ^ 2)) ^ min (2 * g.cfg.ND) (g.cfg.maxn - 1) / |eta|) + g.cfg.delta / eta ^ 2 + g.cfg.delta ^ 2 / |eta|) := by
  obtain ⟨lo, hi, hn, hw', hW0⟩ := hW.range hes
  obtain ⟨-, h2⟩ := gf_lanczos_acc (es := es) jk ha hw hc hpos hes separate
  obtain ⟨out', e1, -, hgood, -, hb⟩ := h2 _ hr
  injection e1 with e1; subst e1
  have hp := pow_nonneg (lancRate_nonneg W eta) (min (2 * g.cfg.ND) (g.cfg.maxn - 1))
  have hb := hb e eta (g.cfg.delta + 2 * |eta| * lancRate W eta ^ min (2 * g.cfg.ND) (g.cfg.maxn - 1)) he
    (add_nonneg hc.delta.le (mul_nonneg (mul_nonneg zero_le_two (abs_nonneg _)) hp)) (fun run hrun => (hgood run hrun).2.rate_all hc hND hclose hn hw' hW0 e eta he)
  rw [rate_eps he] at hb
  unfold lancRate at hb
  constructor
  · intro hs gr hg
    subst hs
    obtain ⟨ge, gh, hp, rfl⟩ := IsGreen.parts hg
    have := hb ge gh hp
    simp only [Bool.false_eq_true, if_false] at this
    linarith
  · intro hs ge gh hp
    subst hs
    have := hb ge gh hp
    simp only [if_true] at this
    exact ⟨by linarith [this.1], by linarith [this.2.1]⟩

/-- **C185** (steps actually made). If every Lanczos run of the call made at least `m` steps, the error is at most `2 ρ^m / |η| + 2 δ² / |η|`. -/
theorem C185_steps (jk : ℝ) (ha : g.ham.Valid) (hw : g.ham.n ≤ g.w) (hc : g.cfg.Ok) {pos : ℕ} (hpos : pos < g.ham.n) (hes : EigenEspace g.ham.n g.ham.ham es) {W : ℝ} (hW : SpreadLe es W)
    {out : GfLOut} (hr : BuildGfLanczos g pos false es (.ok out)) {m : ℕ} (hm0 : 0 < m) (hm : ∀ run ∈ out.log, m ≤ run.a.length) (e eta : ℝ) (he : eta ≠ 0) {gr : ℂ}
    (hg : IsGreen g.beta g.ham.ham (ann ℝ (orb g.ispin (⟨pos, hpos⟩ : Fin g.ham.n))) (cre ℝ (orb g.ispin (⟨pos, hpos⟩ : Fin g.ham.n))) (e + Complex.I * eta) gr) :
    ‖out.gfe.call jk e eta - gr‖ ≤ 2 * ((W ^ 2 / (W ^ 2 + 2 * eta ^ 2)) ^ m / |eta|) + 2 * (g.cfg.delta ^ 2 / |eta|) := by
  obtain ⟨lo, hi, hn, hw', hW0⟩ := hW.range hes
  obtain ⟨-, h2⟩ := gf_lanczos_acc (es := es) jk ha hw hc hpos hes false
  obtain ⟨out', e1, -, hgood, -, hb⟩ := h2 _ hr
  injection e1 with e1; subst e1
  have hp := pow_nonneg (lancRate_nonneg W eta) m
  have hb := hb e eta (2 * |eta| * lancRate W eta ^ m) he (mul_nonneg (mul_nonneg zero_le_two (abs_nonneg _)) hp)
    (fun run hrun => (hgood run hrun).2.rate hc hn hw' hW0 hm0 (hm run hrun) e eta he)
  obtain ⟨ge, gh, hp, rfl⟩ := IsGreen.parts hg
  have h3 := hb ge gh hp
  have h4 := rate_eps he 0 (lancRate W eta ^ m)
  rw [zero_add, zero_div, zero_add] at h4
  rw [h4] at h3
  simpa only [Bool.false_eq_true, if_false, lancRate] using h3

/-- **C185** (`build_gf2_lanczos`). Unless it raises, the matrix returned is the thermal Green function of every pair of sites up to
`4 ρ^m / |η| + 2 δ / η² + 3 δ² / |η|`. -/
theorem C185_gf2_lanczos (jk : ℝ) (ha : g.ham.Valid) (hw : g.ham.n ≤ g.w) (hc : g.cfg.Ok) (hND : 2 ≤ g.cfg.ND) (hclose : ∀ x, g.cfg.close x none = false)
    (hes : EigenEspace g.ham.n g.ham.ham es) {W : ℝ} (hW : SpreadLe es W) {st : Gf2LSt} (hr : BuildGf2Lanczos g false es (.ok st)) (e eta : ℝ) (he : eta ≠ 0) (empty : ℕ → ℕ → ℂ) :
    ∃ G, gf2Evaluate empty g.ham.n (gArrOf jk st.gfe) e eta = .ok G ∧ ∀ (i j : Fin g.ham.n) (gr : ℂ),
      IsGreen g.beta g.ham.ham (ann ℝ (orb g.ispin i)) (cre ℝ (orb g.ispin j)) (e + Complex.I * eta) gr →
      ‖G i j - gr‖ ≤ 4 * ((W ^ 2 / (W ^ 2 + 2 * eta ^ 2)) ^ min (2 * g.cfg.ND) (g.cfg.maxn - 1) / |eta|) + 2 * (g.cfg.delta / eta ^ 2) + 3 * (g.cfg.delta ^ 2 / |eta|) := by
  obtain ⟨lo, hi, hn, hw', hW0⟩ := hW.range hes
  obtain ⟨-, h2⟩ := gf2_lanczos_acc (g := g) jk ha hw hc hes false
  rcases h2 _ hr with ⟨h, -⟩ | ⟨st', e1, -, hgood, hb⟩
  · cases h
  injection e1 with e1; subst e1
  have hp := pow_nonneg (lancRate_nonneg W eta) (min (2 * g.cfg.ND) (g.cfg.maxn - 1))
  obtain ⟨G, h3, h4⟩ := (hb e eta (g.cfg.delta + 2 * |eta| * lancRate W eta ^ min (2 * g.cfg.ND) (g.cfg.maxn - 1)) he
    (add_nonneg hc.delta.le (mul_nonneg (mul_nonneg zero_le_two (abs_nonneg _)) hp)) (fun run hrun => (hgood run hrun).2.rate_all hc hND hclose hn hw' hW0 e eta he) empty).1 rfl
  refine ⟨G, h3, fun i j gr hg => ?_⟩
  have := h4 i j gr hg
  rw [mul_div_assoc, rate_eps he] at this
  unfold lancRate at this
  linarith

/-- Non-vacuity: the two-site Hubbard model with the default parameters; its energies have a finite spread, and a call returns. -/
example : ∃ es out W, EigenEspace 2 exampleArgs.ham es ∧ SpreadLe es W ∧
    BuildGfLanczos ⟨⟨500, 10, 1 / 10 ^ 13, fun _ _ => 0, fun _ y => y.isSome⟩, .cf, 32, 0, exampleArgs, 10, 0, false⟩ 1 false es (.ok out) := by
  obtain ⟨es, hes⟩ := exampleArgs_eigenEspace
  obtain ⟨⟨r, hr⟩, h2⟩ := C98_gf_lanczos (g := ⟨⟨500, 10, 1 / 10 ^ 13, fun _ _ => 0, fun _ y => y.isSome⟩, .cf, 32, 0, exampleArgs, 10, 0, false⟩) (pos := 1) (es := es) 0
    exampleArgs_valid (by decide) ⟨by norm_num, by norm_num, by norm_num⟩ (by decide) hes false
  obtain ⟨out, rfl, -⟩ := h2 r hr
  obtain ⟨W, hW⟩ : ∃ W, SpreadLe es W := by
    set S : Finset ℝ := (es.flatMap fun p => p.2.eigvals).toFinset with hS
    refine ⟨∑ E ∈ S, ∑ E' ∈ S, |E - E'|, fun p hp p' hp' E hE E' hE' => ?_⟩
    have m1 : E ∈ S := by rw [hS, List.mem_toFinset, List.mem_flatMap]; exact ⟨p, hp, hE⟩
    have m2 : E' ∈ S := by rw [hS, List.mem_toFinset, List.mem_flatMap]; exact ⟨p', hp', hE'⟩
    exact (Finset.single_le_sum (f := fun E' => |E - E'|) (fun _ _ => abs_nonneg _) m2).trans
      (Finset.single_le_sum (f := fun E => ∑ E' ∈ S, |E - E'|) (fun _ _ => Finset.sum_nonneg fun _ _ => abs_nonneg _) m1)
  exact ⟨es, out, W, hes, hW, hr⟩

end Edpyt
