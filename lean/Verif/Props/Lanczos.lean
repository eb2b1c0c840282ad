import Verif.Proof.LanczosGf
import Verif.Props.ContFrac
import Verif.Spec.Krylov
/-!
C39 (termination and buffer safety of the Lanczos driver) and C40 (exactness).
-/
namespace Edpyt
open Matrix Spec

section control
variable {K V : Type} (step : V → V → K × K × V × V) (tiny : K → Bool) (eg : List K → List K → K) (close : K → Option K → Bool)
  {maxn ND : ℕ}

/-- **C39** For any step function (any matvec and any floating point behaviour, NaN included), any tests, `maxn ≥ 2` and
`ND ≥ 1`, the driver has exactly one outcome: it terminates, either with two coefficient arrays of equal length between
`1` and `maxn - 1`, or with `ZeroNormInitialVector`; in particular no index error. -/
theorem C39_terminates (hmaxn : 2 ≤ maxn) (hND : 1 ≤ ND) (junk : List K) (hjunk : junk.length = maxn) (zero phi0 : V) :
    ∃ r, BuildSlTridiag step tiny eg close maxn ND junk zero phi0 r ∧
      (∀ r', BuildSlTridiag step tiny eg close maxn ND junk zero phi0 r' → r' = r) ∧
      (r = .error .zeroNorm ∨ ∃ a b, r = .ok (a, b) ∧ a.length = b.length ∧ 1 ≤ a.length ∧ a.length ≤ maxn - 1) := by
  have hok : LancOk maxn (⟨0, junk, junk, zero, phi0, false⟩ : LancSt K V) := ⟨hjunk, hjunk, by simp only; omega⟩
  obtain ⟨r, hr⟩ := slLoop_total (step := step) (tiny := tiny) (eg := eg) (close := close) hND _ _ none rfl hok
  have hout := slLoop_out hND hr hok (by simp)
  rcases hout with rfl | ⟨st, rfl, h1, h2⟩
  · refine ⟨_, .error hr, ?_, .inl rfl⟩
    intro r' h'
    cases h' with
    | ok h => cases slLoop_det hr h
    | error h => cases slLoop_det hr h; rfl
  · refine ⟨_, .ok hr, ?_, .inr ⟨_, _, rfl, ?_, ?_, ?_⟩⟩
    · intro r' h'
      cases h' with
      | ok h => cases slLoop_det hr h; rfl
      | error h => cases slLoop_det hr h
    all_goals
      have := h1.lt
      rw [List.length_take, h1.alen]
    · rw [List.length_take, h1.blen]
    · omega
    · omega

/-- **C39** (number of steps): at most `maxn` calls of the step, counted by any counter carried in the vectors. -/
theorem C39_steps (hmaxn : 2 ≤ maxn) (junk : List K) (hjunk : junk.length = maxn) (zero phi0 : V) {cnt : V → ℕ}
    (hcnt : ∀ v l, cnt (step v l).2.2.2 = cnt v + 1) {st : LancSt K V}
    (h : SlLoop step tiny eg close maxn ND ⟨0, junk, junk, zero, phi0, false⟩ none (.ok st)) : cnt st.v ≤ cnt phi0 + maxn :=
  slLoop_count hcnt h ⟨hjunk, hjunk, by simp only; omega⟩ (cnt phi0) (by simp only; omega) (by simp only; omega) rfl

/-- Non-vacuity: `maxn = 500`, `ND = 10` are the defaults. -/
example : 2 ≤ 500 ∧ 1 ≤ 10 ∧ (List.replicate 500 (0 : ℝ)).length = 500 := ⟨by norm_num, by norm_num, List.length_replicate⟩

/-- `maxn = 1` is outside the claim: the first step already satisfies `n >= maxn-1` with `n = 0`. -/
theorem C39_maxn_one_raises (hND : 1 ≤ ND) (x : K) (zero phi0 : V) :
    BuildSlTridiag step tiny eg close 1 ND [x] zero phi0 (.error .zeroNorm) := by
  obtain ⟨k, rfl⟩ : ∃ k, ND = k + 1 := ⟨ND - 1, by omega⟩
  refine .error (.raised rfl ?_)
  simp [slPass, setItem, pyIndex, bind, Except.bind]

/-- **C39** A start vector that passes the norm test never raises. -/
theorem C39_nonzero_start (hmaxn : 2 ≤ maxn) (hND : 1 ≤ ND) (junk : List K) (hjunk : junk.length = maxn) (zero phi0 : V)
    (h0 : tiny (step phi0 zero).2.1 = false) :
    ∃ a b, BuildSlTridiag step tiny eg close maxn ND junk zero phi0 (.ok (a, b)) := by
  obtain ⟨r, hr, -, h | ⟨a, b, h, -⟩⟩ := C39_terminates step tiny eg close hmaxn hND junk hjunk zero phi0
  · subst h
    cases hr with
    | error h => exact absurd rfl (slLoop_noerr hmaxn hND h ⟨hjunk, hjunk, by simp only; omega⟩ (fun _ => h0) _)
  · subst h; exact ⟨a, b, hr⟩

end control

variable {ι : Type} [Fintype ι] {A : Matrix ι ι ℝ} {phi : ι → ℝ} {delta : ℝ} {eg : List ℝ → List ℝ → ℝ} {close : ℝ → Option ℝ → Bool}
  {maxn ND : ℕ}

/-- The test `abs(b) < delta`. -/
noncomputable def tinyB (delta : ℝ) (b : ℝ) : Bool := decide (|b| < delta)

/-- Loop invariant in exact arithmetic. -/
structure LancInv (A : Matrix ι ι ℝ) (phi : ι → ℝ) (delta : ℝ) (st : LancSt ℝ (ι → ℝ)) : Prop where
  a : ∀ i < st.n, st.a[i]? = some (lancA A phi i)
  b : ∀ i < st.n, st.b[i]? = some (lancB A phi i)
  big : ∀ i < st.n, delta ≤ lancB A phi i
  cur : st.converged = false → (st.v, st.l) = lancIter A phi st.n

theorem slPass_inv : ∀ (k : ℕ) (st st' : LancSt ℝ (ι → ℝ)), LancOk maxn st → st.converged = false → LancInv A phi delta st →
    slPass (slStep (A *ᵥ ·)) (tinyB delta) maxn k st = .ok st' → LancInv A phi delta st' := by
  intro k
  induction k with
  | zero => intro st st' _ _ h h'; simp only [slPass] at h'; injection h' with h'; subst h'; exact h
  | succ k ih =>
    intro st st' hok hconv hinv h
    have hlt := hok.lt
    have hcur := hinv.cur hconv
    have hv : st.v = (lancIter A phi st.n).1 := congrArg Prod.fst hcur
    have hl : st.l = (lancIter A phi st.n).2 := congrArg Prod.snd hcur
    simp only [slPass] at h
    rw [setItem_natCast _ _ _ (by rw [hok.alen]; omega), setItem_natCast _ _ _ (by rw [hok.blen]; omega)] at h
    simp only [bind, Except.bind, pure, Except.pure] at h
    have ea : (slStep (A *ᵥ ·) st.v st.l).1 = lancA A phi st.n := by rw [hv, hl]; rfl
    have eb : (slStep (A *ᵥ ·) st.v st.l).2.1 = lancB A phi st.n := by rw [hv, hl]; rfl
    have hset : ∀ (l : List ℝ) (x : ℝ) (i : ℕ), i < st.n → (l.set st.n x)[i]? = l[i]? := fun l x i hi =>
      List.getElem?_set_ne (by omega)
    by_cases hc : (tinyB delta (slStep (A *ᵥ ·) st.v st.l).2.1 || decide ((st.n : ℤ) ≥ (maxn : ℤ) - 1)) = true
    · rw [if_pos hc] at h
      by_cases h0 : st.n = 0
      · rw [if_pos h0] at h; cases h
      · rw [if_neg h0] at h
        injection h with h; subst h
        refine ⟨?_, ?_, hinv.big, by simp⟩
        · intro i hi; simp only at hi ⊢; rw [hset _ _ _ hi]; exact hinv.a i hi
        · intro i hi; simp only at hi ⊢; rw [hset _ _ _ hi]; exact hinv.b i hi
    · rw [if_neg hc] at h
      simp only [Bool.or_eq_true, decide_eq_true_eq, not_or, tinyB, eb] at hc
      refine ih _ _ ?_ ?_ ?_ h
      · exact ⟨by simp [hok.alen], by simp [hok.blen], by simp only; omega⟩
      · exact hconv
      refine ⟨?_, ?_, ?_, ?_⟩
      · intro i hi
        simp only at hi ⊢
        rcases Nat.lt_succ_iff_lt_or_eq.mp hi with h1 | h1
        · rw [hset _ _ _ h1]; exact hinv.a i h1
        · subst h1; rw [List.getElem?_set_self (by rw [hok.alen]; omega), ea]
      · intro i hi
        simp only at hi ⊢
        rcases Nat.lt_succ_iff_lt_or_eq.mp hi with h1 | h1
        · rw [hset _ _ _ h1]; exact hinv.b i h1
        · subst h1; rw [List.getElem?_set_self (by rw [hok.blen]; omega), eb]
      · intro i hi
        simp only at hi
        rcases Nat.lt_succ_iff_lt_or_eq.mp hi with h1 | h1
        · exact hinv.big i h1
        · subst h1
          have := hc.1
          rw [abs_of_nonneg (lancB_nonneg A phi _)] at this
          exact not_lt.mp this
      · intro _
        simp only
        rw [hv, hl]; rfl

theorem slLoop_inv (hND : 1 ≤ ND) {st st' : LancSt ℝ (ι → ℝ)} {egs : Option ℝ} {r : Except PyErr (LancSt ℝ (ι → ℝ))}
    (h : SlLoop (slStep (A *ᵥ ·)) (tinyB delta) eg close maxn ND st egs r) (hok : LancOk maxn st) (hinv : LancInv A phi delta st)
    (hr : r = .ok st') : LancInv A phi delta st' := by
  induction h with
  | done _ => injection hr with hr; subst hr; exact hinv
  | raised _ _ => cases hr
  | @one st egs st'' hf hp hn =>
    injection hr with hr; subst hr
    have := slPass_inv ND _ _ hok hf hinv hp
    exact ⟨this.a, this.b, this.big, by simp⟩
  | @again st egs st'' r hf hp hn _ ih =>
    have h1 := slPass_inv ND _ _ hok hf hinv hp
    have he := slPass_end (step := slStep (A *ᵥ ·)) (tiny := tinyB delta) ND st hok
    rw [hp] at he
    have hk : LancOk maxn st'' := by cases he with
      | full h _ _ => exact h
      | stop h _ _ _ => exact h
    apply ih
    · split_ifs
      · exact ⟨hk.alen, hk.blen, hk.lt⟩
      · exact hk
    · split_ifs
      · exact ⟨h1.a, h1.b, h1.big, by simp⟩
      · exact h1
    · exact hr

/-- Coefficients returned by the driver in exact arithmetic. -/
theorem lanczos_coeffs (hdelta : 0 < delta) (hmaxn : 2 ≤ maxn) (hND : 1 ≤ ND) {junk a b : List ℝ} (hjunk : junk.length = maxn)
    (h : BuildSlTridiag (slStep (A *ᵥ ·)) (tinyB delta) eg close maxn ND junk 0 phi (.ok (a, b))) :
    1 ≤ a.length ∧ a.length = b.length ∧ (∀ i < a.length, a[i]?.getD 0 = lancA A phi i ∧ b[i]?.getD 0 = lancB A phi i) ∧
      ∀ i < a.length, lancB A phi i ≠ 0 := by
  cases h with
  | @ok st h =>
    have hok : LancOk maxn (⟨0, junk, junk, 0, phi, false⟩ : LancSt ℝ (ι → ℝ)) := ⟨hjunk, hjunk, by simp only; omega⟩
    have hinv := slLoop_inv (A := A) (phi := phi) (delta := delta) hND h hok ⟨by simp, by simp, by simp, fun _ => rfl⟩ rfl
    rcases slLoop_out hND h hok (by simp) with h1 | ⟨st', e, h1, h2⟩
    · cases h1
    · injection e with e; subst e
      have hl : (st.a.take st.n).length = st.n := by rw [List.length_take, h1.alen]; have := h1.lt; omega
      have hl' : (st.b.take st.n).length = st.n := by rw [List.length_take, h1.blen]; have := h1.lt; omega
      rw [hl, hl']
      refine ⟨h2, rfl, fun i hi => ?_, fun i hi => ?_⟩
      · rw [List.getElem?_take_of_lt hi, List.getElem?_take_of_lt hi, hinv.a i hi, hinv.b i hi]; exact ⟨rfl, rfl⟩
      · have := hinv.big i hi; exact ne_of_gt (lt_of_lt_of_le hdelta this)

theorem lanczos_vectors (hA : A.IsSymm) (hdelta : 0 < delta) (hmaxn : 2 ≤ maxn) (hND : 1 ≤ ND) {junk a b : List ℝ} (hjunk : junk.length = maxn)
    (h : BuildSlTridiag (slStep (A *ᵥ ·)) (tinyB delta) eg close maxn ND junk 0 phi (.ok (a, b))) :
    KrylovBasis A phi a b (fun i => lancQ A phi i) (lancIter A phi a.length).1 := by
  obtain ⟨hl, hab, hco, hb⟩ := lanczos_coeffs hdelta hmaxn hND hjunk h
  have hT : tridiag a.length (fun k => a[k]?.getD 0) (fun k => b[k]?.getD 0) = tridiag a.length (lancA A phi) (lancB A phi) := by
    ext i j
    simp only [tridiag, Matrix.of_apply]
    rw [(hco i i.2).1, (hco i i.2).2, (hco j j.2).2]
  have horth : ∀ i j : Fin a.length, lancQ A phi i ⬝ᵥ lancQ A phi j = if i = j then 1 else 0 := by
    intro i j
    rw [lanc_orth phi hA _ hb i i.2 j j.2]
    simp [Fin.ext_iff]
  have hrow : ∀ i : Fin a.length, A *ᵥ lancQ A phi i = ∑ j : Fin a.length, tridiag a.length (lancA A phi) (lancB A phi) i j • lancQ A phi j +
        if (i : ℕ) + 1 = a.length then (lancIter A phi a.length).1 else 0 := by
    intro i
    funext s
    rw [lanc_row]
    simp only [Pi.add_apply, Finset.sum_apply, Pi.smul_apply, smul_eq_mul]
    congr 1
    split_ifs <;> rfl
  have hres : ∀ i : Fin a.length, lancQ A phi i ⬝ᵥ (lancIter A phi a.length).1 = 0 := by
    intro i
    rw [lanc_v, dotProduct_smul, smul_eq_mul]
    by_cases h0 : lancB A phi a.length = 0
    · rw [h0, zero_mul]
    · have hb' : ∀ k < a.length + 1, lancB A phi k ≠ 0 := fun k hk => by
        rcases Nat.lt_succ_iff_lt_or_eq.mp hk with h1 | h1
        · exact hb k h1
        · rw [h1]; exact h0
      have hne : ¬ (i : ℕ) = a.length := by have := i.2; omega
      rw [lanc_orth phi hA _ hb' i (by omega) a.length (by omega), if_neg hne, mul_zero]
  refine ⟨horth, ?_, ?_, ?_, hres⟩
  · intro i hi
    rw [hi, (hco 0 (by omega)).2]
    exact lanc_v A phi 0
  · intro i j
    rw [hrow j, dotProduct_add]
    have h2 : lancQ A phi i ⬝ᵥ (if (j : ℕ) + 1 = a.length then (lancIter A phi a.length).1 else 0) = 0 := by
      split_ifs
      · exact hres i
      · exact dotProduct_zero _
    rw [h2, add_zero, dotProduct_sum]
    simp only [dotProduct_smul, horth, smul_eq_mul, mul_ite, mul_one, mul_zero, Finset.sum_ite_eq, Finset.mem_univ, if_true]
    rw [hT]
    exact (tridiag_symm _ _ _).apply _ _
  · rw [hT]; exact hrow

theorem lanczos_basis (hA : A.IsSymm) (hdelta : 0 < delta) (hmaxn : 2 ≤ maxn) (hND : 1 ≤ ND) {junk a b : List ℝ} (hjunk : junk.length = maxn)
    (h : BuildSlTridiag (slStep (A *ᵥ ·)) (tinyB delta) eg close maxn ND junk 0 phi (.ok (a, b))) :
    ∃ q : Fin a.length → ι → ℝ, KrylovBasis A phi a b q (lancIter A phi a.length).1 :=
  ⟨_, lanczos_vectors hA hdelta hmaxn hND hjunk h⟩

/-- **C40** (basis). In exact arithmetic, for a symmetric matrix, the coefficients returned by `build_sl_tridiag` are the
matrix elements of `A` in an orthonormal family `q` that starts with the normalised `phi`; all of `A` between these
vectors is the tridiagonal matrix, and only the last vector is mapped outside their span, by a remainder orthogonal to
the family. -/
theorem C40_basis (hA : A.IsSymm) (hdelta : 0 < delta) (hmaxn : 2 ≤ maxn) (hND : 1 ≤ ND) {junk a b : List ℝ} (hjunk : junk.length = maxn)
    (h : BuildSlTridiag (slStep (A *ᵥ ·)) (tinyB delta) eg close maxn ND junk 0 phi (.ok (a, b))) :
    ∃ (q : Fin a.length → ι → ℝ) (res : ι → ℝ), KrylovBasis A phi a b q res := by
  obtain ⟨q, h⟩ := lanczos_basis hA hdelta hmaxn hND hjunk h
  exact ⟨q, _, h⟩

variable [DecidableEq ι]

theorem resolvent_affine {H : Matrix ι ι ℝ} (hH : H.IsSymm) {z : ℂ} {s E : ℝ} (hs : s ^ 2 = 1) (hz : ((s : ℂ) * z + (E : ℂ)).im ≠ 0) :
    Spec.resolvent z (s • (H - E • (1 : Matrix ι ι ℝ))) = (s : ℂ) • Spec.resolvent ((s : ℂ) * z + (E : ℂ)) H := by
  have hs' : (s : ℂ) * (s : ℂ) = 1 := by rw [← Complex.ofReal_mul, ← pow_two, hs]; simp
  have hM : z • (1 : Matrix ι ι ℂ) - (s • (H - E • (1 : Matrix ι ι ℝ))).map Complex.ofReal
      = (s : ℂ) • ((((s : ℂ) * z + (E : ℂ)) • (1 : Matrix ι ι ℂ)) - H.map Complex.ofReal) := by
    ext i j
    simp only [Matrix.sub_apply, Matrix.smul_apply, Matrix.map_apply, smul_eq_mul, Matrix.one_apply]
    by_cases h : i = j
    · simp only [h, if_true, mul_one]
      push_cast
      linear_combination (-z) * hs'
    · simp only [h, if_false, mul_zero]
      push_cast
      ring
  unfold Spec.resolvent
  rw [hM]
  apply Matrix.inv_eq_right_inv
  rw [Matrix.smul_mul, Matrix.mul_smul, Matrix.mul_nonsing_inv _ (isUnit_shifted hH hz), smul_smul, hs', one_smul]

/-- **C40** (Green function). If the recurrence ended because the next vector vanishes, the continued fraction of the
returned coefficients is exactly `exponent * ⟨phi|(z ∓ (A - Ei))⁻¹|phi⟩`. In general the error is at most
`exponent * ⟨phi|phi⟩ * (norm of the next vector) / eta²`. -/
theorem C40_resolvent (junkr : ℝ) (hA : A.IsSymm) (hdelta : 0 < delta) (hmaxn : 2 ≤ maxn) (hND : 1 ≤ ND) {junk a b : List ℝ}
    (hjunk : junk.length = maxn)
    (h : BuildSlTridiag (slStep (A *ᵥ ·)) (tinyB delta) eg close maxn ND junk 0 phi (.ok (a, b))) (Ei ex sign : ℝ) :
    ∃ q res a' b', KrylovBasis A phi a b q res ∧ gfCoeffCf a b Ei ex sign = .ok (a', b') ∧ ∀ e eta : ℝ, eta ≠ 0 →
      (res = 0 → cfEval junkr a' b' e eta =
        (ex : ℂ) * resElem (e + Complex.I * eta) (signOf sign • (A - Ei • (1 : Matrix ι ι ℝ))) phi phi) ∧
      ‖cfEval junkr a' b' e eta - (ex : ℂ) * resElem (e + Complex.I * eta) (signOf sign • (A - Ei • (1 : Matrix ι ι ℝ))) phi phi‖
        ≤ |ex| * (phi ⬝ᵥ phi) * Real.sqrt (res ⬝ᵥ res) / eta ^ 2 := by
  obtain ⟨q, hq⟩ := lanczos_basis hA hdelta hmaxn hND hjunk h
  obtain ⟨hl, hab, hco, hb⟩ := lanczos_coeffs hdelta hmaxn hND hjunk h
  have hm : 0 < a.length := by omega
  obtain ⟨a', b', h1, -⟩ := C38_continued_fraction junkr a b hab hm Ei ex sign 0 1 one_ne_zero
  refine ⟨q, _, a', b', hq, h1, fun e eta heta => ?_⟩
  obtain ⟨a'', b'', h1', h2⟩ := C38_continued_fraction junkr a b hab hm Ei ex sign e eta heta
  rw [h1] at h1'; injection h1' with h1'; injection h1' with e1 e2
  subst e1; subst e2
  set s := signOf sign with hs
  have hs2 : s ^ 2 = 1 := signOf_sq sign
  have hs0 : s ≠ 0 := by intro h0; rw [h0] at hs2; norm_num at hs2
  set z : ℂ := e + Complex.I * eta with hz
  set z' : ℂ := (s : ℂ) * z + (Ei : ℂ) with hz'
  have him : z'.im = s * eta := by simp [hz', hz]
  have hz'0 : z'.im ≠ 0 := by rw [him]; exact mul_ne_zero hs0 heta
  have him2 : z'.im ^ 2 = eta ^ 2 := by rw [him, mul_pow, hs2, one_mul]
  have hT : tridiag a.length (fun k => a[k]?.getD 0) (fun k => b[k]?.getD 0) = tridiag a.length (lancA A phi) (lancB A phi) := by
    ext i j
    simp only [tridiag, Matrix.of_apply]
    rw [(hco i i.2).1, (hco i i.2).2, (hco j j.2).2]
  have hb0 : b[0] = lancB A phi 0 := by
    have := (hco 0 hm).2
    rwa [List.getElem?_eq_getElem (by omega)] at this
  have hcf : cfEval junkr a' b' e eta = (ex : ℂ) * (s : ℂ) * (((lancB A phi 0 ^ 2 : ℝ) : ℂ) *
      Spec.resolvent z' (tridiag a.length (lancA A phi) (lancB A phi)) ⟨0, hm⟩ ⟨0, hm⟩) := by
    rw [h2, hb0]
    unfold chainMat
    rw [hT, ← hs, resolvent_affine (tridiag_symm _ _ _) hs2 hz'0, Matrix.smul_apply, smul_eq_mul]
    push_cast
    ring
  have hre : (ex : ℂ) * resElem z (s • (A - Ei • (1 : Matrix ι ι ℝ))) phi phi = (ex : ℂ) * (s : ℂ) * resElem z' A phi phi := by
    unfold resElem
    rw [resolvent_affine hA hs2 hz'0, Matrix.smul_mulVec, dotProduct_smul, smul_eq_mul]
    ring
  have hres := lanc_resolvent hA hz'0 phi hm hb
  simp only at hres
  set x := cfVec z' (lancA A phi) (fun k => lancB A phi k ^ 2) (lancB A phi) a.length with hx
  have hdiff : cfEval junkr a' b' e eta - (ex : ℂ) * resElem z (s • (A - Ei • (1 : Matrix ι ι ℝ))) phi phi
      = -((ex : ℂ) * (s : ℂ) * ((lancB A phi 0 : ℂ) * x (a.length - 1) * resElem z' A phi (lancIter A phi a.length).1)) := by
    rw [hcf, hre, hres]; ring
  have hxn : |eta| * ‖x (a.length - 1)‖ ≤ 1 := by
    have hxs : ∀ i : Fin a.length, z' * x i - ∑ j : Fin a.length, ((tridiag a.length (lancA A phi) (lancB A phi) i j : ℝ) : ℂ) * x j
        = if (i : ℕ) = 0 then 1 else 0 := fun i => cfVec_solves hz'0 (fun _ _ => rfl) i
    have hbd := resolvent_bound (tridiag_symm _ _ _) hz'0 (x := fun i : Fin a.length => x i) hxs
    have hrhs : ∑ i : Fin a.length, Complex.normSq (if (i : ℕ) = 0 then 1 else 0) = 1 := by
      rw [Finset.sum_eq_single (⟨0, hm⟩ : Fin a.length)]
      · simp
      · intro i _ hi; rw [if_neg (fun hc => hi (Fin.ext hc))]; simp
      · simp
    rw [hrhs, him2] at hbd
    have hle : Complex.normSq (x (a.length - 1)) ≤ ∑ i : Fin a.length, Complex.normSq (x i) :=
      Finset.single_le_sum (f := fun i : Fin a.length => Complex.normSq (x i)) (fun i _ => Complex.normSq_nonneg _)
        (Finset.mem_univ (⟨a.length - 1, by omega⟩ : Fin a.length))
    have h3 : (|eta| * ‖x (a.length - 1)‖) ^ 2 ≤ 1 := by
      rw [mul_pow, sq_abs, ← Complex.normSq_eq_norm_sq]
      exact le_trans (mul_le_mul_of_nonneg_left hle (sq_nonneg _)) hbd
    nlinarith [mul_nonneg (abs_nonneg eta) (norm_nonneg (x (a.length - 1)))]
  have hbn := lancB_nonneg A phi a.length
  have hb0n := lancB_nonneg A phi 0
  have hrn : |eta| * ‖resElem z' A phi (lancIter A phi a.length).1‖ ≤ lancB A phi 0 * lancB A phi a.length := by
    have hbd := resElem_bound hA hz'0 phi (lancIter A phi a.length).1
    have hpp : phi ⬝ᵥ phi = lancB A phi 0 ^ 2 := (lancB_sq A phi 0).symm
    rw [him2, ← lancB_sq, hpp] at hbd
    apply le_of_sq_le_sq _ (mul_nonneg hb0n hbn)
    rw [mul_pow, mul_pow, sq_abs]
    exact hbd
  constructor
  · intro hv0
    have : resElem z' A phi (lancIter A phi a.length).1 = 0 := by
      rw [hv0]; unfold resElem
      have : (fun i : ι => (((0 : ι → ℝ) i : ℝ) : ℂ)) = 0 := by funext i; simp
      rw [this, Matrix.mulVec_zero, dotProduct_zero]
    rw [this, mul_zero, mul_zero, neg_zero] at hdiff
    exact sub_eq_zero.mp hdiff
  · change _ ≤ |ex| * (phi ⬝ᵥ phi) * lancB A phi a.length / eta ^ 2
    rw [hdiff, norm_neg, norm_mul, norm_mul, norm_mul, norm_mul, Complex.norm_real, Complex.norm_real, Complex.norm_real]
    have hsabs : ‖s‖ = 1 := by
      rw [Real.norm_eq_abs]
      have : |s| ^ 2 = 1 := by rw [sq_abs, hs2]
      nlinarith [abs_nonneg s]
    have hpp : phi ⬝ᵥ phi = lancB A phi 0 ^ 2 := (lancB_sq A phi 0).symm
    have heta2 : 0 < eta ^ 2 := by positivity
    rw [hsabs, mul_one, Real.norm_eq_abs, Real.norm_eq_abs, abs_of_nonneg hb0n, hpp, le_div_iff₀ heta2, ← sq_abs eta]
    have h4 : (|eta| * ‖x (a.length - 1)‖) * (|eta| * ‖resElem z' A phi (lancIter A phi a.length).1‖)
        ≤ 1 * (lancB A phi 0 * lancB A phi a.length) :=
      mul_le_mul hxn hrn (by positivity) (by norm_num)
    calc |ex| * (lancB A phi 0 * ‖x (a.length - 1)‖ * ‖resElem z' A phi (lancIter A phi a.length).1‖) * |eta| ^ 2
        = |ex| * lancB A phi 0 * ((|eta| * ‖x (a.length - 1)‖) * (|eta| * ‖resElem z' A phi (lancIter A phi a.length).1‖)) := by ring
      _ ≤ |ex| * lancB A phi 0 * (1 * (lancB A phi 0 * lancB A phi a.length)) :=
          mul_le_mul_of_nonneg_left h4 (by positivity)
      _ = _ := by ring

/-- Non-vacuity of C40: a two-site hopping matrix and the first unit vector. -/
example : (!![0, 1; 1, 0] : Matrix (Fin 2) (Fin 2) ℝ).IsSymm ∧
    ∃ a b, BuildSlTridiag (slStep ((!![0, 1; 1, 0] : Matrix (Fin 2) (Fin 2) ℝ) *ᵥ ·)) (tinyB 1e-15) (fun _ _ => 0) (fun _ _ => false) 500 10
      (List.replicate 500 0) 0 ![1, 0] (.ok (a, b)) := by
  refine ⟨by ext i j; fin_cases i <;> fin_cases j <;> rfl, ?_⟩
  apply C39_nonzero_start _ _ _ _ (by norm_num) (by norm_num) _ List.length_replicate
  simp [tinyB, slStep]
  norm_num

end Edpyt
