import Verif.Proof.LanczosRows
/-!
When the Lanczos loop stops only because the chain ends, the neglected remainder is below the threshold.
-/
namespace Edpyt
open Spec Matrix

section
variable {ι : Type} [Fintype ι] {A : Matrix ι ι ℝ} {phi : ι → ℝ} {delta : ℝ} {eg : List ℝ → List ℝ → ℝ} {close : ℝ → Option ℝ → Bool} {maxn ND : ℕ}

theorem slPass_stop : ∀ (k : ℕ) (st st' : LancSt ℝ (ι → ℝ)), LancOk maxn st → st.converged = false → LancInv A phi delta st →
    slPass (slStep (A *ᵥ ·)) (tinyB delta) maxn k st = .ok st' →
    (st'.converged = true ∧ (lancB A phi st'.n < delta ∨ maxn - 1 ≤ st'.n)) ∨ (st'.converged = false ∧ st'.n = st.n + k) := by
  intro k
  induction k with
  | zero => intro st st' _ hc h h'; simp only [slPass] at h'; injection h' with h'; subst h'; exact .inr ⟨hc, rfl⟩
  | succ k ih =>
    intro st st' hok hconv hinv h
    have hone := slPass_inv (A := A) (phi := phi) (delta := delta) (maxn := maxn) 1 st
    have hlt := hok.lt
    have hcur := hinv.cur hconv
    have hv : st.v = (lancIter A phi st.n).1 := congrArg Prod.fst hcur
    have hl : st.l = (lancIter A phi st.n).2 := congrArg Prod.snd hcur
    have eb : (slStep (A *ᵥ ·) st.v st.l).2.1 = lancB A phi st.n := by rw [hv, hl]; rfl
    simp only [slPass] at h hone
    rw [setItem_natCast _ _ _ (by rw [hok.alen]; omega), setItem_natCast _ _ _ (by rw [hok.blen]; omega)] at h hone
    simp only [bind, Except.bind, pure, Except.pure] at h hone
    by_cases hc : (tinyB delta (slStep (A *ᵥ ·) st.v st.l).2.1 || decide ((st.n : ℤ) ≥ (maxn : ℤ) - 1)) = true
    · rw [if_pos hc] at h
      by_cases h0 : st.n = 0
      · rw [if_pos h0] at h; cases h
      · rw [if_neg h0] at h
        injection h with h; subst h
        left
        refine ⟨rfl, ?_⟩
        simp only [Bool.or_eq_true, decide_eq_true_eq, tinyB, eb] at hc
        rcases hc with hc | hc
        · left; rw [abs_of_nonneg (lancB_nonneg A phi _)] at hc; exact hc
        · right; simp only; omega
    · rw [if_neg hc] at h hone
      have hi := hone _ hok hconv hinv rfl
      simp only [Bool.or_eq_true, decide_eq_true_eq, not_or] at hc
      rcases ih ⟨st.n + 1, st.a.set st.n (slStep (A *ᵥ ·) st.v st.l).1, st.b.set st.n (slStep (A *ᵥ ·) st.v st.l).2.1, (slStep (A *ᵥ ·) st.v st.l).2.2.1,
        (slStep (A *ᵥ ·) st.v st.l).2.2.2, st.converged⟩ st' ⟨by simp [hok.alen], by simp [hok.blen], by simp only; omega⟩ hconv hi h with h1 | ⟨h1, h2⟩
      · exact .inl h1
      · exact .inr ⟨h1, by rw [h2]; simp only; omega⟩

theorem slLoop_stop (hND : 2 ≤ ND) (hclose : ∀ x y, close x y = false) {st st' : LancSt ℝ (ι → ℝ)} {egs : Option ℝ} {r : Except PyErr (LancSt ℝ (ι → ℝ))}
    (h : SlLoop (slStep (A *ᵥ ·)) (tinyB delta) eg close maxn ND st egs r) (hok : LancOk maxn st) (hinv : LancInv A phi delta st)
    (hst : st.converged = true → lancB A phi st.n < delta ∨ maxn - 1 ≤ st.n) (hr : r = .ok st') : lancB A phi st'.n < delta ∨ maxn - 1 ≤ st'.n := by
  induction h with
  | done hc => injection hr with hr; subst hr; exact hst hc
  | raised _ _ => cases hr
  | @one st egs st'' hf hp hn =>
    injection hr with hr; subst hr
    rcases slPass_stop ND _ _ hok hf hinv hp with ⟨-, h⟩ | ⟨-, h⟩
    · exact h
    · omega
  | @again st egs st'' r hf hp hn _ ih =>
    have h1 := slPass_inv ND _ _ hok hf hinv hp
    have he := slPass_end (step := slStep (A *ᵥ ·)) (tiny := tinyB delta) ND st hok
    rw [hp] at he
    have hk : LancOk maxn st'' := by cases he with
      | full h _ _ => exact h
      | stop h _ _ _ => exact h
    simp only [hclose] at ih
    refine ih hk h1 (fun hc => ?_) hr
    rcases slPass_stop ND _ _ hok hf hinv hp with ⟨-, h⟩ | ⟨h, -⟩
    · exact h
    · simp only [Bool.false_eq_true, if_false] at hc; rw [h] at hc; cases hc

/-- Without the test on the ground state energy, the chain ends when the next coefficient is below `delta` or `maxn - 1` steps are done. -/
theorem lanczos_stop (hmaxn : 2 ≤ maxn) (hND : 2 ≤ ND) (hclose : ∀ x y, close x y = false) {junk a b : List ℝ} (hjunk : junk.length = maxn)
    (h : BuildSlTridiag (slStep (A *ᵥ ·)) (tinyB delta) eg close maxn ND junk 0 phi (.ok (a, b))) : lancB A phi a.length < delta ∨ maxn - 1 ≤ a.length := by
  cases h with
  | @ok st h =>
    have hok : LancOk maxn (⟨0, junk, junk, 0, phi, false⟩ : LancSt ℝ (ι → ℝ)) := ⟨hjunk, hjunk, by simp only; omega⟩
    have := slLoop_stop (A := A) (phi := phi) (delta := delta) hND hclose h hok ⟨by simp, by simp, by simp, fun _ => rfl⟩ (by simp) rfl
    rcases slLoop_out (by omega) h hok (by simp) with h1 | ⟨st', e, h1, h2⟩
    · cases h1
    · injection e with e; subst e
      have hl : (st.a.take st.n).length = st.n := by rw [List.length_take, h1.alen]; have := h1.lt; omega
      rw [hl]; exact this

/-- The Krylov basis and the remainder are determined by the coefficients. -/
theorem krylov_unique {a b : List ℝ} (hb : ∀ i < a.length, b[i]?.getD 0 ≠ 0) {q q' : Fin a.length → ι → ℝ} {res res' : ι → ℝ} (h : KrylovBasis A phi a b q res)
    (h' : KrylovBasis A phi a b q' res') (hl : 1 ≤ a.length) : q = q' ∧ res = res' := by
  have row : ∀ {q : Fin a.length → ι → ℝ} {res : ι → ℝ}, KrylovBasis A phi a b q res → ∀ (i : Fin a.length) (x : ι), (A *ᵥ q i) x =
      (if (i : ℕ) = 0 then 0 else (b[(i : ℕ)]?.getD 0) * (if hh : (i : ℕ) - 1 < a.length then q ⟨i - 1, hh⟩ x else 0)) + (a[(i : ℕ)]?.getD 0) * q i x +
      (if (i : ℕ) + 1 = a.length then 0 else (b[(i : ℕ) + 1]?.getD 0) * (if hh : (i : ℕ) + 1 < a.length then q ⟨i + 1, hh⟩ x else 0)) + if (i : ℕ) + 1 = a.length then res x else 0 := by
    intro q res h i x
    have h1 := congrFun (h.map i) x
    rw [h1]
    have h2 := tridiag_row (m := a.length) (fun k => a[k]?.getD 0) (fun k => b[k]?.getD 0) (RingHom.id ℝ) (fun k => if hh : k < a.length then q ⟨k, hh⟩ x else 0) i
    simp only [RingHom.id_apply, Fin.is_lt, dif_pos, Fin.eta] at h2
    simp only [Pi.add_apply, Finset.sum_apply, Pi.smul_apply, smul_eq_mul]
    rw [h2]
    congr 1
    split <;> rfl
  have hq : ∀ i (hi : i < a.length), q ⟨i, hi⟩ = q' ⟨i, hi⟩ := by
    intro i
    induction i using Nat.strong_induction_on with
    | _ i ih =>
      intro hi
      cases i with
      | zero =>
        have h1 := h.start ⟨0, hi⟩ rfl
        rw [h'.start ⟨0, hi⟩ rfl] at h1
        exact (smul_right_injective _ (hb 0 hi) h1).symm
      | succ i =>
        funext x
        have h0 := ih i (by omega) (by omega)
        have r1 := row h ⟨i, by omega⟩ x
        have r2 := row h' ⟨i, by omega⟩ x
        rw [h0] at r1
        rw [r1] at r2
        have hprev : (if (i : ℕ) = 0 then (0 : ℝ) else (b[i]?.getD 0) * (if hh : i - 1 < a.length then q ⟨i - 1, hh⟩ x else 0)) =
            (if (i : ℕ) = 0 then (0 : ℝ) else (b[i]?.getD 0) * (if hh : i - 1 < a.length then q' ⟨i - 1, hh⟩ x else 0)) := by
          split
          · rfl
          · rename_i hne
            rw [dif_pos (by omega), dif_pos (by omega), ih (i - 1) (by omega) (by omega)]
        have hne : ¬ i + 1 = a.length := by omega
        simp only [hprev, hne, if_false, dif_pos hi, add_zero, add_right_inj] at r2
        exact mul_left_cancel₀ (hb (i + 1) hi) r2
  have hqq : q = q' := funext fun i => hq i i.2
  refine ⟨hqq, ?_⟩
  subst hqq
  funext x
  have r1 := row h ⟨a.length - 1, by omega⟩ x
  have r2 := row h' ⟨a.length - 1, by omega⟩ x
  rw [r1] at r2
  have e : a.length - 1 + 1 = a.length := by omega
  simp only [e, if_true, add_right_inj] at r2
  exact r2

end

/-- A run on a space of dimension at most `maxn - 1` that is not cut short by the energy test neglects less than `delta`. -/
theorem LancRun.resLe_delta {cfg : LancCfg} (hc : cfg.Ok) (hND : 2 ≤ cfg.ND) (hclose : ∀ x y, cfg.close x y = false) {run : LancRun} (h : run.Of cfg)
    (hd : run.d ≤ cfg.maxn - 1) : run.ResLe cfg.delta := by
  intro A hA q res hK
  obtain ⟨⟨A', hs, hA'⟩, junk, hj, hrun⟩ := h
  obtain rfl : A' = A := by
    apply Matrix.ext_of_mulVec_single
    intro i
    exact congrFun (hA'.symm.trans hA) _
  rw [hA] at hrun
  obtain ⟨hl, hab, hco, hb⟩ := lanczos_coeffs hc.delta hc.maxn hc.ND hj hrun
  obtain ⟨q', hK'⟩ := lanczos_basis hs hc.delta hc.maxn hc.ND hj hrun
  obtain ⟨-, rfl⟩ := krylov_unique (fun i hi => by rw [(hco i hi).2]; exact hb i hi) hK hK' hl
  rcases lanczos_stop hc.maxn hND hclose hj hrun with h1 | h1
  · exact h1.le
  · -- the chain fills the space
    have horth : LinearIndependent ℝ q := by
      rw [linearIndependent_iff']
      intro s f hf i hi
      have := congrArg (fun v => q i ⬝ᵥ v) hf
      simp only [dotProduct_sum, dotProduct_smul, hK.orth, smul_eq_mul, mul_ite, mul_one, mul_zero, Finset.sum_ite_eq, hi, if_true, dotProduct_zero] at this
      exact this
    have hcard : run.a.length ≤ run.d := by
      have := horth.fintype_card_le_finrank
      simpa using this
    have hspan : Submodule.span ℝ (Set.range q) = ⊤ := horth.span_eq_top_of_card_eq_finrank' (by simp; omega)
    have hz : ∀ v, v ⬝ᵥ (lancIter A' run.phi run.a.length).1 = 0 := by
      intro v
      have hv : v ∈ Submodule.span ℝ (Set.range q) := by rw [hspan]; trivial
      induction hv using Submodule.span_induction with
      | mem x hx => obtain ⟨i, rfl⟩ := hx; exact hK.rem i
      | zero => exact zero_dotProduct _
      | add x y _ _ hx hy => rw [add_dotProduct, hx, hy, add_zero]
      | smul c x _ hx => rw [smul_dotProduct, hx, smul_zero]
    rw [hz, Real.sqrt_zero]
    exact hc.delta.le

end Edpyt
