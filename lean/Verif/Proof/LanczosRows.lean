import Verif.Proof.SectorTrace
import Verif.Model.GfLanczos
import Verif.Proof.Eigen
import Verif.Proof.NumRange
/-!
The loop of Lanczos runs over the states of a sector.
-/
namespace Edpyt
open Spec Matrix

theorem bindR_ok {α β : Type} {x : Except PyErr α} {f : α → Except PyErr β → Prop} {r : Except PyErr β} {y : α} (hx : x = .ok y) :
    BindR (DetR x) f r ↔ f y r := by
  subst hx
  simp [BindR, DetR]

theorem bindR_of {α β : Type} {m : Except PyErr α → Prop} {f : α → Except PyErr β → Prop} {r : Except PyErr β} {P : α → Prop}
    (hm : ∀ x, m x → ∃ y, x = .ok y ∧ P y) (h : BindR m f r) : ∃ y, m (.ok y) ∧ P y ∧ f y r := by
  rcases h with ⟨x, h1, h2⟩ | ⟨e, h1, -⟩
  · obtain ⟨y, e, hp⟩ := hm _ h1
    cases e
    exact ⟨_, h1, hp, h2⟩
  · obtain ⟨y, e', -⟩ := hm _ h1
    cases e'

theorem bindR_exists {α β : Type} {m : Except PyErr α → Prop} {f : α → Except PyErr β → Prop} (hm : ∃ x, m x) (hf : ∀ x, m (.ok x) → ∃ r, f x r) :
    ∃ r, BindR m f r := by
  obtain ⟨x, hx⟩ := hm
  cases x with
  | error e => exact ⟨_, .inr ⟨e, hx, rfl⟩⟩
  | ok y => obtain ⟨r, hr⟩ := hf y hx; exact ⟨r, .inl ⟨y, hx, hr⟩⟩

theorem forR_exists {α σ : Type*} {body : σ → α → Except PyErr σ → Prop} {xs : List α} (h : ∀ st, ∀ x ∈ xs, ∃ r, body st x r) (st : σ) :
    ∃ r, ForR body xs st r := by
  induction xs generalizing st with
  | nil => exact ⟨_, rfl⟩
  | cons x xs ih =>
    obtain ⟨r, hr⟩ := h st x (by simp)
    cases r with
    | error e => exact ⟨_, .inr ⟨e, hr, rfl⟩⟩
    | ok st' =>
      obtain ⟨r', hr'⟩ := ih (fun st x hx => h st x (by simp [hx])) st'
      exact ⟨r', .inl ⟨st', hr, hr'⟩⟩

/-- Admissible parameters of the Lanczos driver. -/
structure LancCfg.Ok (cfg : LancCfg) : Prop where
  maxn : 2 ≤ cfg.maxn
  ND : 1 ≤ cfg.ND
  delta : 0 < cfg.delta

/-- The remainder that a Lanczos run neglects has norm at most `ε`. -/
def LancRun.ResLe (run : LancRun) (ε : ℝ) : Prop :=
  ∀ (A : Matrix (Fin run.d) (Fin run.d) ℝ), run.mv = (A *ᵥ ·) → ∀ q res, KrylovBasis A run.phi run.a run.b q res → Real.sqrt (res ⬝ᵥ res) ≤ ε

/-- At the point `e + i eta` the Green function of a Lanczos run is that of its start vector, up to `ε / eta²`. The run is that of a matrix whose numerical range is
within that of `H`. -/
def LancRun.AccLe (run : LancRun) {κ : Type} [Fintype κ] (H : Matrix κ κ ℝ) (e eta ε : ℝ) : Prop :=
  ∀ (A : Matrix (Fin run.d) (Fin run.d) ℝ), A.IsSymm → run.mv = (A *ᵥ ·) → (∀ lo hi, NumRange H lo hi → NumRange A lo hi) → ∀ (hm : 0 < run.a.length) (Ei sign : ℝ),
    ‖(((run.b[0]?.getD 0) ^ 2 : ℝ) : ℂ) * resolvent (e + Complex.I * eta) (chainMat run.a run.b Ei sign) ⟨0, hm⟩ ⟨0, hm⟩ -
      resElem (e + Complex.I * eta) (signOf sign • (A - Ei • (1 : Matrix _ _ ℝ))) run.phi run.phi‖ ≤ run.phi ⬝ᵥ run.phi * ε / eta ^ 2

/-- The record is that of a call of `build_sl_tridiag` with a symmetric matrix. -/
def LancRun.Of (cfg : LancCfg) (run : LancRun) : Prop :=
  (∃ A : Matrix (Fin run.d) (Fin run.d) ℝ, A.IsSymm ∧ run.mv = (A *ᵥ ·)) ∧
  ∃ junk : List ℝ, junk.length = cfg.maxn ∧
    BuildSlTridiag (slStep run.mv) (fun b => decide (|b| < cfg.delta)) cfg.eg cfg.close cfg.maxn cfg.ND junk 0 run.phi (.ok (run.a, run.b))

theorem LancRun.ResLe.accLe {cfg : LancCfg} (hc : cfg.Ok) {run : LancRun} (ho : run.Of cfg) {ε : ℝ} (h : run.ResLe ε) {κ : Type} [Fintype κ] (H : Matrix κ κ ℝ) (e eta : ℝ)
    (he : eta ≠ 0) : run.AccLe H e eta ε := by
  obtain ⟨-, jk, hjk, ht⟩ := ho
  obtain ⟨d, mv, phi, a, b⟩ := run
  intro (A : Matrix (Fin d) (Fin d) ℝ) hA hmv _ hm Ei sign
  simp only at ht hm ⊢
  obtain rfl : mv = (A *ᵥ ·) := hmv
  obtain ⟨q, res, a', b', hK, hcf, hval⟩ := C40_resolvent 0 hA hc.delta hc.maxn hc.ND hjk ht Ei 1 sign
  have hres := h A rfl q res hK
  obtain ⟨-, hab, -, -⟩ := lanczos_coeffs hc.delta hc.maxn hc.ND hjk ht
  obtain ⟨a2, b2, h1, h2⟩ := C38_continued_fraction 0 a b hab hm Ei 1 sign e eta he
  rw [hcf] at h1
  injection h1 with h1; injection h1 with e1 e2
  subst e1; subst e2
  have hb := (hval e eta he).2
  have hb0 : b[0]?.getD 0 = b[0] := by rw [List.getElem?_eq_getElem (by omega)]; rfl
  rw [h2, Complex.ofReal_one, one_mul, one_mul, abs_one, one_mul] at hb
  rw [hb0]
  refine hb.trans ?_
  have hpos : 0 ≤ phi ⬝ᵥ phi := by
    simp only [dotProduct]
    exact Finset.sum_nonneg fun i _ => mul_self_nonneg _
  exact div_le_div_of_nonneg_right (mul_le_mul_of_nonneg_left hres hpos) (by positivity)

/-- LAPACK's tridiagonal solver has an outcome. -/
theorem eighTri_exists (a b : List ℝ) : ∃ w U, EighTri a b w U := by
  set m := a.length with hm
  let T := tridiag m (fun i => a[i]?.getD 0) (fun i => b[i - 1]?.getD 0)
  let D : Dense ℝ := ⟨m, fun i j => if h : i < m ∧ j < m then T ⟨i, h.1⟩ ⟨j, h.2⟩ else 0⟩
  have hs := tridiag_symm m (fun i => a[i]?.getD 0) (fun i => b[i - 1]?.getD 0)
  obtain ⟨w, v, h⟩ := eigh_exists D (by
    intro i j hi hj
    have hi' : i < m := hi
    have hj' : j < m := hj
    simp only [D, dif_pos (And.intro hi' hj'), dif_pos (And.intro hj' hi')]
    exact hs.apply _ _)
  have hl : v.length = m := h.vlen
  refine ⟨w, fun i r => (v[r]?.getD 0) i, h.wlen, ?_, ?_⟩
  · intro r s hr hs
    rw [← hm] at hr hs
    have := h.orth r s (by rw [hl]; exact hr) (by rw [hl]; exact hs)
    rw [List.getElem?_eq_getElem (by rw [hl]; exact hr), List.getElem?_eq_getElem (by rw [hl]; exact hs)]
    exact this
  · intro i r hi hr
    rw [← hm] at hi hr
    have h1 := h.eig r (by rw [hl]; exact hr) (by rw [h.wlen]; exact hr) i hi
    have h2 := tridiag_row (m := m) (fun i => a[i]?.getD 0) (fun i => b[i - 1]?.getD 0) (RingHom.id ℝ) (v[r]'(by rw [hl]; exact hr)) ⟨i, hi⟩
    simp only [RingHom.id_apply] at h2
    have h3 : ∑ c ∈ Finset.range D.size, D.val i c * (v[r]'(by rw [hl]; exact hr)) c = ∑ j : Fin m, T ⟨i, hi⟩ j * (v[r]'(by rw [hl]; exact hr)) j := by
      rw [show D.size = m from rfl, Finset.sum_range]
      apply Finset.sum_congr rfl; intro j _
      simp only [D, dif_pos (And.intro hi j.2)]
    rw [h3] at h1
    have g1 : v[r]?.getD 0 = v[r]'(by rw [hl]; exact hr) := by rw [List.getElem?_eq_getElem (by rw [hl]; exact hr)]; rfl
    have g2 : w[r]?.getD 0 = w[r]'(by rw [h.wlen]; exact hr) := by rw [List.getElem?_eq_getElem (by rw [h.wlen]; exact hr)]; rfl
    simp only [g1, g2]
    rw [← h1]
    exact h2.symm

theorem resElem_norm {ι : Type} [Fintype ι] [DecidableEq ι] {A : Matrix ι ι ℝ} (hA : A.IsSymm) {z : ℂ} (hz : z.im ≠ 0) (x : ι → ℝ) :
    ‖resElem z A x x‖ ≤ (x ⬝ᵥ x) / |z.im| := by
  have h := resElem_bound hA hz x x
  have h0 : 0 ≤ x ⬝ᵥ x := by
    simp only [dotProduct]
    exact Finset.sum_nonneg fun i _ => mul_self_nonneg _
  rw [le_div_iff₀ (abs_pos.mpr hz)]
  refine abs_le_of_sq_le_sq' ?_ h0 |>.2
  rw [mul_pow, sq_abs, mul_comm, pow_two (x ⬝ᵥ x)]
  exact h

theorem signOf_sign (op : Ladder) : signOf op.sign = op.sign := by
  cases op <;> norm_num [signOf, Ladder.sign]

section
variable {cfg : LancCfg} {rep : GfRepr} {catch_ : Bool} {d : ℕ} {A : Matrix (Fin d) (Fin d) ℝ} {v0 : ℕ → ℕ → ℝ} {E : List ℝ} {ex : ℝ → ℝ} {op : Ladder}

theorem lanczosRow_exists (hc : cfg.Ok) (mv : (Fin d → ℝ) → Fin d → ℝ) (st : List GfFn × List LancRun) (k : ℕ) :
    ∃ r, LanczosRow cfg rep catch_ d mv v0 E ex op.sign st k r := by
  obtain ⟨t, ht, -, hcase⟩ := C39_terminates (slStep mv) (fun b => decide (|b| < cfg.delta)) cfg.eg cfg.close hc.maxn hc.ND (List.replicate cfg.maxn (0 : ℝ))
    List.length_replicate 0 (fun c : Fin d => v0 k c)
  rcases hcase with rfl | ⟨a, b, rfl, -⟩
  · exact ⟨if catch_ then .ok st else .error .zeroNorm, _, _, List.length_replicate, ht, by simp only; cases catch_ <;> simp⟩
  · have : ∃ r, GfCoeff rep a b (E[k]?.getD 0) (ex (E[k]?.getD 0)) op.sign r := by
      cases rep with
      | cf => exact ⟨_, rfl⟩
      | sp =>
        obtain ⟨w, U, h⟩ := eighTri_exists a b.tail
        exact ⟨_, w, U, h, rfl⟩
    obtain ⟨r, hr⟩ := bindR_exists (f := fun f => DetR (.ok (st.1 ++ [f], st.2 ++ [⟨d, mv, fun c => v0 k c, a, b⟩]))) this (fun x _ => ⟨_, rfl⟩)
    exact ⟨r, _, _, List.length_replicate, ht, hr⟩

/-- One Lanczos run: what is added differs from the resolvent element by the neglected remainder. -/
theorem lanczosRow_out (junk : ℝ) (hc : cfg.Ok) (hA : A.IsSymm) (hex : ∀ x, 0 ≤ ex x) {κ : Type} [Fintype κ] {H : Matrix κ κ ℝ} (hAH : ∀ lo hi, NumRange H lo hi → NumRange A lo hi) {st : List GfFn × List LancRun} {k : ℕ} {r : Except PyErr (List GfFn × List LancRun)}
    (h : LanczosRow cfg rep catch_ d (A *ᵥ ·) v0 E ex op.sign st k r) :
    (catch_ = false ∧ r = .error .zeroNorm ∧ (fun c : Fin d => v0 k c) ⬝ᵥ (fun c : Fin d => v0 k c) < cfg.delta ^ 2) ∨
    ∃ fs log, r = .ok (st.1 ++ fs, st.2 ++ log) ∧ (∀ run ∈ log, run.d = d ∧ run.Of cfg) ∧
      ∀ (e eta ε : ℝ), eta ≠ 0 → 0 ≤ ε → (∀ run ∈ log, run.AccLe H e eta ε) →
      ‖(fs.map fun f => f.eval junk e eta).sum - (ex (E[k]?.getD 0) : ℂ) *
          resElem (e + Complex.I * eta) (op.sign • (A - (E[k]?.getD 0) • (1 : Matrix _ _ ℝ))) (fun c : Fin d => v0 k c) (fun c : Fin d => v0 k c)‖ ≤
        ex (E[k]?.getD 0) * ((fun c : Fin d => v0 k c) ⬝ᵥ (fun c : Fin d => v0 k c) * ε / eta ^ 2 + cfg.delta ^ 2 / |eta|) := by
  obtain ⟨jk, t, hjk, ht, hm⟩ := h
  set phi : Fin d → ℝ := fun c => v0 k c with hphi
  set Ei := E[k]?.getD 0 with hEi
  have hpos : 0 ≤ phi ⬝ᵥ phi := by
    simp only [dotProduct]
    exact Finset.sum_nonneg fun i _ => mul_self_nonneg _
  obtain ⟨t', ht', huniq, hcase⟩ := C39_terminates (slStep (A *ᵥ ·)) (tinyB cfg.delta) cfg.eg cfg.close hc.maxn hc.ND jk hjk 0 phi
  obtain rfl : t = t' := huniq t ht
  rcases hcase with rfl | ⟨a, b, rfl, hab, hl1, hl2⟩
  · -- the start vector is (nearly) zero
    have hsmall : phi ⬝ᵥ phi < cfg.delta ^ 2 := by
      by_contra hge
      rw [not_lt] at hge
      have h0 : tinyB cfg.delta (slStep (A *ᵥ ·) phi 0).2.1 = false := by
        apply decide_eq_false
        rw [not_lt]
        refine le_trans ?_ (le_abs_self _)
        exact Real.le_sqrt_of_sq_le hge
      obtain ⟨a, b, hab⟩ := C39_nonzero_start (slStep (A *ᵥ ·)) (tinyB cfg.delta) cfg.eg cfg.close hc.maxn hc.ND jk hjk 0 phi h0
      cases huniq _ hab
    simp only at hm
    cases hcatch : catch_
    · rw [hcatch] at hm
      exact .inl ⟨rfl, by simpa using hm, hsmall⟩
    · rw [hcatch] at hm
      simp only [if_true] at hm
      refine .inr ⟨[], [], by simpa using hm, by simp, fun e eta ε he hε _ => ?_⟩
      simp only [List.map_nil, List.sum_nil, zero_sub, norm_neg]
      have him : (e + Complex.I * eta : ℂ).im = eta := by simp
      have hb := resElem_norm (symm_shift hA op.sign Ei) (z := e + Complex.I * eta) (by rw [him]; exact he) phi
      rw [him] at hb
      rw [norm_mul, Complex.norm_real, Real.norm_of_nonneg (hex _)]
      apply mul_le_mul_of_nonneg_left _ (hex _)
      have h1 : 0 ≤ phi ⬝ᵥ phi * ε / eta ^ 2 := by positivity
      have h2 : phi ⬝ᵥ phi / |eta| ≤ cfg.delta ^ 2 / |eta| := div_le_div_of_nonneg_right hsmall.le (abs_nonneg _)
      linarith
  · -- a run
    simp only at hm
    have hm0 : 0 < a.length := by omega
    obtain ⟨a', b', hcf, -⟩ := C38_continued_fraction junk a b hab hm0 Ei (ex Ei) op.sign 0 1 one_ne_zero
    have hf : ∀ x, GfCoeff rep a b Ei (ex Ei) op.sign x → ∃ f, x = .ok f ∧ ∀ e eta : ℝ, eta ≠ 0 → f.eval junk e eta = cfEval junk a' b' e eta := by
      intro x hx
      cases rep with
      | cf =>
        refine ⟨.cf a' b', ?_, fun e eta _ => rfl⟩
        simp only [GfCoeff] at hx
        rw [hx, hcf]; rfl
      | sp =>
        obtain ⟨w, U, h1, h2⟩ := hx
        obtain ⟨a2, b2, l, q', e1, e2, e3⟩ := C38_agree junk a b w U hab (by omega) Ei (ex Ei) op.sign h1
        rw [hcf] at e1
        injection e1 with e1; injection e1 with e1a e1b
        subst e1a; subst e1b
        exact ⟨.sp l q', by rw [h2, e2]; rfl, fun e eta he => (e3 e eta he).symm⟩
    obtain ⟨f, -, hfv, hr⟩ := bindR_of hf hm
    refine .inr ⟨[f], [⟨d, (A *ᵥ ·), phi, a, b⟩], hr, (by intro run hrun; rw [List.mem_singleton] at hrun; subst hrun; exact ⟨rfl, ⟨A, hA, rfl⟩, jk, hjk, ht⟩), fun e eta ε he hε hlog => ?_⟩
    have hb := hlog ⟨d, (A *ᵥ ·), phi, a, b⟩ (List.mem_singleton.mpr rfl) A hA rfl hAH hm0 Ei op.sign
    obtain ⟨a2, b2, h1, h2⟩ := C38_continued_fraction junk a b hab hm0 Ei (ex Ei) op.sign e eta he
    rw [hcf] at h1
    injection h1 with h1; injection h1 with e1 e2
    subst e1; subst e2
    have hb0 : b[0]?.getD 0 = b[0] := by rw [List.getElem?_eq_getElem (by omega)]; rfl
    simp only [signOf_sign, hb0] at hb
    simp only [List.map_cons, List.map_nil, List.sum_cons, List.sum_nil, add_zero, hfv e eta he]
    rw [h2, Complex.ofReal_mul, mul_assoc, ← mul_sub, norm_mul, Complex.norm_real, Real.norm_of_nonneg (hex _)]
    apply mul_le_mul_of_nonneg_left _ (hex _)
    have : 0 ≤ cfg.delta ^ 2 / |eta| := by positivity
    linarith

/-- The whole loop. -/
theorem lanczosRows_out (junk : ℝ) (hc : cfg.Ok) (hA : A.IsSymm) (hex : ∀ x, 0 ≤ ex x) {κ : Type} [Fintype κ] {H : Matrix κ κ ℝ} (hAH : ∀ lo hi, NumRange H lo hi → NumRange A lo hi) (xs : List ℕ) {st : List GfFn × List LancRun} {r : Except PyErr (List GfFn × List LancRun)}
    (h : ForR (LanczosRow cfg rep catch_ d (A *ᵥ ·) v0 E ex op.sign) xs st r) :
    (catch_ = false ∧ r = .error .zeroNorm ∧ ∃ k ∈ xs, (fun c : Fin d => v0 k c) ⬝ᵥ (fun c : Fin d => v0 k c) < cfg.delta ^ 2) ∨
    ∃ fs log, r = .ok (st.1 ++ fs, st.2 ++ log) ∧ (∀ run ∈ log, run.d = d ∧ run.Of cfg) ∧
      ∀ (e eta ε : ℝ), eta ≠ 0 → 0 ≤ ε → (∀ run ∈ log, run.AccLe H e eta ε) →
      ‖(fs.map fun f => f.eval junk e eta).sum - (xs.map fun k => (ex (E[k]?.getD 0) : ℂ) *
          resElem (e + Complex.I * eta) (op.sign • (A - (E[k]?.getD 0) • (1 : Matrix _ _ ℝ))) (fun c : Fin d => v0 k c) (fun c : Fin d => v0 k c)).sum‖ ≤
        (xs.map fun k => ex (E[k]?.getD 0) * ((fun c : Fin d => v0 k c) ⬝ᵥ (fun c : Fin d => v0 k c) * ε / eta ^ 2 + cfg.delta ^ 2 / |eta|)).sum := by
  induction xs generalizing st with
  | nil => exact .inr ⟨[], [], by simpa [ForR] using h, by simp, fun e eta ε _ _ _ => by simp⟩
  | cons k xs ih =>
    rcases h with ⟨st', h1, h2⟩ | ⟨e, h1, rfl⟩
    · rcases lanczosRow_out junk hc hA hex hAH h1 with ⟨-, h, -⟩ | ⟨fs, log, e1, e2, e3⟩
      · cases h
      · injection e1 with e1; subst e1
        rcases ih h2 with ⟨c1, c2, k', hk', c3⟩ | ⟨fs', log', f1, f2, f3⟩
        · exact .inl ⟨c1, c2, k', by simp [hk'], c3⟩
        · refine .inr ⟨fs ++ fs', log ++ log', by rw [f1]; simp, ?_, fun e eta ε he hε hlog => ?_⟩
          · intro run hrun
            rcases List.mem_append.mp hrun with h | h
            · exact e2 _ h
            · exact f2 _ h
          · simp only [List.map_append, List.sum_append, List.map_cons, List.sum_cons]
            have b1 := e3 e eta ε he hε fun run h => hlog run (by simp [h])
            have b2 := f3 e eta ε he hε fun run h => hlog run (by simp [h])
            rw [add_sub_add_comm]
            exact (norm_add_le _ _).trans (add_le_add b1 b2)
    · rcases lanczosRow_out junk hc hA hex hAH h1 with ⟨c, h, h3⟩ | ⟨fs, log, e1, -⟩
      · exact .inl ⟨c, h, k, by simp, h3⟩
      · cases e1

end
end Edpyt
