import Verif.Proof.ContFrac
import Verif.Proof.Py
import Verif.Proof.Counting
/-!
C38: continued fraction and spectral representation are the same resolvent element.
-/
namespace Edpyt
open Matrix Spec

/-- Sign factor of the particle (`+`) and hole (`-`) parts. -/
noncomputable def signOf (sign : ℝ) : ℝ := if sign < 0 then -1 else 1

/-- The operator whose resolvent is represented: `±(T - Ei)`, `T` tridiagonal with diagonal `a` and off-diagonal
`b[1], b[2], …`. -/
noncomputable def chainMat (a b : List ℝ) (Ei sign : ℝ) : Matrix (Fin a.length) (Fin a.length) ℝ :=
  signOf sign • (tridiag a.length (fun i => a[i]?.getD 0) (fun i => b[i]?.getD 0) - Ei • (1 : Matrix _ _ ℝ))

theorem chainMat_eq (a b : List ℝ) (Ei sign : ℝ) :
    chainMat a b Ei sign = tridiag a.length (fun i => signOf sign * ((a[i]?.getD 0) - Ei)) (fun i => signOf sign * (b[i]?.getD 0)) := by
  ext i j
  simp only [chainMat, tridiag, Matrix.smul_apply, Matrix.sub_apply, Matrix.of_apply, Matrix.one_apply, smul_eq_mul]
  split_ifs <;> ring

theorem signOf_sq (sign : ℝ) : signOf sign ^ 2 = 1 := by
  unfold signOf; split_ifs <;> norm_num

theorem cfTail_congr {z : ℂ} {a b a' b' : ℕ → ℝ} {m : ℕ} (ha : ∀ i < m, a i = a' i) (hb : ∀ i < m, b i = b' i) :
    cfTail z a b m 0 = cfTail z a' b' m 0 := by
  have : ∀ j k, m - k = j → cfTail z a b m k = cfTail z a' b' m k := by
    intro j
    induction j with
    | zero => intro k h; rw [cfTail_end _ _ _ _ _ (by omega), cfTail_end _ _ _ _ _ (by omega)]
    | succ j ih => intro k h; rw [cfTail_lt z a b (by omega : k < m), cfTail_lt z a' b' (by omega : k < m), ih _ (by omega), ha _ (by omega), hb _ (by omega)]
  exact this _ 0 rfl

/-- **C38** (continued fraction). For coefficients `a`, `b` of a chain of any length, and any `eta ≠ 0`,
`build_gf_coeff_cf` followed by `continued_fraction` gives `exponent * b[0]²` times the `(0,0)` element of the
resolvent of `±(T - Ei)`. -/
theorem C38_continued_fraction (junk : ℝ) (a b : List ℝ) (hlen : a.length = b.length) (hm : 0 < a.length) (Ei ex sign e eta : ℝ)
    (heta : eta ≠ 0) :
    ∃ a' b', gfCoeffCf a b Ei ex sign = .ok (a', b') ∧
      cfEval junk a' b' e eta = (ex * b[0] ^ 2 : ℝ) * resolvent (e + Complex.I * eta) (chainMat a b Ei sign) ⟨0, hm⟩ ⟨0, hm⟩ := by
  have hmb : 0 < b.length := by omega
  have hc : gfCoeffCf a b Ei ex sign = .ok ((if sign < 0 then (a.map (· - Ei)).map (· * (-1)) else a.map (· - Ei)),
      (b.map (· ^ 2)).set 0 (b[0] ^ 2 * ex)) := by
    unfold gfCoeffCf
    rw [show (0 : ℤ) = ((0 : ℕ) : ℤ) from rfl]
    simp only [bind, Except.bind, pure, Except.pure]
    rw [getItem_natCast _ _ (by simpa using hmb)]
    simp only
    rw [setItem_natCast _ _ _ (by simpa using hmb)]
    simp
  refine ⟨_, _, hc, ?_⟩
  have hz : ((e : ℂ) + Complex.I * (eta : ℂ)).im ≠ 0 := by simpa using heta
  unfold cfEval
  rw [cfCalc_eq, chainMat_eq]
  have hal : (if sign < 0 then (a.map (· - Ei)).map (· * (-1)) else a.map (· - Ei)).length = a.length := by split_ifs <;> simp
  rw [hal]
  rw [cfTail_congr (a' := fun i => signOf sign * ((a[i]?.getD 0) - Ei))
    (b' := fun i => if i = 0 then ex * b[0] ^ 2 else (signOf sign * (b[i]?.getD 0)) ^ 2),
    cfTail_resolvent (c := fun i => signOf sign * (b[i]?.getD 0)) hz hm]
  · simp
  · intro k hk; rw [if_neg (by omega)]
  · intro i hi
    unfold signOf
    split_ifs <;> simp [hi] <;> ring
  · intro i hi
    have hib : i < b.length := by omega
    rcases Nat.eq_zero_or_pos i with h0 | h0
    · subst h0; simp [hmb]; ring
    · rw [if_neg (by omega), mul_pow, signOf_sq, List.getElem?_set_ne (by omega)]
      simp [hib]

/-- **C38** (spectral representation): the same function for every orthonormal eigenbasis LAPACK may return. -/
theorem C38_spectral (a b w : List ℝ) (U : ℕ → ℕ → ℝ) (hlen : a.length = b.length) (hm : 0 < a.length) (Ei ex sign e eta : ℝ)
    (heta : eta ≠ 0) (h : EighTri a b.tail w U) :
    ∃ l q, gfCoeffSp b w U Ei ex sign = .ok (l, q) ∧
      spEval l q e eta = (ex * b[0] ^ 2 : ℝ) * resolvent (e + Complex.I * eta) (chainMat a b Ei sign) ⟨0, hm⟩ ⟨0, hm⟩ := by
  have hmb : 0 < b.length := by omega
  have hc : gfCoeffSp b w U Ei ex sign = .ok ((if sign < 0 then (w.map (· - Ei)).map (· * (-1)) else w.map (· - Ei)),
      (List.range w.length).map fun r => (U 0 r * b[0]) ^ 2 * ex) := by
    unfold gfCoeffSp
    rw [show (0 : ℤ) = ((0 : ℕ) : ℤ) from rfl]
    simp only [bind, Except.bind, pure, Except.pure]
    rw [getItem_natCast _ _ hmb]
  refine ⟨_, _, hc, ?_⟩
  have hz : ((e : ℂ) + Complex.I * (eta : ℂ)).im ≠ 0 := by simpa using heta
  set T := tridiag a.length (fun i => a[i]?.getD 0) (fun i => b[i]?.getD 0) with hT
  set Um : Matrix (Fin a.length) (Fin a.length) ℝ := Matrix.of fun i r => U i r with hUm
  have horth : Umᵀ * Um = 1 := by
    ext r s
    rw [Matrix.mul_apply, Matrix.one_apply]
    have := h.orth r s r.2 s.2
    rw [Finset.sum_range] at this
    simp only [hUm, Matrix.transpose_apply, Matrix.of_apply]
    rw [this]
    simp [Fin.ext_iff]
  have heig : T * Um = Um * Matrix.diagonal (fun r : Fin a.length => w[(r : ℕ)]?.getD 0) := by
    ext i r
    rw [Matrix.mul_diagonal, Matrix.mul_apply]
    have hrow := tridiag_row (fun i => a[i]?.getD 0) (fun i => b[i]?.getD 0) (RingHom.id ℝ) (fun j => U j r) i
    simp only [RingHom.id_apply] at hrow
    simp only [hUm, Matrix.of_apply, hT]
    rw [hrow]
    have he := h.eig i r i.2 r.2
    rw [List.getElem?_tail, List.getElem?_tail] at he
    rw [mul_comm (U i r), ← he]
    congr 2
    by_cases h0 : (i : ℕ) = 0
    · rw [if_pos h0, if_pos h0]
    · rw [if_neg h0, if_neg h0, Nat.sub_add_cancel (by omega)]
  have hsym : (chainMat a b Ei sign).IsSymm := by rw [chainMat_eq]; exact tridiag_symm _ _ _
  have heig' : chainMat a b Ei sign * Um = Um * Matrix.diagonal (fun r : Fin a.length => signOf sign * ((w[(r : ℕ)]?.getD 0) - Ei)) := by
    unfold chainMat
    rw [Matrix.smul_mul, Matrix.sub_mul, ← hT, heig, Matrix.smul_mul, Matrix.one_mul]
    ext i r
    simp only [Matrix.smul_apply, Matrix.sub_apply, Matrix.mul_diagonal, smul_eq_mul]
    ring
  rw [eigen_resolvent hsym hz horth heig', Finset.mul_sum]
  unfold spEval
  have hll : (if sign < 0 then (w.map (· - Ei)).map (· * (-1)) else w.map (· - Ei)) = (List.range w.length).map fun r => signOf sign * ((w[r]?.getD 0) - Ei) := by
    apply List.ext_getElem
    · split_ifs <;> simp
    · intro i h1 h2
      have hi : i < w.length := by simpa using h2
      unfold signOf
      split_ifs <;> simp [hi]
  rw [hll, List.zipWith_map, List.zipWith_self, h.wlen, sum_map_range, Finset.sum_range]
  refine Finset.sum_congr rfl fun r _ => ?_
  simp only [hUm, Matrix.of_apply]
  push_cast
  ring

/-- **C38** The two representations agree. -/
theorem C38_agree (junk : ℝ) (a b w : List ℝ) (U : ℕ → ℕ → ℝ) (hlen : a.length = b.length) (hm : 0 < a.length) (Ei ex sign : ℝ)
    (h : EighTri a b.tail w U) :
    ∃ a' b' l q, gfCoeffCf a b Ei ex sign = .ok (a', b') ∧ gfCoeffSp b w U Ei ex sign = .ok (l, q) ∧
      ∀ e eta : ℝ, eta ≠ 0 → cfEval junk a' b' e eta = spEval l q e eta := by
  obtain ⟨a', b', h1, -⟩ := C38_continued_fraction junk a b hlen hm Ei ex sign 0 1 one_ne_zero
  obtain ⟨l, q, h2, -⟩ := C38_spectral a b w U hlen hm Ei ex sign 0 1 one_ne_zero h
  refine ⟨a', b', l, q, h1, h2, fun e eta heta => ?_⟩
  obtain ⟨a'', b'', h3, h4⟩ := C38_continued_fraction junk a b hlen hm Ei ex sign e eta heta
  obtain ⟨l', q', h5, h6⟩ := C38_spectral a b w U hlen hm Ei ex sign e eta heta h
  rw [h1] at h3; rw [h2] at h5
  injection h3 with h3; injection h3 with e1 e2
  injection h5 with h5; injection h5 with e3 e4
  rw [e1, e2, e3, e4, h4, h6]

/-- Non-vacuity: the chain `a = [0, 0]`, `b = [1, 1]` with eigenvectors `(1, ∓1)/√2`. -/
example : ∃ w U, EighTri [0, 0] [1, 1].tail w U := by
  refine ⟨[-1, 1], fun i r => if r = 0 then (if i = 0 then Real.sqrt (1/2) else -Real.sqrt (1/2)) else Real.sqrt (1/2), rfl, ?_, ?_⟩
  · intro r s hr hs
    have hs2 : Real.sqrt (1/2) * Real.sqrt (1/2) = 1/2 := Real.mul_self_sqrt (by norm_num)
    simp only [List.length_cons, List.length_nil] at hr hs
    interval_cases r <;> interval_cases s <;> simp [Finset.sum_range_succ] <;> simp at hs2 <;> linarith
  · intro i r hi hr
    simp only [List.length_cons, List.length_nil] at hi hr
    interval_cases i <;> interval_cases r <;> simp

end Edpyt
