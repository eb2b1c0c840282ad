import Verif.Props.HalfFilling
import Verif.Spec.Atomic
/-!
C112: an isolated site has the occupations and the Green function of a single level, whatever the other sites do.
-/
namespace Edpyt
open Matrix Spec

/-- Site `i` is not coupled to the others: no hop above the cut, no inter-site interaction, no exchange. -/
structure HamArgs.Isolated (a : HamArgs) (i : Fin a.n) : Prop where
  hop : ∀ (s : Bool) (j : Fin a.n), j ≠ i → |a.H (if s then 1 else 0) i j| ≤ 1 / 10 ^ 7
  U : ∀ j : Fin a.n, j ≠ i → a.V.U.getD 0 i j = 0 ∧ a.V.U.getD 0 j i = 0
  Jx : a.V.Jx = none
  Jp : a.V.Jp = none

/-- The level of spin `s`: `H_ii + mu`, and `- U_i/2` in half-filling mode. -/
noncomputable def HamArgs.siteLevel (a : HamArgs) (s : Bool) (i : Fin a.n) : ℝ := a.H (if s then 1 else 0) i i + a.mu - if a.hf then a.V.U.getD 0 i i / 2 else 0

section
variable {n : ℕ}

theorem ann_sq_zero (k : Fin (n + n)) : ann ℝ k * ann ℝ k = 0 := by
  have := ann_anticomm (R := ℝ) k k
  rw [← two_smul ℝ (ann ℝ k * ann ℝ k)] at this
  exact (smul_eq_zero.mp this).resolve_left two_ne_zero

theorem ann_num_self (s : Bool) (i : Fin n) : ann ℝ (orb s i) * num ℝ (orb s i) - num ℝ (orb s i) * ann ℝ (orb s i) = ann ℝ (orb s i) := by
  rw [ann_comm_num, if_pos rfl]

theorem ann_num_comm {s s' : Bool} {i j : Fin n} (h : ¬(s = s' ∧ i = j)) : Commute (ann ℝ (orb s i)) (num ℝ (orb s' j)) := by
  have := ann_comm_num (R := ℝ) (orb s i) (orb s' j)
  rw [if_neg (by rwa [orb_inj]), sub_eq_zero] at this
  exact this

theorem onsite_comm_ann (hf : Bool) (V : Fin n → Fin n → ℝ) (s : Bool) (i : Fin n) :
    ann ℝ (orb s i) * onsiteU hf V - onsiteU hf V * ann ℝ (orb s i) = V i i • (ann ℝ (orb s i) * (num ℝ (orb (!s) i) - (if hf then 1 / 2 else 0 : ℝ) • 1)) := by
  unfold onsiteU
  rw [Matrix.mul_sum, Matrix.sum_mul, ← Finset.sum_sub_distrib, Finset.sum_eq_single i]
  · rw [Matrix.mul_smul, Matrix.smul_mul, ← smul_sub]
    congr 1
    set h : ℝ := if hf then 1 / 2 else 0
    have e1 : ∀ (N M C : Matrix (Finset (Fin (n + n))) (Finset (Fin (n + n))) ℝ), C * N - N * C = C → Commute C M → Commute N M →
        C * ((N - h • 1) * (M - h • 1)) - (N - h • 1) * (M - h • 1) * C = C * (M - h • 1) := by
      intro N M C h1 h2 h3
      have h2' : Commute C (M - h • 1) := h2.sub_right ((Commute.one_right _).smul_right _)
      rw [Matrix.mul_assoc (N - h • 1), ← h2'.eq, ← Matrix.mul_assoc, ← Matrix.mul_assoc, ← Matrix.sub_mul]
      congr 1
      rw [Matrix.mul_sub, Matrix.sub_mul, Matrix.mul_smul, Matrix.smul_mul, Matrix.mul_one, Matrix.one_mul, sub_sub_sub_cancel_right, h1]
    have e2 : ∀ (N M C : Matrix (Finset (Fin (n + n))) (Finset (Fin (n + n))) ℝ), Commute N M → Commute (N - h • 1) (M - h • 1) := by
      intro N M C h3
      exact (h3.sub_right ((Commute.one_right _).smul_right _)).sub_left (((Commute.one_left _).smul_left _))
    cases s
    · exact e1 _ _ _ (ann_num_self false i) (ann_num_comm (by simp)) (num_mul_comm _ _)
    · have hc : Commute (num ℝ (orb false i) - h • 1) (num ℝ (orb true i) - h • 1) := e2 _ _ (ann ℝ (orb true i)) (num_mul_comm _ _)
      rw [hc.eq]
      exact e1 _ _ _ (ann_num_self true i) (ann_num_comm (by simp)) (num_mul_comm _ _)
  · intro j _ hj
    have h1 : ∀ (s' : Bool) (c : ℝ), Commute (ann ℝ (orb s i)) (num ℝ (orb s' j) - c • 1) := fun s' c =>
      (ann_num_comm fun h => hj h.2.symm).sub_right ((Commute.one_right _).smul_right _)
    have h2 : Commute (ann ℝ (orb s i)) (V j j • ((num ℝ (orb false j) - (if hf then 1 / 2 else 0 : ℝ) • 1) * (num ℝ (orb true j) - (if hf then 1 / 2 else 0 : ℝ) • 1))) :=
      ((h1 _ _).mul_right (h1 _ _)).smul_right _
    exact sub_eq_zero.mpr h2.eq
  · simp

theorem interSite_comm_ann {z : Fin n → ℝ} {V : Fin n → Fin n → ℝ} {i : Fin n} (hV : ∀ j, j ≠ i → V i j = 0 ∧ V j i = 0) (s : Bool) :
    Commute (ann ℝ (orb s i)) (interSite z V) := by
  unfold interSite
  refine Commute.smul_right (Commute.sum_right _ _ _ fun j _ => Commute.sum_right _ _ _ fun k _ => ?_) _
  by_cases hjk : j = k
  · rw [if_neg (by simp [hjk]), zero_smul]; exact Commute.zero_right _
  · rw [if_pos hjk]
    by_cases hj : j = i
    · subst hj
      rw [(hV k (Ne.symm hjk)).1, zero_smul]; exact Commute.zero_right _
    · by_cases hk : k = i
      · subst hk
        rw [(hV j hjk).2, zero_smul]; exact Commute.zero_right _
      · have h1 : ∀ j, j ≠ i → Commute (ann ℝ (orb s i)) (num ℝ (orb false j) + num ℝ (orb true j) - z j • 1) := fun j hj =>
          ((ann_num_comm fun h => hj h.2.symm).add_right (ann_num_comm fun h => hj h.2.symm)).sub_right ((Commute.one_right _).smul_right _)
        exact ((h1 j hj).mul_right (h1 k hk)).smul_right _

end

/-- Equation of motion of an isolated site. -/
theorem HamArgs.Isolated.eom {a : HamArgs} {i : Fin a.n} (h : a.Isolated i) (s : Bool) :
    ann ℝ (orb s i) * a.ham - a.ham * ann ℝ (orb s i) = a.siteLevel s i • ann ℝ (orb s i) + a.V.U.getD 0 i i • (ann ℝ (orb s i) * num ℝ (orb (!s) i)) := by
  have hx : codeExchange (n := a.n) a.V.Jx a.V.Jp = 0 := by
    have : ∀ i j : Fin a.n, offdiag (n := a.n) (optMat (K := ℝ) none) i j = 0 := by
      intro i j; simp [offdiag, optMat]
    unfold codeExchange exchangeSame exchangeFlip pairHopping
    rw [h.Jx, h.Jp]
    simp [this]
  unfold HamArgs.ham hubbard
  rw [hx, add_zero, Matrix.mul_add, Matrix.mul_add, Matrix.add_mul, Matrix.add_mul, (interSite_comm_ann h.U s).eq, add_sub_add_right_eq_sub, add_sub_add_comm, ann_comm_kinetic, onsite_comm_ann,
    Finset.sum_eq_single i]
  · rw [kept_apply, if_pos rfl, Matrix.mul_sub, Matrix.mul_smul, Matrix.mul_one]
    unfold HamArgs.siteLevel
    split_ifs <;> module
  · intro j _ hj
    rw [kept_apply, if_neg (Ne.symm hj), if_neg (not_lt.mpr (h.hop s j hj)), zero_smul]
  · simp

section
variable {ι : Type} [Fintype ι] [DecidableEq ι]

/-- Detailed balance of a ladder operator. -/
theorem ladder_balance {H V γ : Matrix ι ι ℝ} {E : ι → ℝ} (h : Diag H V E) {ε : ℝ} (hγ : γ * H - H * γ = ε • γ) (β : ℝ) :
    trace (gibbsOp β H * (γᵀ * γ)) = Real.exp (-β * ε) * trace (gibbsOp β H * (γ * γᵀ)) := by
  have h1 := ladder_gibbs h hγ β
  calc trace (gibbsOp β H * (γᵀ * γ)) = trace (γ * gibbsOp β H * γᵀ) := by
        rw [← Matrix.mul_assoc, Matrix.trace_mul_comm, Matrix.mul_assoc]
    _ = _ := by rw [h1, Matrix.smul_mul, Matrix.trace_smul, smul_eq_mul, Matrix.mul_assoc]

/-- The two annihilation operators of an isolated site and their equations of motion. -/
structure AtomPair (H c d : Matrix ι ι ℝ) (e e' U : ℝ) : Prop where
  symm : H.IsSymm
  antic : c * cᵀ + cᵀ * c = 1
  cc : c * c = 0
  antid : d * dᵀ + dᵀ * d = 1
  dd : d * d = 0
  cM : Commute c (dᵀ * d)
  dN : Commute d (cᵀ * c)
  NM : Commute (cᵀ * c) (dᵀ * d)
  eomc : c * H - H * c = e • c + U • (c * (dᵀ * d))
  eomd : d * H - H * d = e' • d + U • (d * (cᵀ * c))

namespace AtomPair
variable {H c d : Matrix ι ι ℝ} {e e' U : ℝ}

theorem swap (h : AtomPair H c d e e' U) : AtomPair H d c e' e U := ⟨h.symm, h.antid, h.dd, h.antic, h.cc, h.dN, h.cM, h.NM.symm, h.eomd, h.eomc⟩

theorem idem (h : AtomPair H c d e e' U) : dᵀ * d * (dᵀ * d) = dᵀ * d := by
  have h1 : d * dᵀ = 1 - dᵀ * d := eq_sub_of_add_eq h.antid
  calc dᵀ * d * (dᵀ * d) = dᵀ * (d * dᵀ) * d := by simp only [Matrix.mul_assoc]
    _ = dᵀ * d - dᵀ * dᵀ * (d * d) := by rw [h1, Matrix.mul_sub, Matrix.sub_mul, Matrix.mul_one]; simp only [Matrix.mul_assoc]
    _ = _ := by rw [h.dd, Matrix.mul_zero, sub_zero]

theorem creM (h : AtomPair H c d e e' U) : Commute cᵀ (dᵀ * d) := by
  have := congrArg Matrix.transpose h.cM.eq
  simp only [Matrix.transpose_mul, Matrix.transpose_transpose] at this
  exact this.symm

theorem MH (h : AtomPair H c d e e' U) : Commute (dᵀ * d) H := by
  have h2 := congrArg Matrix.transpose h.eomd
  simp only [Matrix.transpose_sub, Matrix.transpose_mul, Matrix.transpose_add, Matrix.transpose_smul, Matrix.transpose_transpose, h.symm.eq] at h2
  have h3 : dᵀ * (d * H - H * d) - (H * dᵀ - dᵀ * H) * d = 0 := by
    rw [h.eomd, h2, Matrix.mul_add, Matrix.add_mul, Matrix.mul_smul, Matrix.mul_smul, Matrix.smul_mul, Matrix.smul_mul, ← Matrix.mul_assoc dᵀ, ← h.NM.eq, Matrix.mul_assoc (cᵀ * c)]
    abel
  rw [Commute, SemiconjBy, ← sub_eq_zero, ← h3, Matrix.mul_sub, Matrix.sub_mul]
  simp only [Matrix.mul_assoc]
  abel

theorem upper (h : AtomPair H c d e e' U) : c * (dᵀ * d) * H - H * (c * (dᵀ * d)) = (e + U) • (c * (dᵀ * d)) := by
  have h1 : c * (dᵀ * d) * H - H * (c * (dᵀ * d)) = (c * H - H * c) * (dᵀ * d) := by
    rw [Matrix.sub_mul, Matrix.mul_assoc c, h.MH.eq, Matrix.mul_assoc H c, Matrix.mul_assoc c H]
  rw [h1, h.eomc, Matrix.add_mul, Matrix.smul_mul, Matrix.smul_mul, Matrix.mul_assoc c, h.idem, add_smul]

theorem lower (h : AtomPair H c d e e' U) : (c - c * (dᵀ * d)) * H - H * (c - c * (dᵀ * d)) = e • (c - c * (dᵀ * d)) := by
  rw [Matrix.sub_mul, Matrix.mul_sub, sub_sub_sub_comm, h.upper, h.eomc]
  module

/-- Probability weights: singly occupied against empty, doubly occupied against singly occupied. -/
theorem balance_lower (h : AtomPair H c d e e' U) {V : Matrix ι ι ℝ} {E : ι → ℝ} (hd : Diag H V E) (β : ℝ) :
    trace (gibbsOp β H * (cᵀ * c * (1 - dᵀ * d))) = Real.exp (-β * e) * trace (gibbsOp β H * ((1 - cᵀ * c) * (1 - dᵀ * d))) := by
  have hP : (1 - dᵀ * d) * (1 - dᵀ * d) = 1 - dᵀ * d := by rw [Matrix.mul_sub, Matrix.sub_mul, Matrix.sub_mul, h.idem]; simp
  have hcP : Commute c (1 - dᵀ * d) := (Commute.one_right _).sub_right h.cM
  have hγ : c - c * (dᵀ * d) = c * (1 - dᵀ * d) := by rw [Matrix.mul_sub, Matrix.mul_one]
  have ht : (c * (1 - dᵀ * d))ᵀ = (1 - dᵀ * d) * cᵀ := by simp [Matrix.transpose_mul]
  have hcP' : Commute cᵀ (1 - dᵀ * d) := (Commute.one_right _).sub_right h.creM
  have hl := h.lower
  rw [hγ] at hl
  have := ladder_balance hd hl β
  rw [ht] at this
  have e1 : (1 - dᵀ * d) * cᵀ * (c * (1 - dᵀ * d)) = cᵀ * c * (1 - dᵀ * d) := by
    rw [← hcP'.eq, hcP.eq, Matrix.mul_assoc, ← Matrix.mul_assoc (1 - dᵀ * d), hP, ← hcP.eq, Matrix.mul_assoc]
  have e2 : c * (1 - dᵀ * d) * ((1 - dᵀ * d) * cᵀ) = (1 - cᵀ * c) * (1 - dᵀ * d) := by
    rw [Matrix.mul_assoc, ← Matrix.mul_assoc (1 - dᵀ * d), hP, ← hcP'.eq, ← Matrix.mul_assoc, eq_sub_of_add_eq h.antic]
  rw [e1, e2] at this
  exact this

theorem balance_upper (h : AtomPair H c d e e' U) {V : Matrix ι ι ℝ} {E : ι → ℝ} (hd : Diag H V E) (β : ℝ) :
    trace (gibbsOp β H * (cᵀ * c * (dᵀ * d))) = Real.exp (-β * (e + U)) * trace (gibbsOp β H * ((1 - cᵀ * c) * (dᵀ * d))) := by
  have ht : (c * (dᵀ * d))ᵀ = dᵀ * d * cᵀ := by simp [Matrix.transpose_mul]
  have := ladder_balance hd h.upper β
  rw [ht] at this
  have e1 : dᵀ * d * cᵀ * (c * (dᵀ * d)) = cᵀ * c * (dᵀ * d) := by
    rw [← h.creM.eq, h.cM.eq, Matrix.mul_assoc, ← Matrix.mul_assoc (dᵀ * d), h.idem, ← h.cM.eq, Matrix.mul_assoc]
  have e2 : c * (dᵀ * d) * (dᵀ * d * cᵀ) = (1 - cᵀ * c) * (dᵀ * d) := by
    rw [Matrix.mul_assoc, ← Matrix.mul_assoc (dᵀ * d), h.idem, ← h.creM.eq, ← Matrix.mul_assoc, eq_sub_of_add_eq h.antic]
  rw [e1, e2] at this
  exact this

theorem occ (h : AtomPair H c d e e' U) {V : Matrix ι ι ℝ} {E : ι → ℝ} (hd : Diag H V E) [Nonempty ι] (β : ℝ) :
    thermal β H (cplx (cᵀ * c)) = (atomicOcc β e e' U : ℝ) := by
  have hpos : 0 < trace (gibbsOp β H) := by
    rw [hd.gibbsOp β, Matrix.mul_assoc, Matrix.trace_mul_comm, Matrix.mul_assoc, hd.left, Matrix.mul_one, Matrix.trace_diagonal]
    exact Finset.sum_pos (fun a _ => Real.exp_pos _) Finset.univ_nonempty
  have h1 := h.balance_lower hd β
  have h2 := h.swap.balance_lower hd β
  have h3 := h.balance_upper hd β
  rw [show dᵀ * d * (1 - cᵀ * c) = (1 - cᵀ * c) * (dᵀ * d) by rw [Matrix.mul_sub, Matrix.sub_mul, h.NM.eq, Matrix.one_mul, Matrix.mul_one],
    show (1 - dᵀ * d) * (1 - cᵀ * c) = (1 - cᵀ * c) * (1 - dᵀ * d) by simp only [Matrix.mul_sub, Matrix.sub_mul, h.NM.eq, Matrix.one_mul, Matrix.mul_one]; abel] at h2
  set N := cᵀ * c
  set M := dᵀ * d
  have h4 : trace (gibbsOp β H) = trace (gibbsOp β H * ((1 - N) * (1 - M))) + trace (gibbsOp β H * (N * (1 - M))) + trace (gibbsOp β H * ((1 - N) * M)) + trace (gibbsOp β H * (N * M)) := by
    rw [← Matrix.trace_add, ← Matrix.trace_add, ← Matrix.trace_add, ← Matrix.mul_add, ← Matrix.mul_add, ← Matrix.mul_add]
    congr 1
    conv_lhs => rw [← Matrix.mul_one (gibbsOp β H)]
    congr 1
    simp only [Matrix.mul_sub, Matrix.sub_mul, Matrix.one_mul, Matrix.mul_one]; abel
  have h5 : trace (gibbsOp β H * N) = trace (gibbsOp β H * (N * (1 - M))) + trace (gibbsOp β H * (N * M)) := by
    rw [← Matrix.trace_add, ← Matrix.mul_add, ← Matrix.mul_add, sub_add_cancel, Matrix.mul_one]
  rw [thermal_real]
  congr 1
  unfold atomicOcc
  have hx := Real.exp_pos (-β * e)
  have hy := Real.exp_pos (-β * e')
  have hw := Real.exp_pos (-β * (e + e' + U))
  have e3 : Real.exp (-β * (e + e' + U)) = Real.exp (-β * (e + U)) * Real.exp (-β * e') := by rw [← Real.exp_add]; ring_nf
  rw [h2] at h3
  rw [← mul_assoc (Real.exp _), ← e3] at h3
  rw [h1, h2, h3] at h4
  rw [h1, h3] at h5
  rw [div_eq_div_iff hpos.ne' (by positivity), h5, h4]
  ring

theorem isGreen (h : AtomPair H c d e e' U) {V : Matrix ι ι ℝ} {E : ι → ℝ} (hd : Diag H V E) [Nonempty ι] (β : ℝ) {z : ℂ} (hz : z.im ≠ 0) :
    IsGreen β H c cᵀ z (atomicGreen β e e' U z) := by
  have hz1 : z - e ≠ 0 := fun h0 => hz (by simpa using congrArg Complex.im h0)
  have hz2 : z - e - U ≠ 0 := fun h0 => hz (by simpa using congrArg Complex.im h0)
  have hmul : ∀ A B : Matrix ι ι ℝ, cplx (A * B) = cplx A * cplx B := fun A B => Matrix.map_mul (f := Complex.ofRealHom)
  refine ⟨(z - e)⁻¹ • cplx (c - c * (dᵀ * d)) + (z - e - U)⁻¹ • cplx (c * (dᵀ * d)), ?_, ?_⟩
  · have h1 := congrArg cplx h.lower
    have h2 := congrArg cplx h.upper
    rw [cplx_sub', hmul, hmul, cplx_smul] at h1
    rw [cplx_sub', hmul _ H, hmul H, cplx_smul] at h2
    set P := cplx (c - c * (dᵀ * d)) with hP
    set Q := cplx (c * (dᵀ * d)) with hQ
    have h3 : cplx c = P + Q := by rw [hP, hQ, ← cplx_add', sub_add_cancel]
    rw [h3, Matrix.add_mul, Matrix.mul_add, Matrix.smul_mul, Matrix.smul_mul, Matrix.mul_smul, Matrix.mul_smul, add_sub_add_comm, ← smul_sub, ← smul_sub, h1, h2, smul_add, smul_smul, smul_smul, smul_smul, smul_smul,
      add_sub_add_comm, ← sub_smul, ← sub_smul]
    have e1 : z * (z - e)⁻¹ - (z - e)⁻¹ * (e : ℂ) = 1 := by field_simp
    have e2 : z * (z - e - U)⁻¹ - (z - e - U)⁻¹ * ((e + U : ℝ) : ℂ) = 1 := by push_cast; field_simp; ring
    rw [e1, e2, one_smul, one_smul]
  · have e1 : (c - c * (dᵀ * d)) * cᵀ + cᵀ * (c - c * (dᵀ * d)) = 1 - dᵀ * d := by
      have : (c - c * (dᵀ * d)) * cᵀ + cᵀ * (c - c * (dᵀ * d)) = (c * cᵀ + cᵀ * c) * (1 - dᵀ * d) := by
        rw [Matrix.sub_mul, Matrix.mul_assoc c, ← h.creM.eq]
        simp only [Matrix.mul_assoc, Matrix.mul_sub, Matrix.add_mul, Matrix.mul_one]; abel
      rw [this, h.antic, Matrix.one_mul]
    have e2 : c * (dᵀ * d) * cᵀ + cᵀ * (c * (dᵀ * d)) = dᵀ * d := by
      have : c * (dᵀ * d) * cᵀ + cᵀ * (c * (dᵀ * d)) = (c * cᵀ + cᵀ * c) * (dᵀ * d) := by
        rw [Matrix.mul_assoc c, ← h.creM.eq, Matrix.add_mul]
        simp only [Matrix.mul_assoc]
      rw [this, h.antic, Matrix.one_mul]
    have e3 : ((z - e)⁻¹ • cplx (c - c * (dᵀ * d)) + (z - e - U)⁻¹ • cplx (c * (dᵀ * d))) * cplx cᵀ + cplx cᵀ * ((z - e)⁻¹ • cplx (c - c * (dᵀ * d)) + (z - e - U)⁻¹ • cplx (c * (dᵀ * d))) =
        (z - e)⁻¹ • cplx (1 - dᵀ * d) + (z - e - U)⁻¹ • cplx (dᵀ * d) := by
      have f1 := congrArg cplx e1
      have f2 := congrArg cplx e2
      rw [cplx_add', hmul _ cᵀ, hmul cᵀ] at f1 f2
      rw [← f1, ← f2]
      simp only [Matrix.add_mul, Matrix.mul_add, Matrix.smul_mul, Matrix.mul_smul, smul_add]
      abel
    have h1 : thermal β H (cplx (1 : Matrix ι ι ℝ)) = 1 := by
      have hpos : 0 < trace (gibbsOp β H) := by
        rw [hd.gibbsOp β, Matrix.mul_assoc, Matrix.trace_mul_comm, Matrix.mul_assoc, hd.left, Matrix.mul_one, Matrix.trace_diagonal]
        exact Finset.sum_pos (fun a _ => Real.exp_pos _) Finset.univ_nonempty
      rw [thermal_real, Matrix.mul_one, div_self hpos.ne', Complex.ofReal_one]
    rw [e3, thermal_add, thermal_smul, thermal_smul, h.swap.occ hd β, show (1 : Matrix ι ι ℝ) - dᵀ * d = 1 + (-1 : ℝ) • (dᵀ * d) by module, cplx_add', thermal_add, cplx_smul, thermal_smul, h1, h.swap.occ hd β]
    unfold atomicGreen
    push_cast
    field_simp
    ring

end AtomPair

end

variable {junk : ℕ} {es : Espace (ℕ × ℕ)} {egs beta : ℝ}

theorem HamArgs.Isolated.pair {a : HamArgs} {i : Fin a.n} (h : a.Isolated i) (hs : a.ham.IsSymm) (s : Bool) :
    AtomPair a.ham (ann ℝ (orb s i)) (ann ℝ (orb (!s) i)) (a.siteLevel s i) (a.siteLevel (!s) i) (a.V.U.getD 0 i i) where
  symm := hs
  antic := by have := ann_cre_anticomm (R := ℝ) (orb s i) (orb s i); rwa [if_pos rfl] at this
  cc := ann_sq_zero _
  antid := by have := ann_cre_anticomm (R := ℝ) (orb (!s) i) (orb (!s) i); rwa [if_pos rfl] at this
  dd := ann_sq_zero _
  cM := ann_num_comm (by simp)
  dN := ann_num_comm (by simp)
  NM := num_mul_comm _ _
  eomc := h.eom s
  eomd := by have := h.eom (!s); rwa [Bool.not_not] at this

/-- **C112** `build_gf2_exact`: the diagonal Green function of an isolated site is that of a single level. -/
theorem C112_gf2_exact {a : HamArgs} (ha : a.Valid) (hes : EigenEspace a.n a.ham es) {i : Fin a.n} (h : a.Isolated i) (s : Bool) :
    ∃ G, buildGf2Exact junk a.n es beta egs s = .ok G ∧ ∀ e eta : ℝ, eta ≠ 0 →
      (G i i).call e eta = atomicGreen beta (a.siteLevel s i) (a.siteLevel (!s) i) (a.V.U.getD 0 i i) (e + Complex.I * eta) := by
  obtain ⟨G, h1, h2⟩ := C93_gf2_exact (junk := junk) (beta := beta) (egs := egs) ha.le hes s
  refine ⟨G, h1, fun e eta he => ((h2 i i e eta he _).mp ?_).symm⟩
  have hd := hes.basis.diag (Fintype.equivOfCardEq hes.basis.card.symm)
  exact (h.pair hes.basis.symm s).isGreen hd beta (by simpa using he)

/-- **C112** `build_gf_exact` (spin up). -/
theorem C112_gf_exact {a : HamArgs} (ha : a.Valid) (hes : EigenEspace a.n a.ham es) {i : Fin a.n} (h : a.Isolated i) :
    ∃ g, buildGfExact junk a.n es beta egs i false = .ok g ∧ ∀ e eta : ℝ, eta ≠ 0 →
      g.call e eta = atomicGreen beta (a.siteLevel false i) (a.siteLevel true i) (a.V.U.getD 0 i i) (e + Complex.I * eta) := by
  obtain ⟨g, h1, h2⟩ := C92_gf_exact (junk := junk) (beta := beta) (egs := egs) ha.le hes i.2
  refine ⟨g, h1, fun e eta he => ((h2 e eta he _).mp ?_).symm⟩
  have hd := hes.basis.diag (Fintype.equivOfCardEq hes.basis.card.symm)
  exact (h.pair hes.basis.symm false).isGreen hd beta (by simpa using he)

theorem HamArgs.Isolated.occ {a : HamArgs} {i : Fin a.n} (h : a.Isolated i) (hes : EigenEspace a.n a.ham es) (s : Bool) :
    thermalOcc beta a.ham s i = (atomicOcc beta (a.siteLevel s i) (a.siteLevel (!s) i) (a.V.U.getD 0 i i) : ℝ) := by
  have hd := hes.basis.diag (Fintype.equivOfCardEq hes.basis.card.symm)
  exact (h.pair hes.basis.symm s).occ hd beta

/-- **C112** `get_occupation`: the occupations of an isolated site are those of a single level. -/
theorem C112_occupation {a : HamArgs} {i : Fin a.n} (h : a.Isolated i) (hes : EigenEspace a.n a.ham es) {occ : List OccSct} (hocc : List.Forall₂ OccView es occ) :
    ∃ U D As, getOccupation occ egs beta a.n = .ok (U, D, As) ∧
      U i = atomicOcc beta (a.siteLevel false i) (a.siteLevel true i) (a.V.U.getD 0 i i) ∧ D i = atomicOcc beta (a.siteLevel true i) (a.siteLevel false i) (a.V.U.getD 0 i i) := by
  obtain ⟨U, D, As, h1, h2⟩ := C101_get_occupation hes hocc egs beta
  exact ⟨U, D, As, h1, Complex.ofReal_injective ((h2 i).1.trans (h.occ hes false)), Complex.ofReal_injective ((h2 i).2.trans (h.occ hes true))⟩

/-- Three sites: an isolated one with repulsion 4 and a level at -1, and a bond. -/
def atomBondArgs : HamArgs := ⟨3, fun _ i j => if i = j then (if i = 0 then -1 else 0) else if i = 0 ∨ j = 0 then 0 else 1, .array fun i j => if i = j then 4 else 0, none, false, 0⟩

theorem atomBondArgs_valid : atomBondArgs.Valid := by
  refine ⟨by simp [atomBondArgs], by simp [atomBondArgs], rfl, ?_, by simp [atomBondArgs, VArg.array], by simp [atomBondArgs, VArg.array], by simp [atomBondArgs, VArg.array]⟩
  intro s i j _ _
  simp only [atomBondArgs]
  by_cases h : i = j
  · subst h; rfl
  · rw [if_neg h, if_neg (Ne.symm h)]
    exact if_congr or_comm rfl rfl

theorem atomBondArgs_isolated : atomBondArgs.Isolated (0 : Fin 3) := by
  refine ⟨fun s (j : Fin 3) hj => ?_, fun (j : Fin 3) hj => ?_, rfl, rfl⟩
  · have : (j : ℕ) ≠ 0 := fun h => hj (Fin.ext h)
    simp [atomBondArgs, Ne.symm this]
  · have : (j : ℕ) ≠ 0 := fun h => hj (Fin.ext h)
    simp [atomBondArgs, VArg.array, this, Ne.symm this]

/-- At inverse temperature 1 the occupation of the isolated site is `(e + e^(-2))/(1 + 2e + e^(-2))`. -/
example : ∃ es occ U D As, List.Forall₂ OccView es occ ∧ getOccupation occ 0 1 3 = .ok (U, D, As) ∧ U 0 = (Real.exp 1 + Real.exp (-2)) / (1 + Real.exp 1 + Real.exp 1 + Real.exp (-2)) := by
  obtain ⟨es, hes⟩ := eigenEspace_exists atomBondArgs_valid
  have hview : List.Forall₂ OccView es (es.map fun p => OccSct.ofSct p.2) := by
    rw [List.forall₂_map_right_iff]
    exact List.forall₂_same.mpr fun p _ => OccSct.ofSct_view p
  obtain ⟨U, D, As, h1, h2, h3⟩ := C112_occupation (egs := 0) (beta := 1) atomBondArgs_isolated hes hview
  refine ⟨es, _, U, D, As, hview, h1, h2.trans ?_⟩
  unfold atomicOcc HamArgs.siteLevel
  norm_num [atomBondArgs, VArg.array]

end Edpyt
