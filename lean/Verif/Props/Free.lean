import Verif.Proof.Eom
import Verif.Props.OccupationGf
import Verif.Props.Gf2Lanczos
import Verif.Spec.Resolvent
/-!
C106: without interaction, Green functions and occupations are those of the one-body matrix.
-/
namespace Edpyt
open Matrix Spec

section
variable {n : ℕ}

theorem cplx_kinetic (t : Bool → Fin n → Fin n → ℝ) : cplx (kinetic t) = kinetic fun s i j => (t s i j : ℂ) := by
  unfold kinetic
  simp only [cplx_sum, cplx_smul, cplx_mul', cplx_ann, cplx_cre]

/-- Without interaction the thermal Green functions are the elements of the resolvent, at every temperature. -/
theorem free_green {κ : Type} [Fintype κ] [DecidableEq κ] (t : Bool → Fin n → Fin n → ℝ) {u : κ → Finset (Fin (n + n)) → ℝ} {E : κ → ℝ}
    (hb : EigBasis (kinetic t) u E) (β : ℝ) (s : Bool) (i j : Fin n) {z : ℂ} {R : Matrix (Fin n) (Fin n) ℂ}
    (hR : R * (z • 1 - (Matrix.of (t s)).map Complex.ofReal) = 1) :
    IsGreen β (kinetic t) (ann ℝ (orb s i)) (cre ℝ (orb s j)) z (R i j) := by
  refine ⟨∑ k, R i k • ann ℂ (orb s k), ?_, ?_⟩
  · have h1 : (∑ k, R i k • ann ℂ (orb s k)) * cplx (kinetic t) - cplx (kinetic t) * (∑ k, R i k • ann ℂ (orb s k)) =
        ∑ j, (∑ k, R i k * (t s k j : ℂ)) • ann ℂ (orb s j) := by
      rw [cplx_kinetic, Matrix.sum_mul, Matrix.mul_sum, ← Finset.sum_sub_distrib]
      simp only [Matrix.smul_mul, Matrix.mul_smul, ← smul_sub, ann_comm_kinetic, Finset.smul_sum, smul_smul, Finset.sum_smul]
      exact Finset.sum_comm
    rw [h1, Finset.smul_sum, ← Finset.sum_sub_distrib, cplx_ann]
    have h2 : ∀ j, z • R i j • ann ℂ (orb s j) - (∑ k, R i k * (t s k j : ℂ)) • ann ℂ (orb s j) = (if i = j then (1 : ℂ) else 0) • ann ℂ (orb s j) := by
      intro j
      rw [smul_smul, ← sub_smul]
      congr 1
      have := congrFun (congrFun hR i) j
      rw [Matrix.mul_apply, Matrix.one_apply] at this
      rw [← this]
      simp only [Matrix.sub_apply, Matrix.smul_apply, Matrix.map_apply, Matrix.of_apply, smul_eq_mul, mul_sub, Finset.sum_sub_distrib, Matrix.one_apply,
        mul_ite, mul_one, mul_zero, Finset.sum_ite_eq', Finset.mem_univ, if_true]
      ring
    rw [Finset.sum_congr rfl fun j _ => h2 j]
    simp
  · have h1 : (∑ k, R i k • ann ℂ (orb s k)) * cplx (cre ℝ (orb s j)) + cplx (cre ℝ (orb s j)) * (∑ k, R i k • ann ℂ (orb s k)) = R i j • 1 := by
      rw [cplx_cre, Matrix.sum_mul, Matrix.mul_sum, ← Finset.sum_add_distrib]
      simp only [Matrix.smul_mul, Matrix.mul_smul, ← smul_add, ann_cre_anticomm, orb_inj, true_and]
      simp
    rw [h1, thermal_smul, gibbs_trace_pos hb, mul_one]

/-- The resolvent of a symmetric matrix exists off the real axis. -/
theorem resolvent_mul {ι : Type} [Fintype ι] [DecidableEq ι] {h : Matrix ι ι ℝ} (hh : h.IsSymm) {z : ℂ} (hz : z.im ≠ 0) :
    resolvent z h * (z • 1 - h.map Complex.ofReal) = 1 := by
  refine Matrix.nonsing_inv_mul _ (isUnit_iff_ne_zero.mpr fun h0 => ?_)
  obtain ⟨v, hv, hzero⟩ := Matrix.exists_mulVec_eq_zero_iff.mpr h0
  rw [Matrix.sub_mulVec, Matrix.smul_mulVec, Matrix.one_mulVec] at hzero
  have h1 : z * (star v ⬝ᵥ v) = star v ⬝ᵥ (h.map Complex.ofReal *ᵥ v) := by
    rw [← smul_eq_mul, ← dotProduct_smul, sub_eq_zero.mp hzero]
  have r1 : (star v ⬝ᵥ v).im = 0 := by
    have : star (star v ⬝ᵥ v) = star v ⬝ᵥ v := (Matrix.star_dotProduct v v).symm
    exact Complex.conj_eq_iff_im.mp this
  have r2 : (star v ⬝ᵥ (h.map Complex.ofReal *ᵥ v)).im = 0 := by
    have hH : (h.map Complex.ofReal)ᴴ = h.map Complex.ofReal := by
      ext i j
      simp only [Matrix.conjTranspose_apply, Matrix.map_apply, Complex.star_def, Complex.conj_ofReal, hh.apply]
    have : star (star v ⬝ᵥ (h.map Complex.ofReal *ᵥ v)) = star v ⬝ᵥ (h.map Complex.ofReal *ᵥ v) := by
      rw [← Matrix.star_dotProduct, Matrix.star_mulVec, hH, ← Matrix.dotProduct_mulVec]
    exact Complex.conj_eq_iff_im.mp this
  have h2 := congrArg Complex.im h1
  rw [Complex.mul_im, r1, r2, mul_zero, zero_add] at h2
  have h3 : star v ⬝ᵥ v = 0 := Complex.ext ((mul_eq_zero.mp h2).resolve_left hz) r1
  exact hv (by open ComplexOrder in exact dotProduct_star_self_eq_zero.mp h3)

/-- `[γ, H] = ε γ` gives `γ e^{-βH} = e^{-βε} e^{-βH} γ`. -/
theorem ladder_gibbs {ι : Type} [Fintype ι] [DecidableEq ι] {H U γ : Matrix ι ι ℝ} {E : ι → ℝ} (h : Diag H U E) {ε : ℝ} (hγ : γ * H - H * γ = ε • γ) (β : ℝ) :
    γ * gibbsOp β H = Real.exp (-β * ε) • (gibbsOp β H * γ) := by
  set Γ := Uᵀ * γ * U with hΓ
  have hg : γ = U * Γ * Uᵀ := by
    rw [hΓ]
    calc γ = (U * Uᵀ) * γ * (U * Uᵀ) := by rw [h.right, Matrix.one_mul, Matrix.mul_one]
      _ = _ := by simp only [Matrix.mul_assoc]
  have h1 : Γ * diagonal E - diagonal E * Γ = ε • Γ := by
    have := congrArg (fun M => Uᵀ * M * U) hγ
    simp only [Matrix.mul_sub, Matrix.sub_mul, Matrix.mul_smul, Matrix.smul_mul] at this
    rw [← hΓ] at this
    rw [← this, h.diag]
    congr 1
    · calc Γ * diagonal E = Uᵀ * γ * U * diagonal E * (Uᵀ * U) := by rw [h.left, Matrix.mul_one]
        _ = _ := by simp only [Matrix.mul_assoc]
    · calc diagonal E * Γ = (Uᵀ * U) * diagonal E * (Uᵀ * γ * U) := by rw [h.left, Matrix.one_mul]
        _ = _ := by simp only [Matrix.mul_assoc]
  have h2 : Γ * diagonal (fun i => Real.exp (-β * E i)) = Real.exp (-β * ε) • (diagonal (fun i => Real.exp (-β * E i)) * Γ) := by
    ext x y
    have := congrFun (congrFun h1 x) y
    simp only [Matrix.sub_apply, Matrix.mul_diagonal, Matrix.diagonal_mul, Matrix.smul_apply, smul_eq_mul] at this ⊢
    by_cases h0 : Γ x y = 0
    · simp [h0]
    · have e : E y = E x + ε := mul_left_cancel₀ h0 (by linear_combination this)
      rw [e, ← mul_assoc, ← Real.exp_add, mul_comm]
      congr 2
      ring
  rw [h.gibbsOp β, hg]
  calc U * Γ * Uᵀ * (U * diagonal (fun i => Real.exp (-β * E i)) * Uᵀ) = U * (Γ * (Uᵀ * U) * diagonal (fun i => Real.exp (-β * E i))) * Uᵀ := by
        simp only [Matrix.mul_assoc]
    _ = Real.exp (-β * ε) • (U * (diagonal (fun i => Real.exp (-β * E i)) * (Uᵀ * U) * Γ) * Uᵀ) := by
        rw [h.left, Matrix.mul_one, Matrix.mul_one, h2, Matrix.mul_smul, Matrix.smul_mul]
    _ = _ := by simp only [Matrix.mul_assoc]

theorem thermal_real {ι : Type} [Fintype ι] [DecidableEq ι] (β : ℝ) (H A : Matrix ι ι ℝ) :
    thermal β H (cplx A) = ((trace (gibbsOp β H * A) / trace (gibbsOp β H) : ℝ) : ℂ) := by
  unfold thermal
  rw [← cplx_mul']
  have : ∀ M : Matrix ι ι ℝ, trace (cplx M) = ((trace M : ℝ) : ℂ) := fun M => by simp [cplx, Matrix.trace]
  rw [this, this]
  push_cast; rfl

/-- Without interaction the thermal occupations are sums of Fermi functions of the one-body levels. -/
theorem free_occ {κ μ : Type} [Fintype κ] [DecidableEq κ] [Fintype μ] [DecidableEq μ] (t : Bool → Fin n → Fin n → ℝ) {u : κ → Finset (Fin (n + n)) → ℝ} {E : κ → ℝ}
    (hb : EigBasis (kinetic t) u E) (β : ℝ) (s : Bool) {φ : μ → Fin n → ℝ} {ε : μ → ℝ} (hφ : EigBasis (Matrix.of (t s)) φ ε) (k : Fin n) :
    thermalOcc β (kinetic t) s k = ((∑ a, φ a k ^ 2 * fermiOcc β (ε a) : ℝ) : ℂ) := by
  let e : Finset (Fin (n + n)) ≃ κ := Fintype.equivOfCardEq hb.card.symm
  have hd := hb.diag e
  set γ : μ → Matrix (Finset (Fin (n + n))) (Finset (Fin (n + n))) ℝ := fun a => ∑ i, φ a i • ann ℝ (orb s i) with hγ
  set ρ := gibbsOp β (kinetic t) with hρ
  have hcomm : ∀ a, γ a * kinetic t - kinetic t * γ a = ε a • γ a := by
    intro a
    rw [hγ]
    simp only [Matrix.sum_mul, Matrix.mul_sum, ← Finset.sum_sub_distrib, Matrix.smul_mul, Matrix.mul_smul, ← smul_sub, ann_comm_kinetic, Finset.smul_sum, smul_smul]
    rw [Finset.sum_comm]
    refine Finset.sum_congr rfl fun j _ => ?_
    rw [← Finset.sum_smul]
    congr 1
    have := congrFun (hφ.eig a) j
    rw [Pi.smul_apply, smul_eq_mul] at this
    rw [← this]
    simp only [Matrix.mulVec, dotProduct, Matrix.of_apply]
    refine Finset.sum_congr rfl fun i _ => ?_
    have hs : t s i j = t s j i := hφ.symm.apply j i
    rw [hs, mul_comm]
  have hanti : ∀ a b, γ b * (γ a)ᵀ + (γ a)ᵀ * γ b = (if a = b then (1 : ℝ) else 0) • (1 : Matrix (Finset (Fin (n + n))) (Finset (Fin (n + n))) ℝ) := by
    intro a b
    have : ∀ i : Fin n, (ann ℝ (orb s i))ᵀ = cre ℝ (orb s i) := fun _ => rfl
    rw [hγ]
    simp only [Matrix.transpose_sum, Matrix.transpose_smul, this, Matrix.sum_mul, Matrix.mul_sum, Matrix.smul_mul, Matrix.mul_smul]
    simp only [Finset.smul_sum]
    rw [Finset.sum_comm (f := fun x y => φ a x • φ b y • (ann ℝ (orb s y) * cre ℝ (orb s x))), ← Finset.sum_add_distrib]
    have h1 : ∀ x, (∑ y, φ a y • φ b x • (ann ℝ (orb s x) * cre ℝ (orb s y)) + ∑ y, φ b x • φ a y • (cre ℝ (orb s y) * ann ℝ (orb s x))) =
        (φ a x * φ b x) • (1 : Matrix (Finset (Fin (n + n))) (Finset (Fin (n + n))) ℝ) := by
      intro x
      rw [← Finset.sum_add_distrib, Finset.sum_eq_single x]
      · rw [smul_comm (φ b x) (φ a x), ← smul_add, ← smul_add, ann_cre_anticomm, if_pos rfl, smul_smul]
      · intro y _ hy
        rw [smul_comm (φ b x) (φ a y), ← smul_add, ← smul_add, ann_cre_anticomm, if_neg (by rw [orb_inj]; exact fun h => hy h.2.symm), smul_zero, smul_zero]
      · simp
    rw [Finset.sum_congr rfl fun x _ => h1 x, ← Finset.sum_smul]
    congr 1
    exact hφ.orth a b
  have hpos : 0 < trace ρ := by
    rw [hρ, hd.gibbsOp β, Matrix.mul_assoc, Matrix.trace_mul_comm, Matrix.mul_assoc, hd.left, Matrix.mul_one, Matrix.trace_diagonal]
    exact Finset.sum_pos (fun a _ => Real.exp_pos _) ⟨∅, Finset.mem_univ _⟩
  have htr : ∀ a b, trace (ρ * ((γ a)ᵀ * γ b)) = if a = b then fermiOcc β (ε a) * trace ρ else 0 := by
    intro a b
    have h1 : trace (ρ * ((γ a)ᵀ * γ b)) = Real.exp (-β * ε b) * trace (ρ * (γ b * (γ a)ᵀ)) := by
      rw [← Matrix.mul_assoc, Matrix.trace_mul_comm, ← Matrix.mul_assoc, ladder_gibbs hd (hcomm b) β, Matrix.smul_mul, Matrix.trace_smul, smul_eq_mul, Matrix.mul_assoc]
    have h2 : trace (ρ * (γ b * (γ a)ᵀ)) + trace (ρ * ((γ a)ᵀ * γ b)) = if a = b then trace ρ else 0 := by
      rw [← Matrix.trace_add, ← Matrix.mul_add, hanti, Matrix.mul_smul, Matrix.mul_one, Matrix.trace_smul, smul_eq_mul]
      split_ifs <;> simp
    have hp := Real.exp_pos (-β * ε b)
    split_ifs at h2 ⊢ with hab
    · subst hab
      have h3 : (1 + Real.exp (-β * ε a)) * trace (ρ * ((γ a)ᵀ * γ a)) = Real.exp (-β * ε a) * trace ρ := by
        rw [← h2]; linear_combination h1
      unfold fermiOcc
      have e2 : Real.exp (β * ε a) * Real.exp (-β * ε a) = 1 := by rw [← Real.exp_add]; simp
      have hq := Real.exp_pos (β * ε a)
      rw [div_mul_eq_mul_div, one_mul, eq_div_iff (by positivity)]
      linear_combination (Real.exp (β * ε a)) * h3 + (trace ρ - trace (ρ * ((γ a)ᵀ * γ a))) * e2
    · have h3 : (1 + Real.exp (-β * ε b)) * trace (ρ * ((γ a)ᵀ * γ b)) = 0 := by linear_combination h1 + Real.exp (-β * ε b) * h2
      exact (mul_eq_zero.mp h3).resolve_left (by positivity)
  have hexp : ann ℝ (orb s k) = ∑ a, φ a k • γ a := by
    have h0 := hφ.expand (Pi.single k 1)
    have h1 : ∀ i, ∑ a, φ a k * φ a i = if i = k then 1 else 0 := by
      intro i
      have := congrFun h0 i
      simp only [Finset.sum_apply, Pi.smul_apply, smul_eq_mul, dotProduct_single, mul_one, Pi.single_apply] at this
      exact this
    rw [hγ]
    simp only [Finset.smul_sum, smul_smul]
    rw [Finset.sum_comm]
    simp only [← Finset.sum_smul, h1]
    simp
  unfold thermalOcc
  rw [thermal_real]
  congr 1
  rw [div_eq_iff hpos.ne', num, show cre ℝ (orb s k) = (ann ℝ (orb s k))ᵀ from rfl, hexp]
  simp only [Matrix.transpose_sum, Matrix.transpose_smul, Matrix.sum_mul, Matrix.mul_sum, Matrix.smul_mul, Matrix.mul_smul, Matrix.trace_sum, Matrix.trace_smul, smul_eq_mul]
  rw [Finset.sum_mul]
  refine Finset.sum_congr rfl fun a _ => ?_
  have e3 : ∀ a b, trace (gibbsOp β (kinetic t) * ((γ a)ᵀ * γ b)) = if a = b then fermiOcc β (ε a) * trace ρ else 0 := htr
  rw [Finset.sum_eq_single a]
  · rw [e3, if_pos rfl]; ring
  · intro b _ hb
    rw [e3, if_neg hb]; simp
  · simp

end

/-- No interaction: the interaction matrix is zero and there are no exchange terms. -/
structure HamArgs.Free (a : HamArgs) : Prop where
  U : ∀ i j, i < a.n → j < a.n → a.V.U.getD 0 i j = 0
  Jx : a.V.Jx = none
  Jp : a.V.Jp = none

/-- The one-body matrix that the code uses for spin `s`: diagonal elements plus `mu`, off-diagonal elements above `1e-7`. -/
noncomputable def HamArgs.oneBody (a : HamArgs) (s : Bool) : Matrix (Fin a.n) (Fin a.n) ℝ := Matrix.of (kept (n := a.n) a.mu (a.H (if s then 1 else 0)))

theorem HamArgs.oneBody_symm {a : HamArgs} (ha : a.Valid) (s : Bool) : (a.oneBody s).IsSymm := by
  ext i j
  simp only [HamArgs.oneBody, Matrix.transpose_apply, Matrix.of_apply, kept_apply]
  rw [ha.symmH _ j i j.2 i.2]
  by_cases h : i = j
  · rw [h]
  · rw [if_neg h, if_neg (Ne.symm h)]

theorem HamArgs.Free.ham {a : HamArgs} (h : a.Free) : a.ham = kinetic fun s i j => a.oneBody s i j := by
  unfold HamArgs.ham hubbard
  have h1 : onsiteU a.hf (fun i j : Fin a.n => a.V.U.getD 0 i j) = 0 := by
    unfold onsiteU
    exact Finset.sum_eq_zero fun i _ => by simp only [h.U _ _ i.2 i.2, zero_smul]
  have h2 : ∀ z, interSite z (fun i j : Fin a.n => a.V.U.getD 0 i j) = 0 := by
    intro z
    unfold interSite
    rw [Finset.sum_eq_zero fun i _ => Finset.sum_eq_zero fun j _ => by simp only [h.U _ _ i.2 j.2, ite_self, zero_smul], smul_zero]
  have h3 : codeExchange (n := a.n) a.V.Jx a.V.Jp = 0 := by
    have : ∀ i j : Fin a.n, offdiag (n := a.n) (optMat (K := ℝ) none) i j = 0 := by
      intro i j; simp [offdiag, optMat]
    unfold codeExchange exchangeSame exchangeFlip pairHopping
    rw [h.Jx, h.Jp]
    simp [this]
  rw [h1, h2, h3]
  simp only [add_zero]
  rfl

variable {junk : ℕ} {es : Espace (ℕ × ℕ)} {egs beta : ℝ}

/-- **C106** `build_gf_exact`: without interaction the Green function of every site is the diagonal element of the resolvent of the one-body matrix,
whatever the temperature and the reference energy. -/
theorem C106_gf_exact {a : HamArgs} (ha : a.Valid) (hf : a.Free) (hes : EigenEspace a.n a.ham es) (i : Fin a.n) :
    ∃ g, buildGfExact junk a.n es beta egs i false = .ok g ∧ ∀ e eta : ℝ, eta ≠ 0 → g.call e eta = resolvent (e + Complex.I * eta) (a.oneBody false) i i := by
  obtain ⟨g, h1, h2⟩ := C92_gf_exact (junk := junk) (beta := beta) (egs := egs) ha.le hes i.2
  refine ⟨g, h1, fun e eta he => ((h2 e eta he _).mp ?_).symm⟩
  have hb := hes.basis
  rw [hf.ham] at hb ⊢
  exact free_green _ hb beta false i i (resolvent_mul (HamArgs.oneBody_symm ha false) (by simpa using he))

/-- **C106** `build_gf2_exact`: both spins and all pairs of sites. -/
theorem C106_gf2_exact {a : HamArgs} (ha : a.Valid) (hf : a.Free) (hes : EigenEspace a.n a.ham es) (s : Bool) :
    ∃ G, buildGf2Exact junk a.n es beta egs s = .ok G ∧ ∀ i j : Fin a.n, ∀ e eta : ℝ, eta ≠ 0 →
      (G i j).call e eta = resolvent (e + Complex.I * eta) (a.oneBody s) i j := by
  obtain ⟨G, h1, h2⟩ := C93_gf2_exact (junk := junk) (beta := beta) (egs := egs) ha.le hes s
  refine ⟨G, h1, fun i j e eta he => ((h2 i j e eta he _).mp ?_).symm⟩
  have hb := hes.basis
  rw [hf.ham] at hb ⊢
  exact free_green _ hb beta s i j (resolvent_mul (HamArgs.oneBody_symm ha s) (by simpa using he))

/-- **C106** `build_gf_lanczos`: the same up to the error of the Lanczos runs, for both spins and both representations. -/
theorem C106_gf_lanczos {g : GfLArgs} (jk : ℝ) (ha : g.ham.Valid) (hf : g.ham.Free) (hw : g.ham.n ≤ g.w) (hc : g.cfg.Ok) (i : Fin g.ham.n) (hes : EigenEspace g.ham.n g.ham.ham es)
    {out : GfLOut} (hr : BuildGfLanczos g i false es (.ok out)) (e eta ε : ℝ) (he : eta ≠ 0) (h0 : 0 ≤ ε) (hε : ∀ run ∈ out.log, run.ResLe ε) :
    ‖out.gfe.call jk e eta - resolvent (e + Complex.I * eta) (g.ham.oneBody g.ispin) i i‖ ≤ ε / eta ^ 2 + 2 * (g.cfg.delta ^ 2 / |eta|) := by
  obtain ⟨out', e1, -, -, -, h⟩ := (C98_gf_lanczos jk ha hw hc i.2 hes false).2 _ hr
  injection e1 with e1; subst e1
  have him : (e + Complex.I * eta : ℂ).im ≠ 0 := by simpa using he
  obtain ⟨ge, gh, hp⟩ := greenParts_exist hes g.beta (ann ℝ (orb g.ispin i)) (cre ℝ (orb g.ispin i)) him
  have := h e eta ε he h0 hε ge gh hp
  rw [if_neg (by simp)] at this
  have hb := hes.basis
  have hres : IsGreen g.beta g.ham.ham (ann ℝ (orb g.ispin i)) (cre ℝ (orb g.ispin i)) (e + Complex.I * eta) (resolvent (e + Complex.I * eta) (g.ham.oneBody g.ispin) i i) := by
    rw [hf.ham] at hb ⊢
    exact free_green _ hb g.beta g.ispin i i (resolvent_mul (HamArgs.oneBody_symm ha g.ispin) him)
  rwa [(hes.basis.green g.beta _ _ him _).mp hres, ← (hes.basis.green g.beta _ _ him _).mp (IsGreenParts.isGreen hp)]

/-- **C106** `get_occupation`: without interaction the occupation of a site is the sum over the one-body levels of the weight on the site times the Fermi
function, for every orthonormal basis of one-body eigenvectors. -/
theorem C106_occupation {a : HamArgs} (hf : a.Free) (hes : EigenEspace a.n a.ham es) {occ : List OccSct} (hocc : List.Forall₂ OccView es occ)
    {μ : Type} [Fintype μ] [DecidableEq μ] {φu φd : μ → Fin a.n → ℝ} {εu εd : μ → ℝ} (hu : EigBasis (a.oneBody false) φu εu) (hd : EigBasis (a.oneBody true) φd εd) :
    ∃ U D As, getOccupation occ egs beta a.n = .ok (U, D, As) ∧ ∀ k : Fin a.n,
      U k = ∑ l, φu l k ^ 2 * fermiOcc beta (εu l) ∧ D k = ∑ l, φd l k ^ 2 * fermiOcc beta (εd l) := by
  obtain ⟨U, D, As, h1, h2⟩ := C101_get_occupation hes hocc egs beta
  refine ⟨U, D, As, h1, fun k => ?_⟩
  obtain ⟨h3, h4⟩ := h2 k
  have hb := hes.basis
  rw [hf.ham] at hb h3 h4
  rw [free_occ _ hb beta false hu k] at h3
  rw [free_occ _ hb beta true hd k] at h4
  exact ⟨by exact_mod_cast h3, by exact_mod_cast h4⟩

/-- Non-vacuity: two sites with hopping one and no interaction. -/
def freeArgs : HamArgs := ⟨2, fun _ i j => if i = j then 0 else 1, .array fun _ _ => 0, none, false, 0⟩

theorem freeArgs_valid : freeArgs.Valid := by
  refine ⟨le_refl 2, by simp [freeArgs], rfl, ?_, by simp [freeArgs, VArg.array], by simp [freeArgs, VArg.array], by simp [freeArgs, VArg.array]⟩
  intro s i j _ _
  simp only [freeArgs, eq_comm]

theorem freeArgs_free : freeArgs.Free := ⟨fun _ _ _ _ => rfl, rfl, rfl⟩

theorem freeArgs_eigenEspace : ∃ es, EigenEspace 2 freeArgs.ham es := by
  obtain ⟨l, hl, hlb⟩ := C25_default_neig freeArgs.n
  obtain ⟨⟨⟨es, e0⟩, h⟩, -⟩ := C25_build_espace_partial freeArgs_valid (w := 64) (by simp [freeArgs]) l hlb
  have h' : BuildEspace 64 freeArgs none (.ok (es, e0)) := by
    simp only [BuildEspace, hl]
    simpa only [BuildEspace, neigOrDefault] using h
  exact ⟨es, buildEspace_eigen freeArgs_valid (by simp [freeArgs]) h'⟩

theorem freeArgs_oneBody (s : Bool) : (freeArgs.oneBody s : Matrix (Fin 2) (Fin 2) ℝ) = !![0, 1; 1, 0] := by
  have h : ∀ i j : Fin 2, kept (n := 2) (0 : ℝ) (fun i j => if i = j then 0 else 1) i j = (!![0, 1; 1, 0] : Matrix (Fin 2) (Fin 2) ℝ) i j := by
    intro i j
    rw [kept_apply]
    fin_cases i <;> fin_cases j <;> norm_num
  exact funext fun i => funext fun j => h i j

theorem two_level_basis : EigBasis (!![0, 1; 1, 0] : Matrix (Fin 2) (Fin 2) ℝ) (fun (a : Fin 2) (i : Fin 2) => Real.sqrt (1 / 2) * if a = 1 ∧ i = 1 then -1 else 1) ![1, -1] := by
  have h2 : Real.sqrt (1 / 2) * Real.sqrt (1 / 2) = 1 / 2 := Real.mul_self_sqrt (by norm_num)
  refine ⟨rfl, fun a b => ?_, fun k => ?_⟩
  · rw [dotProduct, Fin.sum_univ_two]
    fin_cases a <;> fin_cases b <;> norm_num at h2 ⊢ <;> linarith
  · funext i
    rw [Matrix.mulVec, dotProduct, Fin.sum_univ_two]
    fin_cases k <;> fin_cases i <;> simp

theorem freeArgs_basis (s : Bool) :
    EigBasis (freeArgs.oneBody s) (fun (a : Fin 2) (i : Fin 2) => Real.sqrt (1 / 2) * if a = 1 ∧ i = 1 then -1 else 1) ![1, -1] :=
  (freeArgs_oneBody s).symm ▸ two_level_basis

/-- At `β = 1` the occupation of the first site is `(f(1) + f(-1))/2 = 1/2`, and the Green function is the resolvent. -/
example : ∃ es occ g U D As, List.Forall₂ OccView es occ ∧ buildGfExact junk 2 es 1 0 0 false = .ok g ∧
    g.call 1 (1 / 50) = Spec.resolvent (((1 : ℝ) : ℂ) + Complex.I * ((1 / 50 : ℝ) : ℂ)) (!![0, 1; 1, 0] : Matrix (Fin 2) (Fin 2) ℝ) 0 0 ∧
    getOccupation occ 0 1 2 = .ok (U, D, As) ∧ U 0 = 1 / 2 := by
  obtain ⟨es, hes⟩ := freeArgs_eigenEspace
  have hview : List.Forall₂ OccView es (es.map fun p => OccSct.ofSct p.2) := by
    rw [List.forall₂_map_right_iff]
    exact List.forall₂_same.mpr fun p _ => OccSct.ofSct_view p
  obtain ⟨g, h1, h2⟩ := C106_gf_exact (junk := junk) (beta := 1) (egs := 0) freeArgs_valid freeArgs_free hes (0 : Fin 2)
  obtain ⟨U, D, As, h3, h4⟩ := C106_occupation (egs := 0) (beta := 1) freeArgs_free hes hview (freeArgs_basis false) (freeArgs_basis true)
  refine ⟨es, _, g, U, D, As, hview, h1, ?_, h3, ?_⟩
  · rw [← freeArgs_oneBody false]; exact h2 1 (1 / 50) (by norm_num)
  have := (h4 (0 : Fin 2)).1
  rw [Fin.sum_univ_two] at this
  refine this.trans ?_
  have h5 : Real.sqrt (1 / 2) ^ 2 = 1 / 2 := Real.sq_sqrt (by norm_num)
  have h6 : fermiOcc 1 1 + fermiOcc 1 (-1) = 1 := by
    unfold fermiOcc
    have := Real.exp_pos 1
    rw [mul_one, one_mul, Real.exp_neg]
    field_simp
    ring
  simp
  rw [show (2 : ℝ)⁻¹ = 1 / 2 by norm_num]
  linarith

end Edpyt
