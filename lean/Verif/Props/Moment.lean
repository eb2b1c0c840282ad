import Verif.Proof.Moment
import Verif.Props.SolveHot
/-!
# C129: the high-frequency tail of the Green function and the Hartree limit of the self-energy
-/
namespace Edpyt
open Spec Matrix Filter Topology

variable {es : Espace (ℕ × ℕ)} {junk : ℕ} {beta egs : ℝ}

/-! ## Specification -/

/-- The mean-field level of an electron of spin `s` on site `i`: the on-site energy, the repulsion by the other spin on the site, and the repulsion by the
other sites, with `nu` and `nd` the occupations. -/
noncomputable def Spec.hartreeLevel (a : HamArgs) (nu nd : ℕ → ℝ) (s : Bool) (i : ℕ) : ℝ :=
  a.H (if s then 1 else 0) i i + a.mu + a.V.U.getD 0 i i * ((if s then nu i else nd i) - if a.hf then 1 / 2 else 0) +
    ∑ j ∈ Finset.range a.n, if i ≠ j then 1 / 2 * (a.V.U.getD 0 i j + a.V.U.getD 0 j i) * (nu j + nd j - a.z.getD (fun _ => if a.hf then 1 else 0) j) else 0

/-! ## The moment of the Hamiltonian -/

theorem codeExchange_none {n : ℕ} : codeExchange (K := ℝ) (n := n) none none = 0 := by
  have : ∀ i j : Fin n, offdiag (n := n) (optMat (K := ℝ) none) i j = 0 := by
    intro i j; simp [offdiag, optMat]
  unfold codeExchange exchangeSame exchangeFlip pairHopping
  simp [this]

theorem ham_moment {a : HamArgs} (hx : a.V.Jx = none) (hp : a.V.Jp = none) (s : Bool) (i : Fin a.n) :
    (ann ℝ (orb s i) * a.ham - a.ham * ann ℝ (orb s i)) * cre ℝ (orb s i) + cre ℝ (orb s i) * (ann ℝ (orb s i) * a.ham - a.ham * ann ℝ (orb s i)) =
      (a.H (if s then 1 else 0) i i + a.mu - a.V.U.getD 0 i i * (if a.hf then 1 / 2 else 0) -
          ∑ j : Fin a.n, if i ≠ j then 1 / 2 * (a.V.U.getD 0 i j + a.V.U.getD 0 j i) * a.z.getD (fun _ => if a.hf then 1 else 0) j else 0) • (1 : Matrix _ _ ℝ) +
        a.V.U.getD 0 i i • num ℝ (orb (!s) i) +
        ∑ j : Fin a.n, (if i ≠ j then 1 / 2 * (a.V.U.getD 0 i j + a.V.U.getD 0 j i) else 0) • (num ℝ (orb false j) + num ℝ (orb true j)) := by
  have hd : a.ham = kinetic (fun s => kept (n := a.n) a.mu (a.H (if s then 1 else 0))) +
      Matrix.diagonal (fun S => onsiteVal a.hf (fun i j : Fin a.n => a.V.U.getD 0 i j) S +
        interVal (fun i : Fin a.n => (a.z.getD (fun _ => if a.hf then 1 else 0)) i) (fun i j => a.V.U.getD 0 i j) S) := by
    unfold HamArgs.ham hubbard
    rw [hx, hp, codeExchange_none, add_zero, onsiteU_diagonal, interSite_diagonal, add_assoc, Matrix.diagonal_add]
  rw [hd]
  generalize hK : kinetic (fun s => kept (n := a.n) a.mu (a.H (if s then 1 else 0))) = K
  generalize hD : (fun S => onsiteVal a.hf (fun i j : Fin a.n => a.V.U.getD 0 i j) S +
        interVal (fun i : Fin a.n => (a.z.getD (fun _ => if a.hf then 1 else 0)) i) (fun i j => a.V.U.getD 0 i j) S) = D
  have e : (ann ℝ (orb s i) * (K + Matrix.diagonal D) - (K + Matrix.diagonal D) * ann ℝ (orb s i)) * cre ℝ (orb s i) +
        cre ℝ (orb s i) * (ann ℝ (orb s i) * (K + Matrix.diagonal D) - (K + Matrix.diagonal D) * ann ℝ (orb s i)) =
      ((ann ℝ (orb s i) * K - K * ann ℝ (orb s i)) * cre ℝ (orb s i) + cre ℝ (orb s i) * (ann ℝ (orb s i) * K - K * ann ℝ (orb s i))) +
      ((ann ℝ (orb s i) * Matrix.diagonal D - Matrix.diagonal D * ann ℝ (orb s i)) * cre ℝ (orb s i) +
        cre ℝ (orb s i) * (ann ℝ (orb s i) * Matrix.diagonal D - Matrix.diagonal D * ann ℝ (orb s i))) := by noncomm_ring
  rw [e, diag_moment, ← hK, kinetic_moment, kept_apply, if_pos rfl, ← hD]
  have hz : ∀ S : Finset (Fin (a.n + a.n)), (fun S => onsiteVal a.hf (fun i j : Fin a.n => a.V.U.getD 0 i j) S +
        interVal (fun i : Fin a.n => (a.z.getD (fun _ => if a.hf then 1 else 0)) i) (fun i j => a.V.U.getD 0 i j) S) (insert (orb s i) S) -
      (fun S => onsiteVal a.hf (fun i j : Fin a.n => a.V.U.getD 0 i j) S +
        interVal (fun i : Fin a.n => (a.z.getD (fun _ => if a.hf then 1 else 0)) i) (fun i j => a.V.U.getD 0 i j) S) (S.erase (orb s i)) =
      a.V.U.getD 0 i i * ((if orb (!s) i ∈ S then 1 else 0) - if a.hf then 1 / 2 else 0) +
        ∑ j : Fin a.n, if i ≠ j then 1 / 2 * (a.V.U.getD 0 i j + a.V.U.getD 0 j i) * (siteN S j - a.z.getD (fun _ => if a.hf then 1 else 0) j) else 0 := fun S => by
    beta_reduce
    rw [add_sub_add_comm, onsiteVal_jump, interVal_jump]
  rw [funext hz]
  simp only [num_diagonal, ← Matrix.diagonal_one, Matrix.diagonal_add, ← Matrix.diagonal_smul, diagonal_sum]
  congr 1
  funext S
  simp only [Pi.smul_apply, smul_eq_mul, mul_one]
  have : ∑ j : Fin a.n, (if i ≠ j then 1 / 2 * (a.V.U.getD 0 i j + a.V.U.getD 0 j i) * (siteN S j - a.z.getD (fun _ => if a.hf then 1 else 0) j) else 0) =
      ∑ j : Fin a.n, (if i ≠ j then 1 / 2 * (a.V.U.getD 0 i j + a.V.U.getD 0 j i) else 0) * ((if orb false j ∈ S then 1 else 0) + (if orb true j ∈ S then 1 else 0)) -
        ∑ j : Fin a.n, if i ≠ j then 1 / 2 * (a.V.U.getD 0 i j + a.V.U.getD 0 j i) * a.z.getD (fun _ => if a.hf then 1 else 0) j else 0 := by
    rw [← Finset.sum_sub_distrib]
    refine Finset.sum_congr rfl fun j _ => ?_
    unfold siteN
    split_ifs <;> ring
  rw [this]
  ring

theorem thermal_sum {ι κ : Type} [Fintype ι] [DecidableEq ι] (β : ℝ) (H : Matrix ι ι ℝ) (s : Finset κ) (M : κ → Matrix ι ι ℂ) : Spec.thermal β H (∑ k ∈ s, M k) = ∑ k ∈ s, Spec.thermal β H (M k) := by
  unfold Spec.thermal
  rw [Matrix.mul_sum, Matrix.trace_sum, Finset.sum_div]

theorem thermal_moment {a : HamArgs} (hx : a.V.Jx = none) (hp : a.V.Jp = none) (hes : EigenEspace a.n a.ham es) (s : Bool) (i : Fin a.n) {nu nd : ℕ → ℝ}
    (hn : ∀ k : Fin a.n, (nu k : ℂ) = thermalOcc beta a.ham false k ∧ (nd k : ℂ) = thermalOcc beta a.ham true k) :
    Spec.thermal beta a.ham (cplx ((ann ℝ (orb s i) * a.ham - a.ham * ann ℝ (orb s i)) * cre ℝ (orb s i) + cre ℝ (orb s i) * (ann ℝ (orb s i) * a.ham - a.ham * ann ℝ (orb s i)))) =
      (hartreeLevel a nu nd s i : ℝ) := by
  rw [ham_moment hx hp, cplx_add', cplx_add', cplx_smul, cplx_smul, cplx_sum, thermal_add, thermal_add, thermal_sum, thermal_smul, thermal_smul, cplx_one, gibbs_trace_pos hes.basis]
  have e1 : Spec.thermal beta a.ham (cplx (num ℝ (orb (!s) i))) = ((if s then nu i else nd i : ℝ) : ℂ) := by
    cases s
    · exact ((hn i).2).symm
    · exact ((hn i).1).symm
  have e2 : ∀ j : Fin a.n, Spec.thermal beta a.ham (cplx ((if i ≠ j then 1 / 2 * (a.V.U.getD 0 i j + a.V.U.getD 0 j i) else 0) • (num ℝ (orb false j) + num ℝ (orb true j)))) =
      (((if i ≠ j then 1 / 2 * (a.V.U.getD 0 i j + a.V.U.getD 0 j i) else 0) * (nu j + nd j) : ℝ) : ℂ) := fun j => by
    rw [cplx_smul, thermal_smul, cplx_add', thermal_add, Complex.ofReal_mul, Complex.ofReal_add, (hn j).1, (hn j).2]
    rfl
  rw [e1, Finset.sum_congr rfl fun j _ => e2 j, ← Complex.ofReal_sum, ← Complex.ofReal_mul, mul_one, ← Complex.ofReal_add, ← Complex.ofReal_add]
  congr 1
  unfold hartreeLevel
  rw [Finset.sum_range fun j => if (i : ℕ) ≠ j then 1 / 2 * (a.V.U.getD 0 i j + a.V.U.getD 0 j i) * (nu j + nd j - a.z.getD (fun _ => if a.hf then 1 else 0) j) else 0]
  have e3 : ∑ j : Fin a.n, (if (i : ℕ) ≠ j then 1 / 2 * (a.V.U.getD 0 i j + a.V.U.getD 0 j i) * (nu j + nd j - a.z.getD (fun _ => if a.hf then 1 else 0) j) else 0) =
      ∑ j : Fin a.n, (if i ≠ j then 1 / 2 * (a.V.U.getD 0 i j + a.V.U.getD 0 j i) else 0) * (nu j + nd j) -
        ∑ j : Fin a.n, if i ≠ j then 1 / 2 * (a.V.U.getD 0 i j + a.V.U.getD 0 j i) * a.z.getD (fun _ => if a.hf then 1 else 0) j else 0 := by
    rw [← Finset.sum_sub_distrib]
    refine Finset.sum_congr rfl fun j _ => ?_
    by_cases h : i = j
    · simp [h]
    · have h' : (i : ℕ) ≠ j := fun h0 => h (Fin.ext h0)
      rw [if_pos h, if_pos h, if_pos h']
      ring
  rw [e3]
  ring

/-! ## C129 -/

/-- **C129** the tail of `build_gf_exact`: `z² (G(z) - 1/z)` tends to the mean-field level of the site with the occupations of `get_occupation`. -/
theorem C129_gf_exact {a : HamArgs} (hle : a.n ≤ 32) (hx : a.V.Jx = none) (hp : a.V.Jp = none) (hes : EigenEspace a.n a.ham es) {occ : List OccSct} (hocc : List.Forall₂ OccView es occ)
    (egs' : ℝ) {pos : ℕ} (hpos : pos < a.n) :
    ∃ g U D As, buildGfExact junk a.n es beta egs pos false = .ok g ∧ getOccupation occ egs' beta a.n = .ok (U, D, As) ∧
      Tendsto (fun z : ℂ => z ^ 2 * (g.call z.re z.im - 1 / z)) farAxis (𝓝 ((hartreeLevel a U D false pos : ℝ) : ℂ)) := by
  obtain ⟨g, hg, hG⟩ := C92_gf_exact (junk := junk) (beta := beta) (egs := egs) hle hes hpos
  obtain ⟨U, D, As, ho, hn⟩ := C101_get_occupation hes hocc egs' beta
  refine ⟨g, U, D, As, hg, ho, ?_⟩
  have h := hes.basis.moment beta (ann ℝ (orb false (⟨pos, hpos⟩ : Fin a.n))) (cre ℝ (orb false (⟨pos, hpos⟩ : Fin a.n))) (G := fun z => g.call z.re z.im) fun z hz => by
    have := (hG z.re z.im hz _).mpr rfl
    rwa [mul_comm Complex.I, Complex.re_add_im] at this
  rw [thermal_moment hx hp hes false ⟨pos, hpos⟩ hn, ann_cre_anticomm, if_pos rfl, cplx_one, gibbs_trace_pos hes.basis] at h
  exact h

/-- **C129** the same for the diagonal elements of `build_gf2_exact`, for either spin. -/
theorem C129_gf2_exact {a : HamArgs} (hle : a.n ≤ 32) (hx : a.V.Jx = none) (hp : a.V.Jp = none) (hes : EigenEspace a.n a.ham es) {occ : List OccSct} (hocc : List.Forall₂ OccView es occ)
    (egs' : ℝ) (s : Bool) : ∃ G U D As, buildGf2Exact junk a.n es beta egs s = .ok G ∧ getOccupation occ egs' beta a.n = .ok (U, D, As) ∧
      ∀ i : Fin a.n, Tendsto (fun z : ℂ => z ^ 2 * ((G i i).call z.re z.im - 1 / z)) farAxis (𝓝 ((hartreeLevel a U D s i : ℝ) : ℂ)) := by
  obtain ⟨G, hg, hG⟩ := C93_gf2_exact (junk := junk) (beta := beta) (egs := egs) hle hes s
  obtain ⟨U, D, As, ho, hn⟩ := C101_get_occupation hes hocc egs' beta
  refine ⟨G, U, D, As, hg, ho, fun i => ?_⟩
  have h := hes.basis.moment beta (ann ℝ (orb s i)) (cre ℝ (orb s i)) (G := fun z => (G i i).call z.re z.im) fun z hz => by
    have := (hG i i z.re z.im hz _).mpr rfl
    rwa [mul_comm Complex.I, Complex.re_add_im] at this
  rw [thermal_moment hx hp hes s i hn, ann_cre_anticomm, if_pos rfl, cplx_one, gibbs_trace_pos hes.basis] at h
  exact h

theorem farAxis_im_ne : ∀ᶠ z : ℂ in farAxis, z.im ≠ 0 := by
  have : ∀ᶠ z : ℂ in farAxis, 0 < |z.im| := (tendsto_comap : Tendsto (fun z : ℂ => |z.im|) farAxis atTop).eventually_gt_atTop 0
  exact this.mono fun z hz => abs_pos.mp hz

/-- The inverse of a Green function with the tail `1/z + m/z²`. -/
theorem inv_tail {G : ℂ → ℂ} {m : ℂ} (h : Tendsto (fun z => z ^ 2 * (G z - 1 / z)) farAxis (𝓝 m)) : Tendsto (fun z => z - (G z)⁻¹) farAxis (𝓝 m) := by
  have hi : Tendsto (fun z : ℂ => z⁻¹) farAxis (𝓝 0) := by simpa using tendsto_inv_farAxis 0
  have h1 : Tendsto (fun z => 1 + z ^ 2 * (G z - 1 / z) * z⁻¹) farAxis (𝓝 1) := by simpa using (h.mul hi).const_add 1
  have h2 := h.div h1 one_ne_zero
  rw [div_one] at h2
  refine h2.congr' ?_
  filter_upwards [farAxis_im_ne, h1.eventually_ne one_ne_zero] with z hz hne
  have hz0 : z ≠ 0 := fun h0 => hz (by rw [h0]; rfl)
  have e : 1 + z ^ 2 * (G z - 1 / z) * z⁻¹ = z * G z := by field_simp; ring
  rw [e] at hne
  rw [Pi.div_apply, e]
  have hG : G z ≠ 0 := fun h0 => hne (by rw [h0, mul_zero])
  field_simp

theorem deltaEval_farAxis (nb : ℕ) (ek vk : ℕ → ℝ) : Tendsto (deltaEval nb ek vk) farAxis (𝓝 0) := by
  have e : deltaEval nb ek vk = fun z => ∑ j ∈ Finset.range nb, ((vk j : ℂ) ^ 2) * (z + ((-ek j : ℝ) : ℂ))⁻¹ := by
    funext z
    rw [deltaEval_eq, hybridisation, ← Finset.sum_range (fun k => ((vk k : ℂ) ^ 2) / (z - ek k))]
    refine Finset.sum_congr rfl fun k _ => ?_
    rw [Complex.ofReal_neg, ← sub_eq_add_neg, div_eq_mul_inv]
  rw [e, ← Finset.sum_const_zero (s := Finset.range nb) (M := ℂ)]
  refine tendsto_finset_sum _ fun j _ => ?_
  have := (tendsto_inv_farAxis ((-ek j : ℝ) : ℂ)).const_mul ((vk j : ℂ) ^ 2)
  rw [mul_zero] at this
  exact this

/-- **C129** the self-energy of the impurity object tends to `U` times the occupation of the other spin. -/
theorem C129_sigma (nb : ℕ) (ek0 vk0 : ℕ → ℝ) (hist : List ImpOp) (ek vk : ℕ → ℝ) (mus : List ℝ) (hn : 1 ≤ nb) (hn' : nb ≤ 31) (U : ℝ)
    (hes : EigenEspace (nb + 1) ((impAfter nb ek0 vk0 hist ek vk mus).args (nb + 1) U).ham es) {occ : List OccSct} (hocc : List.Forall₂ OccView es occ) (egs' : ℝ) :
    ∃ g Nu Nd As, buildGfExact junk (nb + 1) es beta egs 0 false = .ok g ∧ getOccupation occ egs' beta (nb + 1) = .ok (Nu, Nd, As) ∧
      Tendsto ((impAfter nb ek0 vk0 hist ek vk mus).sigma (nb + 1) fun z => g.call z.re z.im) farAxis (𝓝 ((U * Nd 0 : ℝ) : ℂ)) := by
  obtain ⟨g, Nu, Nd, As, h1, h2, h3⟩ := C129_gf_exact (a := (impAfter nb ek0 vk0 hist ek vk mus).args (nb + 1) U) (junk := junk) (beta := beta) (egs := egs) (by change nb + 1 ≤ 32; omega) rfl rfl hes hocc egs'
    (pos := 0) (Nat.succ_pos nb)
  refine ⟨g, Nu, Nd, As, h1, h2, ?_⟩
  have hs := inv_tail h3
  generalize hi : impAfter nb ek0 vk0 hist ek vk mus = I at *
  have e : hartreeLevel (I.args (nb + 1) U) Nu Nd false 0 = I.H 0 0 + U * Nd 0 := by
    unfold hartreeLevel
    rw [Finset.sum_eq_zero fun j _ => ?_]
    · simp [Imp.args, VArg.array]
    · by_cases h : (0 : ℕ) = j
      · simp [h]
      · simp [Imp.args, VArg.array, Ne.symm h]
  rw [e] at hs
  have h4 := (hs.sub_const (I.H 0 0 : ℂ)).sub (deltaEval_farAxis (nb + 1 - 1) I.ek I.vk)
  refine (h4.congr fun z => ?_).trans (le_of_eq ?_)
  · unfold Imp.sigma Imp.freeInv
    ring
  · congr 1
    push_cast
    ring

/-- Non-vacuity: an impurity with one bath site and `U = 2`. -/
example : ∃ es occ g Nu Nd As, EigenEspace 2 hotArgs.ham es ∧ List.Forall₂ OccView es occ ∧ buildGfExact junk 2 es beta egs 0 false = .ok g ∧
    getOccupation occ 0 beta 2 = .ok (Nu, Nd, As) ∧ Tendsto (hotImp.sigma 2 fun z => g.call z.re z.im) farAxis (𝓝 ((2 * Nd 0 : ℝ) : ℂ)) := by
  obtain ⟨es, hes⟩ := eigenEspace_exists hotArgs_valid
  have hv : List.Forall₂ OccView es (es.map fun p => OccSct.ofSct p.2) := by
    rw [List.forall₂_map_right_iff]
    exact List.forall₂_same.mpr fun p _ => OccSct.ofSct_view p
  obtain ⟨g, Nu, Nd, As, h1, h2, h3⟩ := C129_sigma (junk := junk) (beta := beta) (egs := egs) 1 (fun _ => 0) (fun _ => 0) [] (fun _ => -1) (fun _ => 0) [3] le_rfl (by norm_num) 2 hes hv 0
  exact ⟨es, _, g, Nu, Nd, As, hes, hv, h1, h2, h3⟩

end Edpyt
