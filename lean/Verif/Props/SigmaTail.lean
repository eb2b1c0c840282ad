import Verif.Proof.Moment2
/-!
Property C175: the second moment of the Green function and the `1/z` tail of the self-energy.
-/
namespace Edpyt
open Spec Matrix Filter Topology

/-- No interaction between different sites, neither exchange nor pair hopping. -/
structure HamArgs.OnsiteOnly (a : HamArgs) : Prop where
  U : ∀ i j, i < a.n → j < a.n → i ≠ j → a.V.U.getD 0 i j = 0
  Jx : a.V.Jx = none
  Jp : a.V.Jp = none

theorem HamArgs.OnsiteOnly.ham {a : HamArgs} (h : a.OnsiteOnly) : a.ham = kinetic (fun s i j => a.oneBody s i j) + onsiteU a.hf (fun i j : Fin a.n => a.V.U.getD 0 i j) := by
  have h2 : ∀ z, interSite z (fun i j : Fin a.n => a.V.U.getD 0 i j) = 0 := by
    intro z
    unfold interSite
    rw [Finset.sum_eq_zero fun i _ => Finset.sum_eq_zero fun j _ => ?_, smul_zero]
    split_ifs with hij
    · simp only [h.U _ _ i.2 j.2 (fun hh => hij (Fin.ext hh)), zero_smul]
    · rw [zero_smul]
  unfold HamArgs.ham hubbard
  rw [h.Jx, h.Jp, codeExchange_none, h2, add_zero, add_zero]
  rfl

/-- The equation of motion of an annihilator and of a creator. -/
theorem HamArgs.OnsiteOnly.comm {a : HamArgs} (h : a.OnsiteOnly) (hs : a.ham.IsSymm) (s : Bool) (i : Fin a.n) :
    (ann ℝ (orb s i) * a.ham - a.ham * ann ℝ (orb s i) = ∑ j, a.oneBody s i j • ann ℝ (orb s j) +
      a.V.U.getD 0 i i • ((num ℝ (orb (!s) i) - (if a.hf then 1 / 2 else 0 : ℝ) • 1) * ann ℝ (orb s i))) ∧
    a.ham * cre ℝ (orb s i) - cre ℝ (orb s i) * a.ham = ∑ j, a.oneBody s i j • cre ℝ (orb s j) +
      a.V.U.getD 0 i i • (cre ℝ (orb s i) * (num ℝ (orb (!s) i) - (if a.hf then 1 / 2 else 0 : ℝ) • 1)) := by
  have e : ann ℝ (orb s i) * a.ham - a.ham * ann ℝ (orb s i) = ∑ j, a.oneBody s i j • ann ℝ (orb s j) +
      a.V.U.getD 0 i i • ((num ℝ (orb (!s) i) - (if a.hf then 1 / 2 else 0 : ℝ) • 1) * ann ℝ (orb s i)) := by
    rw [h.ham, Matrix.mul_add, Matrix.add_mul, add_sub_add_comm, ann_comm_kinetic (fun s i j => a.oneBody s i j), onsiteU_comm]
  refine ⟨e, ?_⟩
  have e' := congrArg Matrix.transpose e
  rw [Matrix.transpose_sub, Matrix.transpose_mul, Matrix.transpose_mul, hs.eq, Matrix.transpose_add, Matrix.transpose_sum, Matrix.transpose_smul, Matrix.transpose_mul, Matrix.transpose_sub, Matrix.transpose_smul, Matrix.transpose_one, num_transpose] at e'
  simp only [Matrix.transpose_smul] at e'
  exact e'

/-- The second moment of the thermal Green function of site `i`. -/
theorem thermal_second {a : HamArgs} (h : a.OnsiteOnly) {es : Espace (ℕ × ℕ)} (hes : EigenEspace a.n a.ham es) (s : Bool) (i : Fin a.n) {nu nd : ℕ → ℝ}
    (hn : ∀ k : Fin a.n, (nu k : ℂ) = thermalOcc beta a.ham false k ∧ (nd k : ℂ) = thermalOcc beta a.ham true k) :
    Spec.thermal beta a.ham (cplx (((ann ℝ (orb s i) * a.ham - a.ham * ann ℝ (orb s i)) * a.ham - a.ham * (ann ℝ (orb s i) * a.ham - a.ham * ann ℝ (orb s i))) * cre ℝ (orb s i) +
      cre ℝ (orb s i) * ((ann ℝ (orb s i) * a.ham - a.ham * ann ℝ (orb s i)) * a.ham - a.ham * (ann ℝ (orb s i) * a.ham - a.ham * ann ℝ (orb s i))))) =
      ((hartreeLevel a nu nd s i ^ 2 + (∑ j, if i ≠ j then a.oneBody s i j ^ 2 else 0) + a.V.U.getD 0 i i ^ 2 * ((if s then nu i else nd i) * (1 - if s then nu i else nd i)) : ℝ) : ℂ) := by
  rw [hes.basis.thermal_moment2, (h.comm hes.basis.symm s i).1, (h.comm hes.basis.symm s i).2, second_anticomm (fun s i j => a.oneBody s i j), X_sq]
  rw [cplx_add', cplx_add', cplx_smul, cplx_smul, cplx_smul, thermal_add, thermal_add, thermal_smul, thermal_smul, thermal_smul, cplx_sub', cplx_smul, cplx_add', cplx_smul, cplx_smul, cplx_one,
    sub_eq_add_neg, thermal_add, ← neg_smul, thermal_smul, thermal_add, thermal_smul, thermal_smul, gibbs_trace_pos hes.basis]
  have e1 : Spec.thermal beta a.ham (cplx (num ℝ (orb (!s) i))) = ((if s then nu i else nd i : ℝ) : ℂ) := by
    cases s
    · exact ((hn i).2).symm
    · exact ((hn i).1).symm
  rw [e1]
  have e2 : hartreeLevel a nu nd s i = a.oneBody s i i + a.V.U.getD 0 i i * ((if s then nu i else nd i) - if a.hf then 1 / 2 else 0) := by
    unfold hartreeLevel
    rw [Finset.sum_eq_zero fun j hj => ?_, add_zero]
    · simp [HamArgs.oneBody, kept_apply]
    · by_cases hij : (i : ℕ) ≠ j
      · rw [if_pos hij, h.U _ _ i.2 (Finset.mem_range.mp hj) hij, h.U _ _ (Finset.mem_range.mp hj) i.2 (Ne.symm hij)]; ring
      · rw [if_neg hij]
  have e3 : ∑ j, a.oneBody s i j ^ 2 = a.oneBody s i i ^ 2 + ∑ j, if i ≠ j then a.oneBody s i j ^ 2 else 0 := by
    rw [← Finset.add_sum_erase _ _ (Finset.mem_univ i), ← Finset.add_sum_erase Finset.univ (fun j => if i ≠ j then a.oneBody s i j ^ 2 else 0) (Finset.mem_univ i)]
    simp only [ne_eq, not_true_eq_false, if_false, zero_add]
    congr 1
    exact Finset.sum_congr rfl fun j hj => by rw [if_pos (Ne.symm (Finset.ne_of_mem_erase hj))]
  rw [e2, e3]
  generalize (if s then nu i else nd i) = m
  generalize (∑ j, if i ≠ j then a.oneBody s i j ^ 2 else 0) = t2
  push_cast
  by_cases hf : a.hf <;> simp only [hf, if_true, if_false, Bool.false_eq_true] <;> push_cast <;> ring

/-! ## C175 -/

/-- **C175** If the interaction acts on single sites only, the Green function of `build_gf_exact` has the tail `1/z + e/z² + (e² + Σ_j t_ij² + U² n (1 - n))/z³`: `e` is the
Hartree level, `t_ij` the hopping to the other sites, and `n` the occupation of the site with the other spin that `get_occupation` returns. -/
theorem C175_gf_exact {a : HamArgs} (hle : a.n ≤ 32) (h : a.OnsiteOnly) {es : Espace (ℕ × ℕ)} (hes : EigenEspace a.n a.ham es) {occ : List OccSct} (hocc : List.Forall₂ OccView es occ)
    (egs' : ℝ) {pos : ℕ} (hpos : pos < a.n) :
    ∃ g U D As, buildGfExact junk a.n es beta egs pos false = .ok g ∧ getOccupation occ egs' beta a.n = .ok (U, D, As) ∧
      Tendsto (fun z : ℂ => z ^ 3 * (g.call z.re z.im - 1 / z - (hartreeLevel a U D false pos : ℝ) / z ^ 2)) farAxis
        (𝓝 ((hartreeLevel a U D false pos ^ 2 + (∑ j, if (⟨pos, hpos⟩ : Fin a.n) ≠ j then a.oneBody false ⟨pos, hpos⟩ j ^ 2 else 0) + a.V.U.getD 0 pos pos ^ 2 * (D pos * (1 - D pos)) : ℝ) : ℂ)) := by
  obtain ⟨g, hg, hG⟩ := C92_gf_exact (junk := junk) (beta := beta) (egs := egs) hle hes hpos
  obtain ⟨U, D, As, ho, hn⟩ := C101_get_occupation hes hocc egs' beta
  refine ⟨g, U, D, As, hg, ho, ?_⟩
  have hm := hes.basis.moment2 beta (ann ℝ (orb false (⟨pos, hpos⟩ : Fin a.n))) (cre ℝ (orb false (⟨pos, hpos⟩ : Fin a.n))) (G := fun z => g.call z.re z.im) fun z hz => by
    have := (hG z.re z.im hz _).mpr rfl
    rwa [mul_comm Complex.I, Complex.re_add_im] at this
  rw [thermal_moment h.Jx h.Jp hes false ⟨pos, hpos⟩ hn, thermal_second h hes false ⟨pos, hpos⟩ hn, ann_cre_anticomm, if_pos rfl, cplx_one, gibbs_trace_pos hes.basis] at hm
  exact hm

/-- **C175** the same for the diagonal elements of `build_gf2_exact`, for either spin. -/
theorem C175_gf2_exact {a : HamArgs} (hle : a.n ≤ 32) (h : a.OnsiteOnly) {es : Espace (ℕ × ℕ)} (hes : EigenEspace a.n a.ham es) {occ : List OccSct} (hocc : List.Forall₂ OccView es occ)
    (egs' : ℝ) (s : Bool) : ∃ G U D As, buildGf2Exact junk a.n es beta egs s = .ok G ∧ getOccupation occ egs' beta a.n = .ok (U, D, As) ∧
      ∀ i : Fin a.n, Tendsto (fun z : ℂ => z ^ 3 * ((G i i).call z.re z.im - 1 / z - (hartreeLevel a U D s i : ℝ) / z ^ 2)) farAxis
        (𝓝 ((hartreeLevel a U D s i ^ 2 + (∑ j, if i ≠ j then a.oneBody s i j ^ 2 else 0) + a.V.U.getD 0 i i ^ 2 * ((if s then U i else D i) * (1 - if s then U i else D i)) : ℝ) : ℂ)) := by
  obtain ⟨G, hg, hG⟩ := C93_gf2_exact (junk := junk) (beta := beta) (egs := egs) hle hes s
  obtain ⟨U, D, As, ho, hn⟩ := C101_get_occupation hes hocc egs' beta
  refine ⟨G, U, D, As, hg, ho, fun i => ?_⟩
  have hm := hes.basis.moment2 beta (ann ℝ (orb s i)) (cre ℝ (orb s i)) (G := fun z => (G i i).call z.re z.im) fun z hz => by
    have := (hG i i z.re z.im hz _).mpr rfl
    rwa [mul_comm Complex.I, Complex.re_add_im] at this
  rw [thermal_moment h.Jx h.Jp hes s i hn, thermal_second h hes s i hn, ann_cre_anticomm, if_pos rfl, cplx_one, gibbs_trace_pos hes.basis] at hm
  exact hm

/-- The inverse of a Green function with the tail `1/z + m/z² + q/z³`. -/
theorem inv_tail2 {G : ℂ → ℂ} {m q : ℂ} (h : Tendsto (fun z => z ^ 3 * (G z - 1 / z - m / z ^ 2)) farAxis (𝓝 q)) :
    Tendsto (fun z => z * (z - m - (G z)⁻¹)) farAxis (𝓝 (q - m ^ 2)) := by
  have hi : Tendsto (fun z : ℂ => z⁻¹) farAxis (𝓝 0) := by simpa using tendsto_inv_farAxis 0
  have h1 : Tendsto (fun z => z ^ 2 * (G z - 1 / z)) farAxis (𝓝 m) := by
    have := (h.mul hi).add_const m
    rw [mul_zero, zero_add] at this
    refine this.congr' ?_
    filter_upwards [farAxis_im_ne] with z hz
    have hz0 : z ≠ 0 := fun h0 => hz (by rw [h0]; rfl)
    field_simp
    ring
  have h2 : Tendsto (fun z => 1 + z ^ 2 * (G z - 1 / z) * z⁻¹) farAxis (𝓝 1) := by simpa using (h1.mul hi).const_add 1
  have h3 := (h.sub (h1.const_mul m)).div h2 one_ne_zero
  rw [div_one, ← sq] at h3
  refine h3.congr' ?_
  filter_upwards [farAxis_im_ne, h2.eventually_ne one_ne_zero] with z hz hne
  have hz0 : z ≠ 0 := fun h0 => hz (by rw [h0]; rfl)
  have e : 1 + z ^ 2 * (G z - 1 / z) * z⁻¹ = z * G z := by field_simp; ring
  rw [e] at hne
  rw [Pi.div_apply, e]
  have hG : G z ≠ 0 := fun h0 => hne (by rw [h0, mul_zero])
  field_simp
  ring

theorem hybridisation_tail {nb : ℕ} (e v : Fin nb → ℝ) : Tendsto (fun z => z * hybridisation e v z) farAxis (𝓝 ((∑ k, v k ^ 2 : ℝ) : ℂ)) := by
  have key : ∀ k, Tendsto (fun z : ℂ => (v k : ℂ) ^ 2 * (1 + e k * (z + ((-e k : ℝ) : ℂ))⁻¹)) farAxis (𝓝 ((v k : ℂ) ^ 2)) := fun k => by
    have := (((tendsto_inv_farAxis ((-e k : ℝ) : ℂ)).const_mul (e k : ℂ)).const_add 1).const_mul ((v k : ℂ) ^ 2)
    rw [mul_zero, add_zero, mul_one] at this
    exact this
  have := tendsto_finset_sum Finset.univ fun k (_ : k ∈ Finset.univ) => key k
  push_cast
  refine this.congr' ?_
  filter_upwards [farAxis_im_ne] with z hz
  unfold hybridisation
  rw [Finset.mul_sum]
  refine Finset.sum_congr rfl fun k _ => ?_
  have hp : z - (e k : ℂ) ≠ 0 := fun h0 => hz (by simpa using congrArg Complex.im h0)
  rw [Complex.ofReal_neg, ← sub_eq_add_neg]
  field_simp
  ring

/-- **C175** The self-energy of the impurity object has the tail `U n + U² n (1 - n) / z`, with the occupation `n` of the other spin: its spectral weight is
`U² n (1 - n)`. Couplings below the cutoff `1e-7` of `build_mb_ham` would count, so they are excluded. -/
theorem C175_sigma (nb : ℕ) (ek0 vk0 : ℕ → ℝ) (hist : List ImpOp) (ek vk : ℕ → ℝ) (mus : List ℝ) (hn : 1 ≤ nb) (hn' : nb ≤ 31) (U : ℝ) (hv : ∀ k < nb, vk k = 0 ∨ 1 / 10 ^ 7 < |vk k|)
    {es : Espace (ℕ × ℕ)} (hes : EigenEspace (nb + 1) ((impAfter nb ek0 vk0 hist ek vk mus).args (nb + 1) U).ham es) {occ : List OccSct} (hocc : List.Forall₂ OccView es occ) (egs' : ℝ) :
    ∃ g Nu Nd As, buildGfExact junk (nb + 1) es beta egs 0 false = .ok g ∧ getOccupation occ egs' beta (nb + 1) = .ok (Nu, Nd, As) ∧
      Tendsto (fun z => z * ((impAfter nb ek0 vk0 hist ek vk mus).sigma (nb + 1) (fun z => g.call z.re z.im) z - (U * Nd 0 : ℝ))) farAxis (𝓝 ((U ^ 2 * (Nd 0 * (1 - Nd 0)) : ℝ) : ℂ)) := by
  have ho : ((impAfter nb ek0 vk0 hist ek vk mus).args (nb + 1) U).OnsiteOnly := ⟨fun i j hi hj hij => (impAfter_only nb ek0 vk0 hist ek vk mus U).U i j hi hj fun hh => hij (hh.1.trans hh.2.symm), rfl, rfl⟩
  obtain ⟨g, Nu, Nd, As, h1, h2, h3⟩ := C175_gf_exact (a := (impAfter nb ek0 vk0 hist ek vk mus).args (nb + 1) U) (junk := junk) (beta := beta) (egs := egs) (by change nb + 1 ≤ 32; omega) ho hes hocc egs'
    (pos := 0) (Nat.succ_pos nb)
  refine ⟨g, Nu, Nd, As, h1, h2, ?_⟩
  have hs := inv_tail2 h3
  have ht := hybridisation_tail (fun k : Fin nb => ek k) (fun k : Fin nb => vk k)
  have e : hartreeLevel ((impAfter nb ek0 vk0 hist ek vk mus).args (nb + 1) U) Nu Nd false 0 = (impAfter nb ek0 vk0 hist ek vk mus).H 0 0 + U * Nd 0 := by
    unfold hartreeLevel
    rw [Finset.sum_eq_zero fun j _ => ?_]
    · simp [Imp.args, VArg.array]
    · by_cases h : (0 : ℕ) = j
      · simp [h]
      · simp [Imp.args, VArg.array, Ne.symm h]
  have e2 : ∀ M : Matrix (Fin (nb + 1)) (Fin (nb + 1)) ℝ, M = siam ((impAfter nb ek0 vk0 hist ek vk mus).H 0 0) (fun k : Fin nb => ek k) (fun k : Fin nb => vk k) →
      (∑ j : Fin (nb + 1), if (0 : Fin (nb + 1)) ≠ j then M 0 j ^ 2 else 0) = ∑ k : Fin nb, vk k ^ 2 := by
    rintro M rfl
    rw [Fin.sum_univ_succ]
    simp [siam, Fin.succ_ne_zero, eq_comm]
  have e3 := e2 _ ((impAfter_oneBody nb ek0 vk0 hist ek vk mus U false).trans (by rw [(kept_of_large nb hv).1]))
  have h4 := hs.sub ht
  refine (h4.congr fun z => ?_).trans (le_of_eq ?_)
  · unfold Imp.sigma
    rw [impAfter_freeInv, e]
    push_cast
    ring
  · congr 1
    rw [← Complex.ofReal_pow, ← Complex.ofReal_sub, ← Complex.ofReal_sub]
    congr 1
    have e4 : ((impAfter nb ek0 vk0 hist ek vk mus).args (nb + 1) U).V.U.getD 0 0 0 = U := by simp [Imp.args, VArg.array]
    rw [e4]
    refine Eq.trans (congrArg (fun x => _ + x + _ - _ - _) e3) ?_
    ring

/-- Non-vacuity: an impurity coupled to two bath sites, `U = 2`. -/
example : ∃ es occ g Nu Nd As, EigenEspace 3 ((impAfter 2 (fun _ => 0) (fun _ => 0) [] (fun k => k) (fun _ => 1 / 2) [3]).args 3 2).ham es ∧ List.Forall₂ OccView es occ ∧
    buildGfExact junk 3 es beta egs 0 false = .ok g ∧ getOccupation occ 0 beta 3 = .ok (Nu, Nd, As) ∧
    Tendsto (fun z => z * ((impAfter 2 (fun _ => 0) (fun _ => 0) [] (fun k => k) (fun _ => 1 / 2) [3]).sigma 3 (fun z => g.call z.re z.im) z - (2 * Nd 0 : ℝ))) farAxis
      (𝓝 ((2 ^ 2 * (Nd 0 * (1 - Nd 0)) : ℝ) : ℂ)) := by
  obtain ⟨es, hes⟩ := eigenEspace_exists (impAfter_valid 2 (fun _ => 0) (fun _ => 0) [] (fun k => k) (fun _ => 1 / 2) [3] (by norm_num) (by norm_num) 2)
  have hv : List.Forall₂ OccView es (es.map fun p => OccSct.ofSct p.2) := by
    rw [List.forall₂_map_right_iff]
    exact List.forall₂_same.mpr fun p _ => OccSct.ofSct_view p
  obtain ⟨g, Nu, Nd, As, h1, h2, h3⟩ := C175_sigma (junk := junk) (beta := beta) (egs := egs) 2 (fun _ => 0) (fun _ => 0) [] (fun k => k) (fun _ => 1 / 2) [3] (by norm_num) (by norm_num) 2
    (fun k _ => Or.inr (by rw [abs_of_pos] <;> norm_num)) hes hv 0
  exact ⟨es, _, g, Nu, Nd, As, hes, hv, h1, h2, h3⟩

end Edpyt
