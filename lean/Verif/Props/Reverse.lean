import Verif.Proof.Shiba
import Verif.Spec.Reverse
/-!
# C196: reversing the sign of the interaction exchanges charge and spin
-/
namespace Edpyt
open Spec Matrix

section
variable {ι : Type} [Fintype ι] [DecidableEq ι]

theorem gibbsOp_raise (β c : ℝ) (H : Matrix ι ι ℝ) : gibbsOp β (H + c • 1) = Real.exp (-β * c) • gibbsOp β H := by
  unfold gibbsOp
  have h1 : (-β) • (H + c • (1 : Matrix ι ι ℝ)) = -β • H + Matrix.diagonal fun _ => -β * c := by
    rw [smul_add, smul_smul, Matrix.smul_one_eq_diagonal]
  have h2 : Commute (-β • H) (Matrix.diagonal fun _ : ι => -β * c) := by
    rw [← Matrix.smul_one_eq_diagonal]
    exact ((Commute.one_right _).smul_right _)
  rw [h1, Matrix.exp_add_of_commute _ _ h2, Matrix.exp_diagonal]
  have h3 : NormedSpace.exp (fun _ : ι => -β * c) = fun _ => Real.exp (-β * c) := by
    rw [Pi.exp_def, Real.exp_eq_exp_ℝ]
  rw [h3, ← Matrix.smul_one_eq_diagonal, Matrix.mul_smul, Matrix.mul_one]

theorem thermal_raise (β c : ℝ) (H : Matrix ι ι ℝ) (A : Matrix ι ι ℂ) : thermal β (H + c • 1) A = thermal β H A := by
  unfold thermal
  have h : ((Real.exp (-β * c) : ℝ) : ℂ) ≠ 0 := by exact_mod_cast (Real.exp_pos _).ne'
  have e : cplx (gibbsOp β (H + c • 1)) = ((Real.exp (-β * c) : ℝ) : ℂ) • cplx (gibbsOp β H) := by
    rw [gibbsOp_raise]
    ext i j
    simp [cplx]
  rw [e, Matrix.smul_mul, Matrix.trace_smul, Matrix.trace_smul, smul_eq_mul, smul_eq_mul, mul_div_mul_left _ _ h]

theorem isGreen_raise {β : ℝ} (c : ℝ) {H A B : Matrix ι ι ℝ} {z g : ℂ} (h : IsGreen β (H + c • 1) A B z g) : IsGreen β H A B z g := by
  obtain ⟨X, h1, h2⟩ := h
  refine ⟨X, ?_, ?_⟩
  · rw [← h1]
    have : cplx (H + c • 1) = cplx H + (c : ℂ) • 1 := by
      ext i j
      by_cases hij : i = j <;> simp [cplx, Matrix.one_apply, hij]
    rw [this, Matrix.mul_add, Matrix.add_mul, Matrix.mul_smul, Matrix.smul_mul, Matrix.mul_one, Matrix.one_mul]
    abel
  · rw [h2, thermal_raise]

end

variable {junk junk' w w' : ℕ} {es es' : Espace (ℕ × ℕ)} {egs egs' : WithTop ℝ} {beta : ℝ} {a : HamArgs} {η : ℕ → ℤ} {H' : ℕ → ℕ → ℕ → ℝ} {V' : ℕ → ℕ → ℝ}

/-- The energy of the filled down levels. -/
noncomputable def filledDw (a : HamArgs) : ℝ := ∑ i : Fin a.n, (a.H 1 i i + a.mu)

/-- The Hamiltonian of the other input, on the Fock space of the first. -/
noncomputable def modelHam (a : HamArgs) (H' : ℕ → ℕ → ℕ → ℝ) (V' : ℕ → ℕ → ℝ) : Matrix (Finset (Fin (a.n + a.n))) (Finset (Fin (a.n + a.n))) ℝ := (withModel a H' V').ham

theorem Spec.Reversed.sq (h : Reversed η a H' V') (i : Fin a.n) : η i * η i = 1 := by
  rcases h.sign i i.2 with h | h <;> rw [h] <;> norm_num

theorem Spec.Reversed.ham (ha : a.Valid) (h : Reversed η a H' V') :
    shiba (fun i : Fin a.n => η i) * a.ham = (modelHam a H' V' + filledDw a • 1) * shiba (fun i : Fin a.n => η i) := by
  have hη := h.sq
  have h1 : a.OnsiteOnly := ⟨h.local_, h.Jx, h.Jp⟩
  have h2 : (withModel a H' V').OnsiteOnly := ⟨fun i j hi hj hij => by
    show V' i j = 0
    rw [h.U i j hi hj, h.local_ i j hi hj hij, neg_zero], rfl, rfl⟩
  have e2 : modelHam a H' V' = kinetic (fun s (i j : Fin a.n) => kept (n := a.n) a.mu (H' (if s then 1 else 0)) i j) + onsiteU a.hf (fun i j : Fin a.n => V' i j) := h2.ham
  have key : shibaConj (fun i : Fin a.n => η i) a.ham = modelHam a H' V' + filledDw a • 1 := by
    rw [h1.ham, shibaConj_add, kinetic_shiba hη _ fun s i j => ((HamArgs.oneBody_symm ha s).apply i j).symm, onsite_shiba hη, e2]
    have e3 : (fun i j : Fin a.n => V' i j) = fun i j : Fin a.n => -(a.V.U.getD 0 i j) := by
      funext i j
      exact h.U i j i.2 j.2
    have e4 : ∑ i : Fin a.n, a.oneBody true i i = filledDw a := by
      unfold filledDw
      refine Finset.sum_congr rfl fun i _ => ?_
      show kept (n := a.n) a.mu (a.H 1) i i = _
      rw [kept_apply, if_pos rfl]
    have e5 : ∑ i : Fin a.n, (if a.hf then 0 else a.V.U.getD 0 i i) • num ℝ (orb false i) =
        kinetic (fun s (i j : Fin a.n) => if i = j then (if s then 0 else if a.hf then 0 else a.V.U.getD 0 i i) else 0) := by
      rw [kinetic_diag (fun (s : Bool) (i : Fin a.n) => if s then 0 else if a.hf then 0 else a.V.U.getD 0 i i), Fintype.sum_bool]
      simp
    have e6 : kinetic (fun s (i j : Fin a.n) => kept (n := a.n) a.mu (H' (if s then 1 else 0)) i j) =
        kinetic (fun s (i j : Fin a.n) => if s then -((η i * η j : ℤ) : ℝ) * a.oneBody s i j else a.oneBody s i j) +
          kinetic (fun s (i j : Fin a.n) => if i = j then (if s then 0 else if a.hf then 0 else a.V.U.getD 0 i i) else 0) := by
      rw [← kinetic_add']
      congr 1
      funext s i j
      show _ = (if s then -((η i * η j : ℤ) : ℝ) * kept (n := a.n) a.mu (a.H (if s then 1 else 0)) i j else kept (n := a.n) a.mu (a.H (if s then 1 else 0)) i j) + _
      simp only [kept_apply]
      by_cases hij : i = j
      · subst hij
        cases s
        · simp only [if_true, Bool.false_eq_true, if_false]
          rw [h.levelUp i i.2]; ring
        · simp only [if_true]
          rw [h.levelDw i i.2, hη]; simp
      · have hij' : (i : ℕ) ≠ j := fun hh => hij (Fin.ext hh)
        cases s
        · simp only [hij, Bool.false_eq_true, if_false, add_zero]
          rw [h.up i j i.2 j.2 hij']
        · simp only [hij, if_true, if_false, add_zero]
          rw [h.dw i j i.2 j.2 hij']
          have h3 : |(-((η i * η j : ℤ) : ℝ))| = 1 := by
            rcases h.sign i i.2 with h1 | h1 <;> rcases h.sign j j.2 with h2 | h2 <;> rw [h1, h2] <;> norm_num
          rw [abs_mul, h3, one_mul]
          split_ifs <;> simp
    rw [e3, e4, e5, e6]
    abel
  rw [← key, shibaConj, Matrix.mul_assoc, shiba_orth hη, Matrix.mul_one]

/-- The espace with every energy raised by `c`. -/
def raiseLevels (c : ℝ) (es : Espace (ℕ × ℕ)) : Espace (ℕ × ℕ) := es.map fun p => (p.1, ⟨p.2.states, p.2.d, p.2.eigvals.map (· + c), p.2.eigvecs⟩)

theorem EigenEspace.raiseLevels {c : ℝ} {n : ℕ} {H : Matrix (Finset (Fin (n + n))) (Finset (Fin (n + n))) ℝ} (h : EigenEspace n H es) : EigenEspace n (H + c • 1) (raiseLevels c es) := by
  refine ⟨⟨?_, ?_⟩, ?_⟩
  · have : (Edpyt.raiseLevels c es).map Prod.fst = es.map Prod.fst := by simp [Edpyt.raiseLevels, Function.comp_def]
    rw [this]
    exact h.keys
  · intro p hp
    obtain ⟨q, hq, rfl⟩ := List.mem_map.mp hp
    obtain ⟨up, dw, o, hC⟩ := h.ok q hq
    exact ⟨up, dw, ⟨o.states, o.hup, o.hdw, o.d, by simpa using o.len⟩, hC⟩
  · intro p hp k hk
    obtain ⟨q, hq, rfl⟩ := List.mem_map.mp hp
    have hk' : k < q.2.eigvals.length := by simpa using hk
    have := h.eig q hq k hk'
    have e1 : (q.2.eigvals.map (· + c))[k]?.getD 0 = (q.2.eigvals[k]?.getD 0) + c := by
      rw [List.getElem?_map, List.getElem?_eq_getElem hk']; rfl
    have e2 : (⟨q.2.states, q.2.d, q.2.eigvals.map (· + c), q.2.eigvecs⟩ : Sct).ket n k = q.2.ket n k := rfl
    show (H + c • 1) *ᵥ (⟨q.2.states, q.2.d, q.2.eigvals.map (· + c), q.2.eigvecs⟩ : Sct).ket n k = ((q.2.eigvals.map (· + c))[k]?.getD 0) • _
    rw [e1, e2, Matrix.add_mulVec, this, Matrix.smul_mulVec, Matrix.one_mulVec, add_smul]

theorem modelHam_espace (h : EigenEspace (withModel a H' V').n (withModel a H' V').ham es') : EigenEspace a.n (modelHam a H' V') es' := h

/-- **C196** `build_espace`: the energies of the sector `(p, q)` are those of the sector `(p, n - q)` of the reversed input, in the same order, plus the energy of the filled down
levels. -/
theorem C196_levels (ha : a.Valid) (ha' : (withModel a H' V').Valid) (hw : a.n ≤ w) (hw' : a.n ≤ w') (hr : Reversed η a H' V') (h : BuildEspace w a none (.ok (es, egs)))
    (h' : BuildEspace w' (withModel a H' V') none (.ok (es', egs'))) {p q : ℕ} {I J : Sct} (hI : ((p, q), I) ∈ es) (hJ : ((p, a.n - q), J) ∈ es') :
    I.eigvals = J.eigvals.map fun E => E + ∑ i : Fin a.n, (a.H 1 i i + a.mu) := by
  have e := buildEspace_eigen ha hw h
  have e' := (modelHam_espace (buildEspace_eigen ha' hw' h')).raiseLevels (c := filledDw a)
  have hJc : ((p, a.n - q), (⟨J.states, J.d, J.eigvals.map (· + filledDw a), J.eigvecs⟩ : Sct)) ∈ raiseLevels (filledDw a) es' := List.mem_map.mpr ⟨_, hJ, rfl⟩
  refine sorted_ext (buildEspace_sorted ha hw h hI) ?_ fun x => ?_
  · rw [List.pairwise_map]
    exact (buildEspace_sorted ha' hw' h' hJ).imp fun h => add_le_add_left h _
  · obtain ⟨rfl, hp, hq⟩ := sctAt_of_mem e hI
    obtain ⟨eJ, -, hq'⟩ := sctAt_of_mem e' hJc
    have := levels_eq e e' (hr.ham ha) (shiba_orth hr.sq) hp hq hp hq' (fun T S hTS => by
      obtain ⟨h1, h2⟩ := shiba_counts hr.sq hTS
      rw [h1, h2]
      omega) x
    rw [eJ] at this
    exact this

theorem Spec.Reversed.green_up (ha : a.Valid) (hr : Reversed η a H' V') {i j : Fin a.n} {z g : ℂ}
    (hg : IsGreen beta a.ham (ann ℝ (orb false i)) (cre ℝ (orb false j)) z g) : IsGreen beta (modelHam a H' V') (ann ℝ (orb false i)) (cre ℝ (orb false j)) z g := by
  have h0 := isGreen_raise _ (isGreen_semiconj (shiba_orth hr.sq) (hr.ham ha) hg)
  have e1 := shibaConj_up hr.sq i
  have e2 := shibaConj_up_cre hr.sq j
  unfold shibaConj at e1 e2
  rw [e1, e2] at h0
  have h3 := isGreen_smul ((-1 : ℝ) ^ a.n) ((-1 : ℝ) ^ a.n) h0
  rw [smul_smul, smul_smul, neg_one_pow_sq, one_smul, one_smul] at h3
  have e : (((-1 : ℝ) ^ a.n : ℝ) : ℂ) * (((-1 : ℝ) ^ a.n : ℝ) : ℂ) = 1 := by exact_mod_cast neg_one_pow_sq a.n
  rwa [e, one_mul] at h3

theorem Spec.Reversed.green_dw (ha : a.Valid) (hr : Reversed η a H' V') (hs : (modelHam a H' V').IsSymm) {i j : Fin a.n} {z g : ℂ}
    (hg : IsGreen beta a.ham (ann ℝ (orb true i)) (cre ℝ (orb true j)) z g) :
    IsGreen beta (modelHam a H' V') (ann ℝ (orb true i)) (cre ℝ (orb true j)) (-z) (-((η i * η j : ℤ) : ℂ) * g) := by
  have h0 := isGreen_raise _ (isGreen_semiconj (shiba_orth hr.sq) (hr.ham ha) hg)
  have e1 := shibaConj_dw hr.sq i
  have e2 := shibaConj_dw_cre hr.sq j
  unfold shibaConj at e1 e2
  rw [e1, e2] at h0
  have h3 := isGreen_smul ((-1 : ℝ) ^ (a.n + 1) * η i) ((-1 : ℝ) ^ (a.n + 1) * η j) (isGreen_neg hs h0)
  have hη : ∀ i : Fin a.n, ((-1 : ℝ) ^ (a.n + 1) * η i) * ((-1 : ℝ) ^ (a.n + 1) * η i) = 1 := fun i => by
    rw [mul_mul_mul_comm, neg_one_pow_sq, one_mul]; exact_mod_cast hr.sq i
  rw [Matrix.transpose_smul, Matrix.transpose_smul, smul_smul, smul_smul, hη, hη, one_smul, one_smul] at h3
  have h4 : (cre ℝ (orb true i))ᵀ = ann ℝ (orb true i) := rfl
  have h5 : (ann ℝ (orb true j))ᵀ = cre ℝ (orb true j) := rfl
  rw [h4, h5] at h3
  convert h3 using 1
  have e : (((-1 : ℝ) ^ (a.n + 1) : ℝ) : ℂ) * (((-1 : ℝ) ^ (a.n + 1) : ℝ) : ℂ) = 1 := by exact_mod_cast neg_one_pow_sq (a.n + 1)
  push_cast at e ⊢
  linear_combination (-(η i * η j * g) : ℂ) * (1 - e)

/-- **C196** `build_gf2_exact`: the Green functions of the up electrons are the same; those of the down electrons are the Green functions of holes, `G'_ij(-z) = -η_i η_j G_ij(z)`. -/
theorem C196_gf2_exact {egs egs' : ℝ} (ha : a.Valid) (hr : Reversed η a H' V') (hes : EigenEspace a.n a.ham es) (hes' : EigenEspace a.n (withModel a H' V').ham es') :
    ∃ Gu Gd Gu' Gd', buildGf2Exact junk a.n es beta egs false = .ok Gu ∧ buildGf2Exact junk a.n es beta egs true = .ok Gd ∧
      buildGf2Exact junk' a.n es' beta egs' false = .ok Gu' ∧ buildGf2Exact junk' a.n es' beta egs' true = .ok Gd' ∧ ∀ (i j : Fin a.n) (e eta : ℝ), eta ≠ 0 →
        (Gu' i j).call e eta = (Gu i j).call e eta ∧ (Gd' i j).call (-e) (-eta) = -((η i * η j : ℤ) : ℂ) * (Gd i j).call e eta := by
  have hm : EigenEspace a.n (modelHam a H' V') es' := hes'
  obtain ⟨Gu, h1, h2⟩ := C93_gf2_exact (junk := junk) (beta := beta) (egs := egs) ha.le hes false
  obtain ⟨Gd, h3, h4⟩ := C93_gf2_exact (junk := junk) (beta := beta) (egs := egs) ha.le hes true
  obtain ⟨Gu', h5, h6⟩ := C93_gf2_exact (junk := junk') (beta := beta) (egs := egs') ha.le hm false
  obtain ⟨Gd', h7, h8⟩ := C93_gf2_exact (junk := junk') (beta := beta) (egs := egs') ha.le hm true
  refine ⟨Gu, Gd, Gu', Gd', h1, h3, h5, h7, fun i j e eta he => ⟨?_, ?_⟩⟩
  · exact ((h6 i j e eta he _).mp (hr.green_up ha ((h2 i j e eta he _).mpr rfl))).symm
  · have := hr.green_dw ha hm.basis.symm ((h4 i j e eta he _).mpr rfl)
    have ez : -((e : ℂ) + Complex.I * eta) = ((-e : ℝ) : ℂ) + Complex.I * ((-eta : ℝ) : ℂ) := by push_cast; ring
    rw [ez] at this
    exact ((h8 i j (-e) (-eta) (neg_ne_zero.mpr he) _).mp this).symm

/-- **C196** `get_occupation`: the occupations of the up electrons are the same, those of the down electrons are the occupations of holes. So the charge of one model is the
magnetisation of the other. -/
theorem C196_occupation {egs egs' : ℝ} (ha : a.Valid) (hr : Reversed η a H' V') (hes : EigenEspace a.n a.ham es) (hes' : EigenEspace a.n (withModel a H' V').ham es')
    {occ occ' : List OccSct} (hocc : List.Forall₂ OccView es occ) (hocc' : List.Forall₂ OccView es' occ') :
    ∃ U D As U' D' As', getOccupation occ egs beta a.n = .ok (U, D, As) ∧ getOccupation occ' egs' beta a.n = .ok (U', D', As') ∧ ∀ k : Fin a.n, U' k = U k ∧ D' k = 1 - D k ∧
      U' k + D' k - 1 = U k - D k ∧ U' k - D' k = U k + D k - 1 := by
  have hm : EigenEspace a.n (modelHam a H' V') es' := hes'
  obtain ⟨U, D, As, h1, h2⟩ := C101_get_occupation hes hocc egs beta
  obtain ⟨U', D', As', h3, h4⟩ := C101_get_occupation hm hocc' egs' beta
  have hup : ∀ k : Fin a.n, thermalOcc beta (modelHam a H' V') false k = thermalOcc beta a.ham false k := fun k => by
    have h3 := thermal_semiconj (shiba_orth hr.sq) (hr.ham ha) beta (cplx (num ℝ (orb false k)))
    have e := shibaConj_num_up hr.sq k
    unfold shibaConj at e
    rw [← cplx_mul', ← cplx_mul', e, thermal_raise] at h3
    exact h3
  have hdw : ∀ k : Fin a.n, thermalOcc beta (modelHam a H' V') true k = 1 - thermalOcc beta a.ham true k := fun k => by
    have h3 := thermal_semiconj (shiba_orth hr.sq) (hr.ham ha) beta (cplx (num ℝ (orb true k)))
    have e := shibaConj_num_dw hr.sq k
    unfold shibaConj at e
    rw [← cplx_mul', ← cplx_mul', e, thermal_raise, cplx_sub', cplx_one', sub_eq_add_neg, thermal_add, ← neg_one_smul ℂ (cplx (num ℝ (orb true k))), thermal_smul, gibbs_trace_pos hm.basis] at h3
    unfold thermalOcc
    linear_combination -h3
  have hU : ∀ k : Fin a.n, U' k = U k := fun k => by
    have e : ((U' k : ℝ) : ℂ) = ((U k : ℝ) : ℂ) := by rw [(h2 k).1, (h4 k).1, hup]
    exact_mod_cast e
  have hD : ∀ k : Fin a.n, D' k = 1 - D k := fun k => by
    have e : ((D' k : ℝ) : ℂ) = ((1 - D k : ℝ) : ℂ) := by push_cast; rw [(h2 k).2, (h4 k).2, hdw]
    exact_mod_cast e
  exact ⟨U, D, As, U', D', As', h1, h3, fun k => ⟨hU k, hD k, by rw [hU, hD]; ring, by rw [hU, hD]; ring⟩⟩

/-- **C196** A bipartite lattice in half-filling mode with all levels at zero: the reversed input is the same input with the opposite interaction. -/
theorem C196_bipartite (hhf : a.hf = true) (hη : ∀ i < a.n, η i = 1 ∨ η i = -1) (hx : a.V.Jx = none) (hp : a.V.Jp = none) (hU : ∀ i j, i < a.n → j < a.n → i ≠ j → a.V.U.getD 0 i j = 0)
    (hl : ∀ i < a.n, a.H 1 i i + a.mu = 0) (hb : ∀ i j, i < a.n → j < a.n → i ≠ j → η i = η j → a.H 1 i j = 0) : Reversed η a a.H (fun i j => -(a.V.U.getD 0 i j)) := by
  refine ⟨hη, hx, hp, hU, fun _ _ _ _ => rfl, fun _ _ _ _ _ => rfl, fun i j hi hj hij => ?_, fun i hi => by rw [hhf]; simp, fun i hi => by rw [hl i hi, neg_zero]⟩
  by_cases h : η i = η j
  · rw [hb i j hi hj hij h, mul_zero]
  · rcases hη i hi with h1 | h1 <;> rcases hη j hj with h2 | h2 <;> simp [h1, h2] at h ⊢

/-- **C196** So the energies of such a lattice with repulsion in the sector `(p, q)` are the energies with attraction in the sector `(p, n - q)`. -/
theorem C196_bipartite_levels (ha : a.Valid) (hw : a.n ≤ w) (hw' : a.n ≤ w') (hhf : a.hf = true) (hη : ∀ i < a.n, η i = 1 ∨ η i = -1) (hx : a.V.Jx = none) (hp : a.V.Jp = none)
    (hU : ∀ i j, i < a.n → j < a.n → i ≠ j → a.V.U.getD 0 i j = 0) (hl : ∀ i < a.n, a.H 1 i i + a.mu = 0) (hb : ∀ i j, i < a.n → j < a.n → i ≠ j → η i = η j → a.H 1 i j = 0)
    (h : BuildEspace w a none (.ok (es, egs))) (h' : BuildEspace w' (withModel a a.H fun i j => -(a.V.U.getD 0 i j)) none (.ok (es', egs'))) {p q : ℕ} {I J : Sct} (hI : ((p, q), I) ∈ es)
    (hJ : ((p, a.n - q), J) ∈ es') : I.eigvals = J.eigvals := by
  have hv : (withModel a a.H fun i j => -(a.V.U.getD 0 i j)).Valid := ⟨ha.two_le, ha.le, rfl, ha.symmH, by simp [withModel, VArg.array], by simp [withModel, VArg.array], fun _ => rfl⟩
  have := C196_levels ha hv hw hw' (C196_bipartite hhf hη hx hp hU hl hb) h h' hI hJ
  have h0 : ∑ i : Fin a.n, (a.H 1 i i + a.mu) = 0 := Finset.sum_eq_zero fun i _ => hl i i.2
  rw [this, h0]
  simp

/-- **C196** The charge analogue of the spin multiplets: on such a lattice without magnetic field every level of a sector is a level, with at least the same multiplicity, of every sector
with the same magnetisation that is at least as close to half filling. -/
theorem C196_pseudospin (ha : a.Valid) (hw : a.n ≤ w) (hs : a.SpinFree) (hhf : a.hf = true) (hη : ∀ i < a.n, η i = 1 ∨ η i = -1) (hx : a.V.Jx = none) (hp : a.V.Jp = none)
    (hU : ∀ i j, i < a.n → j < a.n → i ≠ j → a.V.U.getD 0 i j = 0) (hl : ∀ i < a.n, a.H 1 i i + a.mu = 0) (hb : ∀ i j, i < a.n → j < a.n → i ≠ j → η i = η j → a.H 1 i j = 0)
    (h : BuildEspace w a none (.ok (es, egs))) {p q p' q' : ℕ} {I J : Sct} (hI : ((p, q), I) ∈ es) (hJ : ((p', q'), J) ∈ es) (hM : (p' : ℤ) - q' = p - q)
    (hN : |(p' : ℤ) + q' - a.n| ≤ |(p : ℤ) + q - a.n|) (x : ℝ) : I.eigvals.count x ≤ J.eigvals.count x := by
  have hv : (withModel a a.H fun i j => -(a.V.U.getD 0 i j)).Valid := ⟨ha.two_le, ha.le, rfl, ha.symmH, by simp [withModel, VArg.array], by simp [withModel, VArg.array], fun _ => rfl⟩
  obtain ⟨⟨es', E'⟩, h'⟩ := (buildEspace_none_ok (w := w) hv hw).1
  have e := buildEspace_eigen ha hw h
  have e' : EigenEspace a.n (modelHam a a.H fun i j => -(a.V.U.getD 0 i j)) es' := buildEspace_eigen hv hw h'
  obtain ⟨-, hp1, hq1⟩ := sctAt_of_mem e hI
  obtain ⟨-, hp2, hq2⟩ := sctAt_of_mem e hJ
  obtain ⟨-, -, hI', -⟩ := e'.toCompleteEspace.at (u := p) (d := a.n - q) hp1 (by omega)
  obtain ⟨-, -, hJ', -⟩ := e'.toCompleteEspace.at (u := p') (d := a.n - q') hp2 (by omega)
  rw [C196_bipartite_levels ha hw hw hhf hη hx hp hU hl hb h h' hI hI', C196_bipartite_levels ha hw hw hhf hη hx hp hU hl hb h h' hJ hJ']
  refine C130_multiplets_partial hv hw hs ?_ h' hI' hJ' (by omega) ?_ x
  · intro A hA
    simp [withModel, VArg.array] at hA
  · rw [Nat.cast_sub hq2, Nat.cast_sub hq1]
    rw [show (p' : ℤ) - (a.n - q') = p' + q' - a.n by ring, show (p : ℤ) - (a.n - q) = p + q - a.n by ring]
    exact hN

/-- A dimer with repulsion `4` and the same dimer with attraction `4`: hypotheses, runs and occupations. -/
example : ∃ es es' : Espace (ℕ × ℕ), EigenEspace 2 exampleArgs.ham es ∧ EigenEspace 2 (withModel exampleArgs exampleArgs.H fun i j => if i = j then -4 else 0).ham es' ∧
    Reversed (fun i => if i = 0 then 1 else -1) exampleArgs exampleArgs.H (fun i j => if i = j then -4 else 0) ∧ ∃ Gu Gu', buildGf2Exact 0 2 es 1 0 false = .ok Gu ∧
      buildGf2Exact 0 2 es' 1 0 false = .ok Gu' ∧ (Gu' 0 1).call 1 1 = (Gu 0 1).call 1 1 := by
  have hr : Reversed (fun i => if i = 0 then 1 else -1) exampleArgs exampleArgs.H (fun i j => if i = j then -4 else 0) := by
    have h := C196_bipartite (a := exampleArgs) (η := fun i => if i = 0 then 1 else -1) rfl (fun i _ => by split_ifs <;> simp) rfl rfl
      (fun i j _ _ hij => by simp [exampleArgs, VArg.array, hij]) (fun i _ => by simp [exampleArgs]) (fun i j hi hj hij h => by
        have hi' : i < 2 := hi
        have hj' : j < 2 := hj
        interval_cases i <;> interval_cases j <;> simp_all)
    have e : (fun i j : ℕ => -(exampleArgs.V.U.getD 0 i j)) = fun i j => if i = j then -4 else 0 := by
      funext i j
      by_cases hij : i = j <;> simp [exampleArgs, VArg.array, hij]
    rwa [e] at h
  have hv : (withModel exampleArgs exampleArgs.H fun i j => if i = j then -4 else 0).Valid :=
    ⟨le_rfl, by simp [withModel, exampleArgs], rfl, exampleArgs_valid.symmH, by simp [withModel, VArg.array], by simp [withModel, VArg.array], fun _ => rfl⟩
  obtain ⟨es, hes⟩ := eigenEspace_exists exampleArgs_valid
  obtain ⟨es', hes'⟩ := eigenEspace_exists hv
  obtain ⟨Gu, Gd, Gu', Gd', h1, -, h2, -, h3⟩ := C196_gf2_exact (junk := 0) (junk' := 0) (beta := 1) (egs := 0) (egs' := 0) exampleArgs_valid hr hes hes'
  exact ⟨es, es', hes, hes', hr, Gu, Gu', h1, h2, (h3 (0 : Fin 2) (1 : Fin 2) 1 1 one_ne_zero).1⟩

end Edpyt
