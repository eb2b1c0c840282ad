import Verif.Props.Symmetry
/-!
C113: the numbering of the sites and the naming of the spins do not matter.
-/
namespace Edpyt
open Matrix Spec

section
variable {ι : Type} [Fintype ι] [DecidableEq ι]

theorem gibbs_semiconj {P H H' : Matrix ι ι ℝ} (hP : Pᵀ * P = 1) (hH : P * H = H' * P) (β : ℝ) : P * gibbsOp β H = gibbsOp β H' * P := by
  have hP' : P * Pᵀ = 1 := _root_.mul_eq_one_comm.mp hP
  have hu : IsUnit P := ⟨⟨P, Pᵀ, hP', hP⟩, rfl⟩
  have hinv : P⁻¹ = Pᵀ := Matrix.inv_eq_right_inv hP'
  have h1 : -β • H' = P * (-β • H) * P⁻¹ := by
    rw [hinv, Matrix.mul_smul, hH, Matrix.smul_mul, Matrix.mul_assoc, hP', Matrix.mul_one]
  unfold gibbsOp
  rw [h1, Matrix.exp_conj P _ hu, hinv, Matrix.mul_assoc, hP, Matrix.mul_one]

theorem thermal_semiconj {P H H' : Matrix ι ι ℝ} (hP : Pᵀ * P = 1) (hH : P * H = H' * P) (β : ℝ) (A : Matrix ι ι ℂ) :
    thermal β H' (cplx P * A * cplx Pᵀ) = thermal β H A := by
  have hρ := gibbs_semiconj hP hH β
  have hP' : P * Pᵀ = 1 := _root_.mul_eq_one_comm.mp hP
  have e : ∀ B : Matrix ι ι ℂ, trace (cplx (gibbsOp β H') * (cplx P * B * cplx Pᵀ)) = trace (cplx (gibbsOp β H) * B) := by
    intro B
    have h1 : cplx (gibbsOp β H') * (cplx P * B * cplx Pᵀ) = cplx P * (cplx (gibbsOp β H) * B * cplx Pᵀ) := by
      simp only [← Matrix.mul_assoc]
      rw [← cplx_mul', ← cplx_mul', hρ]
    rw [h1, Matrix.trace_mul_comm, Matrix.mul_assoc, ← cplx_mul', hP, cplx_one', Matrix.mul_one]
  have e1 := e 1
  rw [Matrix.mul_one, ← cplx_mul', hP', cplx_one', Matrix.mul_one, Matrix.mul_one] at e1
  unfold thermal
  rw [e A, e1]

theorem isGreen_semiconj {P H H' A B : Matrix ι ι ℝ} (hP : Pᵀ * P = 1) (hH : P * H = H' * P) {β : ℝ} {z g : ℂ} (h : IsGreen β H A B z g) :
    IsGreen β H' (P * A * Pᵀ) (P * B * Pᵀ) z g := by
  obtain ⟨X, hX, hg⟩ := h
  have hP' : cplx Pᵀ * cplx P = 1 := by rw [← cplx_mul', hP, cplx_one']
  have hHT : Pᵀ * H' = H * Pᵀ := by
    have h2 : P * Pᵀ = 1 := _root_.mul_eq_one_comm.mp hP
    calc Pᵀ * H' = Pᵀ * (H' * (P * Pᵀ)) := by rw [h2, Matrix.mul_one]
      _ = Pᵀ * (H' * P) * Pᵀ := by simp only [Matrix.mul_assoc]
      _ = H * Pᵀ := by rw [← hH, ← Matrix.mul_assoc, hP, Matrix.one_mul]
  have c1 : cplx P * cplx H = cplx H' * cplx P := by rw [← cplx_mul', ← cplx_mul', hH]
  have c2 : cplx Pᵀ * cplx H' = cplx H * cplx Pᵀ := by rw [← cplx_mul', ← cplx_mul', hHT]
  refine ⟨cplx P * X * cplx Pᵀ, ?_, ?_⟩
  · rw [cplx_mul', cplx_mul', ← hX]
    have e1 : cplx P * X * cplx Pᵀ * cplx H' = cplx P * (X * cplx H) * cplx Pᵀ := by
      simp only [Matrix.mul_assoc, c2]
    have e2 : cplx H' * (cplx P * X * cplx Pᵀ) = cplx P * (cplx H * X) * cplx Pᵀ := by
      simp only [← Matrix.mul_assoc, c1]
    rw [e1, e2, Matrix.mul_sub, Matrix.sub_mul, Matrix.mul_sub, Matrix.sub_mul, Matrix.mul_smul, Matrix.smul_mul]
  · have e3 : ∀ C D : Matrix ι ι ℂ, cplx P * C * cplx Pᵀ * (cplx P * D * cplx Pᵀ) = cplx P * (C * D) * cplx Pᵀ := by
      intro C D
      have : cplx P * C * cplx Pᵀ * (cplx P * D * cplx Pᵀ) = cplx P * C * (cplx Pᵀ * cplx P) * D * cplx Pᵀ := by simp only [Matrix.mul_assoc]
      rw [this, hP', Matrix.mul_one]
      simp only [Matrix.mul_assoc]
    rw [cplx_mul' _ Pᵀ, cplx_mul', e3, e3, ← Matrix.add_mul, ← Matrix.mul_add, thermal_semiconj hP hH, hg]

end

section
variable {n : ℕ} (b : Bool) (τ : Equiv.Perm (Fin n))

theorem kinetic_cov {t t' : Bool → Fin n → Fin n → ℝ} (ht : ∀ s i j, t' (xor s b) (τ i) (τ j) = t s i j) : permConj ℝ (modePerm b τ) (kinetic t) = kinetic t' := by
  unfold kinetic
  simp only [permConj_sum, permConj_smul, permConj_mul, permConj_ann, permConj_cre, modePerm_orb]
  rw [← sum_xor b fun s => ∑ i, ∑ j, t' s i j • (cre ℝ (orb s i) * ann ℝ (orb s j))]
  refine Finset.sum_congr rfl fun s _ => ?_
  rw [← Equiv.sum_comp τ fun i => ∑ j, t' (xor s b) i j • (cre ℝ (orb (xor s b) i) * ann ℝ (orb (xor s b) j))]
  refine Finset.sum_congr rfl fun i _ => ?_
  rw [← Equiv.sum_comp τ fun j => t' (xor s b) (τ i) j • (cre ℝ (orb (xor s b) (τ i)) * ann ℝ (orb (xor s b) j))]
  exact Finset.sum_congr rfl fun j _ => by rw [ht]

theorem onsite_cov (hf : Bool) {V V' : Fin n → Fin n → ℝ} (hV : ∀ i j, V' (τ i) (τ j) = V i j) : permConj ℝ (modePerm b τ) (onsiteU hf V) = onsiteU hf V' := by
  unfold onsiteU
  simp only [permConj_sum, permConj_smul, permConj_mul, permConj_sub, permConj_one, permConj_num, modePerm_orb]
  rw [← Equiv.sum_comp τ fun i => V' i i • ((num ℝ (orb false i) - (if hf then 1 / 2 else 0 : ℝ) • 1) * (num ℝ (orb true i) - (if hf then 1 / 2 else 0 : ℝ) • 1))]
  refine Finset.sum_congr rfl fun i _ => ?_
  rw [hV]
  congr 1
  cases b
  · rfl
  · simp only [Bool.false_xor, Bool.true_xor, Bool.not_true]
    have h : Commute (num ℝ (orb true (τ i))) (num ℝ (orb false (τ i))) := num_mul_comm _ _
    have h2 : Commute (num ℝ (orb true (τ i)) - (if hf then 1 / 2 else 0 : ℝ) • 1) (num ℝ (orb false (τ i)) - (if hf then 1 / 2 else 0 : ℝ) • 1) :=
      (h.sub_right ((Commute.one_right _).smul_right _)).sub_left (((Commute.one_left _).smul_left _))
    exact h2

theorem interSite_cov {z z' : Fin n → ℝ} (hz : ∀ i, z' (τ i) = z i) {V V' : Fin n → Fin n → ℝ} (hV : ∀ i j, V' (τ i) (τ j) = V i j) :
    permConj ℝ (modePerm b τ) (interSite z V) = interSite z' V' := by
  unfold interSite
  simp only [permConj_sum, permConj_smul, permConj_mul, permConj_sub, permConj_add, permConj_one, permConj_num, modePerm_orb]
  refine congrArg _ ?_
  have hs : ∀ i, num ℝ (orb (xor false b) (τ i)) + num ℝ (orb (xor true b) (τ i)) = num ℝ (orb false (τ i)) + num ℝ (orb true (τ i)) := by
    intro i; cases b
    · rfl
    · simp [add_comm]
  rw [← Equiv.sum_comp τ fun i => ∑ j, (if i ≠ j then V' i j else 0) •
    ((num ℝ (orb false i) + num ℝ (orb true i) - z' i • 1) * (num ℝ (orb false j) + num ℝ (orb true j) - z' j • 1))]
  refine Finset.sum_congr rfl fun i _ => ?_
  rw [← Equiv.sum_comp τ fun j => (if τ i ≠ j then V' (τ i) j else 0) •
    ((num ℝ (orb false (τ i)) + num ℝ (orb true (τ i)) - z' (τ i) • 1) * (num ℝ (orb false j) + num ℝ (orb true j) - z' j • 1))]
  refine Finset.sum_congr rfl fun j _ => ?_
  rw [hs, hs, hz, hz, hV]
  simp only [ne_eq, EmbeddingLike.apply_eq_iff_eq]

theorem exchange_cov_aux (J J' : Fin n → Fin n → ℝ) (hJ : ∀ i j, J' (τ i) (τ j) = J i j) (F : Bool → Fin n → Fin n → Matrix (Finset (Fin (n + n))) (Finset (Fin (n + n))) ℝ)
    (hF : ∀ s i j, permConj ℝ (modePerm b τ) (F s i j) = F (xor s b) (τ i) (τ j)) :
    permConj ℝ (modePerm b τ) ((1 / 2 : ℝ) • ∑ i, ∑ j, J i j • ∑ s : Bool, F s i j) = (1 / 2 : ℝ) • ∑ i, ∑ j, J' i j • ∑ s : Bool, F s i j := by
  simp only [permConj_sum, permConj_smul, hF]
  refine congrArg _ ?_
  rw [← Equiv.sum_comp τ fun i => ∑ j, J' i j • ∑ s : Bool, F s i j]
  refine Finset.sum_congr rfl fun i _ => ?_
  rw [← Equiv.sum_comp τ fun j => J' (τ i) j • ∑ s : Bool, F s (τ i) j]
  refine Finset.sum_congr rfl fun j _ => ?_
  rw [hJ, sum_xor b fun s => F s (τ i) (τ j)]

theorem codeExchange_cov {Jx Jp Jx' Jp' : Option (ℕ → ℕ → ℝ)} (hx : ∀ i j : Fin n, optMat Jx' (τ i) (τ j) = optMat Jx i j) (hp : ∀ i j : Fin n, optMat Jp' (τ i) (τ j) = optMat Jp i j) :
    permConj ℝ (modePerm b τ) (codeExchange (n := n) Jx Jp) = codeExchange Jx' Jp' := by
  have ho : ∀ J J' : Option (ℕ → ℕ → ℝ), (∀ i j : Fin n, optMat J' (τ i) (τ j) = optMat J i j) → ∀ i j, offdiag (n := n) (optMat J') (τ i) (τ j) = offdiag (n := n) (optMat J) i j := by
    intro J J' hJ i j
    unfold offdiag
    rw [hJ]
    simp only [ne_eq, EmbeddingLike.apply_eq_iff_eq]
  have hx' := ho _ _ hx
  have hp' := ho _ _ hp
  have hb : ∀ s : Bool, (!xor s b) = xor (!s) b := by intro s; cases s <;> cases b <;> rfl
  unfold codeExchange
  rw [permConj_add, permConj_sub]
  unfold exchangeSame exchangeFlip pairHopping
  rw [exchange_cov_aux b τ _ _ hx', exchange_cov_aux b τ _ _ hx', exchange_cov_aux b τ _ _ hp']
  all_goals intro s i j; simp only [permConj_mul, permConj_ann, permConj_cre, modePerm_orb, hb]

end

/-- `a` with other one-body array, interaction and reference occupations. -/
def HamArgs.withInput (a : HamArgs) (H : ℕ → ℕ → ℕ → ℝ) (V : VArg ℝ) (z : Option (ℕ → ℝ)) : HamArgs := { a with H := H, V := V, z := z }

/-- Its Hamiltonian, with the number of sites of `a`. -/
noncomputable def HamArgs.hamWith (a : HamArgs) (H : ℕ → ℕ → ℕ → ℝ) (V : VArg ℝ) (z : Option (ℕ → ℝ)) : Matrix (Finset (Fin (a.n + a.n))) (Finset (Fin (a.n + a.n))) ℝ := (a.withInput H V z).ham

/-- Site `i` of `a` is called `τ i` in the new input, and spin `s` is called `s xor b`. -/
structure HamArgs.Relabel (a : HamArgs) (b : Bool) (τ : Equiv.Perm (Fin a.n)) (H : ℕ → ℕ → ℕ → ℝ) (V : VArg ℝ) (z : Option (ℕ → ℝ)) : Prop where
  H : ∀ (s : Bool) (i j : Fin a.n), H (if xor s b then 1 else 0) (τ i) (τ j) = a.H (if s then 1 else 0) i j
  U : ∀ i j : Fin a.n, V.U.getD 0 (τ i) (τ j) = a.V.U.getD 0 i j
  z : (z = none ∧ a.z = none) ∨ ∃ v v', z = some v' ∧ a.z = some v ∧ ∀ i : Fin a.n, v' (τ i) = v i
  Jx : (V.Jx = none ∧ a.V.Jx = none) ∨ ∃ A A', V.Jx = some A' ∧ a.V.Jx = some A ∧ ∀ i j : Fin a.n, A' (τ i) (τ j) = A i j
  Jp : (V.Jp = none ∧ a.V.Jp = none) ∨ ∃ A A', V.Jp = some A' ∧ a.V.Jp = some A ∧ ∀ i j : Fin a.n, A' (τ i) (τ j) = A i j

section
variable {a : HamArgs} {b : Bool} {τ : Equiv.Perm (Fin a.n)} {H' : ℕ → ℕ → ℕ → ℝ} {V' : VArg ℝ} {z' : Option (ℕ → ℝ)}

theorem HamArgs.Relabel.ham (h : a.Relabel b τ H' V' z') :
    permOp ℝ (modePerm b τ) * a.ham = (a.hamWith H' V' z') * permOp ℝ (modePerm b τ) := by
  have ho : ∀ {J J' : Option (ℕ → ℕ → ℝ)}, ((J' = none ∧ J = none) ∨ ∃ A A', J' = some A' ∧ J = some A ∧ ∀ i j : Fin a.n, A' (τ i) (τ j) = A i j) →
      ∀ i j : Fin a.n, optMat J' (τ i) (τ j) = optMat J i j := by
    intro J J' h i j
    rcases h with ⟨rfl, rfl⟩ | ⟨A, A', rfl, rfl, h⟩
    · rfl
    · exact h i j
  have h1 : permConj ℝ (modePerm b τ) a.ham = (a.hamWith H' V' z') := by
    unfold HamArgs.hamWith HamArgs.ham hubbard
    rw [permConj_add, permConj_add, permConj_add, kinetic_cov b τ (t' := fun s => kept (n := a.n) a.mu (H' (if s then 1 else 0))), onsite_cov b τ a.hf (V' := fun i j : Fin a.n => V'.U.getD 0 i j) h.U, interSite_cov b τ (V' := fun i j : Fin a.n => V'.U.getD 0 i j) (z' := fun i : Fin a.n => (z'.getD (fun _ => if a.hf then 1 else 0)) i) _ h.U, codeExchange_cov b τ (ho h.Jx) (ho h.Jp)]
    · rfl
    · intro i
      rcases h.z with ⟨h1, h2⟩ | ⟨v, v', h1, h2, h3⟩
      · rw [h1, h2]; rfl
      · rw [h1, h2]; exact h3 i
    · intro s i j
      rw [kept_apply, kept_apply]
      simp only [HamArgs.withInput, h.H, EmbeddingLike.apply_eq_iff_eq]
  unfold permConj at h1
  calc permOp ℝ (modePerm b τ) * a.ham = permOp ℝ (modePerm b τ) * a.ham * ((permOp ℝ (modePerm b τ))ᵀ * permOp ℝ (modePerm b τ)) := by rw [permOp_orth, Matrix.mul_one]
    _ = _ := by rw [← Matrix.mul_assoc, h1]

variable {junk : ℕ} {es : Espace (ℕ × ℕ)} {egs beta : ℝ}

theorem HamArgs.Relabel.green (h : a.Relabel b τ H' V' z') {s : Bool} {i j : Fin a.n} {z g : ℂ}
    (hg : IsGreen beta a.ham (ann ℝ (orb s i)) (cre ℝ (orb s j)) z g) :
    IsGreen beta (a.hamWith H' V' z') (ann ℝ (orb (xor s b) (τ i))) (cre ℝ (orb (xor s b) (τ j))) z g := by
  have := isGreen_semiconj (permOp_orth ℝ (modePerm b τ)) h.ham hg
  have h1 := permConj_ann (R := ℝ) (modePerm b τ) (orb s i)
  have h2 := permConj_cre (R := ℝ) (modePerm b τ) (orb s j)
  unfold permConj at h1 h2
  rwa [h1, h2, modePerm_orb, modePerm_orb] at this

theorem HamArgs.Relabel.occ (h : a.Relabel b τ H' V' z') (s : Bool) (i : Fin a.n) :
    thermalOcc beta (a.hamWith H' V' z') (xor s b) (τ i) = thermalOcc beta a.ham s i := by
  unfold thermalOcc
  rw [← thermal_semiconj (permOp_orth ℝ (modePerm b τ)) h.ham beta (cplx (num ℝ (orb s i))), ← cplx_mul', ← cplx_mul']
  have h1 := permConj_num (R := ℝ) (modePerm b τ) (orb s i)
  unfold permConj at h1
  rw [h1, modePerm_orb]

/-- **C113** `build_gf2_exact`: renaming the sites (and exchanging the spins) renames the Green functions. -/
theorem C113_gf2_exact (ha : a.Valid) (h : a.Relabel b τ H' V' z') (hes : EigenEspace a.n a.ham es)
    {junk' : ℕ} {es' : Espace (ℕ × ℕ)} {egs' : ℝ} (hes' : EigenEspace a.n (a.hamWith H' V' z') es') (s : Bool) :
    ∃ G G', buildGf2Exact junk a.n es beta egs s = .ok G ∧ buildGf2Exact junk' a.n es' beta egs' (xor s b) = .ok G' ∧ ∀ (i j : Fin a.n) (e eta : ℝ), eta ≠ 0 →
      (G' (τ i) (τ j)).call e eta = (G i j).call e eta := by
  obtain ⟨G, h1, h2⟩ := C93_gf2_exact (junk := junk) (beta := beta) (egs := egs) ha.le hes s
  obtain ⟨G', h1', h2'⟩ := C93_gf2_exact (junk := junk') (beta := beta) (egs := egs') ha.le hes' (xor s b)
  refine ⟨G, G', h1, h1', fun i j e eta he => ?_⟩
  exact ((h2' (τ i) (τ j) e eta he _).mp (h.green ((h2 i j e eta he _).mpr rfl))).symm

/-- **C113** `build_gf_exact`. -/
theorem C113_gf_exact (ha : a.Valid) (h : a.Relabel false τ H' V' z') (hes : EigenEspace a.n a.ham es)
    {junk' : ℕ} {es' : Espace (ℕ × ℕ)} {egs' : ℝ} (hes' : EigenEspace a.n (a.hamWith H' V' z') es') (i : Fin a.n) :
    ∃ g g', buildGfExact junk a.n es beta egs i false = .ok g ∧ buildGfExact junk' a.n es' beta egs' (τ i) false = .ok g' ∧
      ∀ e eta : ℝ, eta ≠ 0 → g'.call e eta = g.call e eta := by
  obtain ⟨g, h1, h2⟩ := C92_gf_exact (junk := junk) (beta := beta) (egs := egs) ha.le hes i.2
  obtain ⟨g', h1', h2'⟩ := C92_gf_exact (junk := junk') (beta := beta) (egs := egs') ha.le hes' (τ i).2
  exact ⟨g, g', h1, h1', fun e eta he => ((h2' e eta he _).mp (h.green ((h2 e eta he _).mpr rfl))).symm⟩

/-- **C113** `get_occupation`. -/
theorem C113_occupation (h : a.Relabel b τ H' V' z') (hes : EigenEspace a.n a.ham es) {occ : List OccSct} (hocc : List.Forall₂ OccView es occ)
    {es' : Espace (ℕ × ℕ)} {egs' : ℝ} (hes' : EigenEspace a.n (a.hamWith H' V' z') es') {occ' : List OccSct} (hocc' : List.Forall₂ OccView es' occ') :
    ∃ U D As U' D' As', getOccupation occ egs beta a.n = .ok (U, D, As) ∧ getOccupation occ' egs' beta a.n = .ok (U', D', As') ∧
      ∀ k : Fin a.n, if b then U' (τ k) = D k ∧ D' (τ k) = U k else U' (τ k) = U k ∧ D' (τ k) = D k := by
  obtain ⟨U, D, As, h1, h2⟩ := C101_get_occupation hes hocc egs beta
  obtain ⟨U', D', As', h1', h2'⟩ := C101_get_occupation hes' hocc' egs' beta
  refine ⟨U, D, As, U', D', As', h1, h1', fun k => ?_⟩
  have hu := h.occ (beta := beta) false k
  have hd := h.occ (beta := beta) true k
  cases b
  · exact ⟨Complex.ofReal_injective (((h2' (τ k)).1.trans hu).trans (h2 k).1.symm), Complex.ofReal_injective (((h2' (τ k)).2.trans hd).trans (h2 k).2.symm)⟩
  · exact ⟨Complex.ofReal_injective (((h2' (τ k)).1.trans hd).trans (h2 k).2.symm), Complex.ofReal_injective (((h2' (τ k)).2.trans hu).trans (h2 k).1.symm)⟩

/-- **C113** energies: every eigenvalue of one input is an eigenvalue of the other. -/
theorem C113_energies (h : a.Relabel b τ H' V' z') (E : ℝ) :
    (∃ ψ, ψ ≠ 0 ∧ a.ham *ᵥ ψ = E • ψ) ↔ ∃ ψ, ψ ≠ 0 ∧ (a.hamWith H' V' z') *ᵥ ψ = E • ψ := by
  have hP := permOp_orth ℝ (modePerm b τ)
  have hP' : permOp ℝ (modePerm b τ) * (permOp ℝ (modePerm b τ))ᵀ = 1 := _root_.mul_eq_one_comm.mp hP
  constructor
  · rintro ⟨ψ, h0, h1⟩
    refine ⟨permOp ℝ (modePerm b τ) *ᵥ ψ, fun hz => h0 ?_, ?_⟩
    · rw [← Matrix.one_mulVec ψ, ← hP, ← Matrix.mulVec_mulVec, hz, Matrix.mulVec_zero]
    · rw [Matrix.mulVec_mulVec, ← h.ham, ← Matrix.mulVec_mulVec, h1, Matrix.mulVec_smul]
  · rintro ⟨ψ, h0, h1⟩
    refine ⟨(permOp ℝ (modePerm b τ))ᵀ *ᵥ ψ, fun hz => h0 ?_, ?_⟩
    · rw [← Matrix.one_mulVec ψ, ← hP', ← Matrix.mulVec_mulVec, hz, Matrix.mulVec_zero]
    · have h2 : a.ham * (permOp ℝ (modePerm b τ))ᵀ = (permOp ℝ (modePerm b τ))ᵀ * (a.hamWith H' V' z') := by
        calc a.ham * (permOp ℝ (modePerm b τ))ᵀ = (permOp ℝ (modePerm b τ))ᵀ * (permOp ℝ (modePerm b τ) * a.ham) * (permOp ℝ (modePerm b τ))ᵀ := by
              rw [← Matrix.mul_assoc, hP, Matrix.one_mul]
          _ = _ := by rw [h.ham, Matrix.mul_assoc, Matrix.mul_assoc, hP']; exact congrArg _ (Matrix.mul_one _)
      rw [Matrix.mulVec_mulVec, h2, ← Matrix.mulVec_mulVec, h1, Matrix.mulVec_smul]

end

/-- Exchanging the two sites of a dimer with different levels: sites 0 and 1 of one input are sites 1 and 0 of the other. -/
example : ∃ a : HamArgs, ∃ τ : Equiv.Perm (Fin a.n), ∃ H' V', a.Valid ∧ a.Relabel true τ H' V' none ∧ H' 1 1 1 ≠ a.H 1 1 1 := by
  let a : HamArgs := ⟨2, fun s i j => if i = j then i + 2 * s else 1, .array fun i j => if i = j then 4 + i else 0, none, true, 0⟩
  refine ⟨a, (Equiv.swap (0 : Fin 2) 1 : Equiv.Perm (Fin 2)), fun s i j => if i = j then 1 - i + 2 * (1 - s) else 1, .array fun i j => if i = j then 5 - i else 0, ⟨le_refl 2, by simp [a], rfl, ?_, by simp [a, VArg.array], by simp [a, VArg.array], by simp [a, VArg.array]⟩,
    ⟨?_, ?_, Or.inl ⟨rfl, rfl⟩, Or.inl ⟨rfl, rfl⟩, Or.inl ⟨rfl, rfl⟩⟩, ?_⟩
  · intro s i j _ _
    simp only [a]
    by_cases h : i = j
    · subst h; rfl
    · rw [if_neg h, if_neg (Ne.symm h)]
  · have : ∀ (s : Bool) (i j : Fin 2), (if ((Equiv.swap (0 : Fin 2) 1 i : Fin 2) : ℕ) = ((Equiv.swap (0 : Fin 2) 1 j : Fin 2) : ℕ) then (1 : ℝ) - ((Equiv.swap (0 : Fin 2) 1 i : Fin 2) : ℕ) + 2 * (1 - ((if xor s true then 1 else 0 : ℕ) : ℝ)) else 1) =
      if (i : ℕ) = j then ((i : ℕ) : ℝ) + 2 * ((if s then 1 else 0 : ℕ) : ℝ) else 1 := by
      intro s i j
      cases s <;> fin_cases i <;> fin_cases j <;> simp
    exact this
  · have : ∀ i j : Fin 2, (if ((Equiv.swap (0 : Fin 2) 1 i : Fin 2) : ℕ) = ((Equiv.swap (0 : Fin 2) 1 j : Fin 2) : ℕ) then (5 : ℝ) - ((Equiv.swap (0 : Fin 2) 1 i : Fin 2) : ℕ) else 0) =
      if (i : ℕ) = j then (4 : ℝ) + ((i : ℕ) : ℝ) else 0 := by
      intro i j
      fin_cases i <;> fin_cases j <;> norm_num
    exact this
  · norm_num [a]

end Edpyt
