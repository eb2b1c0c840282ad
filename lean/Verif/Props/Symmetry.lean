import Verif.Proof.FockSym
import Verif.Props.SelfEnergy
/-!
C109: spin-independent input gives spin-independent Green functions and occupations.
C110: sites related by a symmetry of the input have equal Green functions and occupations.
-/
namespace Edpyt
open Matrix Spec

section
variable {n : ℕ}

/-- The mode permutation that maps site `i` to `τ i` and flips the spin if `b`. -/
def modePerm (b : Bool) (τ : Equiv.Perm (Fin n)) : Equiv.Perm (Fin (n + n)) :=
  (finSumFinEquiv.symm.trans (((Equiv.sumCongr τ τ)).trans (if b then Equiv.sumComm _ _ else Equiv.refl _))).trans finSumFinEquiv

theorem modePerm_orb (b : Bool) (τ : Equiv.Perm (Fin n)) (s : Bool) (i : Fin n) : modePerm b τ (orb s i) = orb (xor s b) (τ i) := by
  cases b <;> cases s <;> simp [modePerm, orb, -Fin.natAdd_eq_addNat]

end

/-- The input is invariant under the site permutation `τ`, with exchange of the two spins if `b`. -/
structure HamArgs.Invariant (a : HamArgs) (b : Bool) (τ : Equiv.Perm (Fin a.n)) : Prop where
  H : ∀ (s : Bool) (i j : Fin a.n), a.H (if xor s b then 1 else 0) (τ i) (τ j) = a.H (if s then 1 else 0) i j
  U : ∀ i j : Fin a.n, a.V.U.getD 0 (τ i) (τ j) = a.V.U.getD 0 i j
  z : ∀ v ∈ a.z, ∀ i : Fin a.n, v (τ i) = v i
  Jx : ∀ A ∈ a.V.Jx, ∀ i j : Fin a.n, A (τ i) (τ j) = A i j
  Jp : ∀ A ∈ a.V.Jp, ∀ i j : Fin a.n, A (τ i) (τ j) = A i j

section
variable {n : ℕ} (b : Bool) (τ : Equiv.Perm (Fin n))

theorem sum_xor {α : Type} [AddCommMonoid α] (f : Bool → α) : ∑ s : Bool, f (xor s b) = ∑ s : Bool, f s := by
  cases b
  · simp
  · simp [add_comm]

theorem kinetic_conj {t : Bool → Fin n → Fin n → ℝ} (ht : ∀ s i j, t (xor s b) (τ i) (τ j) = t s i j) : permConj ℝ (modePerm b τ) (kinetic t) = kinetic t := by
  unfold kinetic
  simp only [permConj_sum, permConj_smul, permConj_mul, permConj_ann, permConj_cre, modePerm_orb]
  rw [← sum_xor b fun s => ∑ i, ∑ j, t s i j • (cre ℝ (orb s i) * ann ℝ (orb s j))]
  refine Finset.sum_congr rfl fun s _ => ?_
  rw [← Equiv.sum_comp τ fun i => ∑ j, t (xor s b) i j • (cre ℝ (orb (xor s b) i) * ann ℝ (orb (xor s b) j))]
  refine Finset.sum_congr rfl fun i _ => ?_
  rw [← Equiv.sum_comp τ fun j => t (xor s b) (τ i) j • (cre ℝ (orb (xor s b) (τ i)) * ann ℝ (orb (xor s b) j))]
  exact Finset.sum_congr rfl fun j _ => by rw [ht]

theorem num_mul_comm {M : Type} [Fintype M] [LinearOrder M] (k l : M) : num ℝ k * num ℝ l = num ℝ l * num ℝ k := by
  ext T S
  rw [mul_num_apply, mul_num_apply, num_apply, num_apply]
  by_cases h1 : k ∈ S <;> by_cases h2 : l ∈ S <;> by_cases h3 : T = S <;> simp [h1, h2, h3]

theorem onsite_conj (hf : Bool) {V : Fin n → Fin n → ℝ} (hV : ∀ i j, V (τ i) (τ j) = V i j) : permConj ℝ (modePerm b τ) (onsiteU hf V) = onsiteU hf V := by
  unfold onsiteU
  simp only [permConj_sum, permConj_smul, permConj_mul, permConj_sub, permConj_one, permConj_num, modePerm_orb]
  rw [← Equiv.sum_comp τ fun i => V i i • ((num ℝ (orb false i) - (if hf then 1 / 2 else 0 : ℝ) • 1) * (num ℝ (orb true i) - (if hf then 1 / 2 else 0 : ℝ) • 1))]
  refine Finset.sum_congr rfl fun i _ => ?_
  rw [hV]
  congr 1
  cases b
  · rfl
  · simp only [Bool.false_xor, Bool.true_xor, Bool.not_true]
    have h : Commute (num ℝ (orb true (τ i))) (num ℝ (orb false (τ i))) := num_mul_comm _ _
    have h2 : Commute (num ℝ (orb true (τ i)) - (if hf then 1 / 2 else 0 : ℝ) • 1) (num ℝ (orb false (τ i)) - (if hf then 1 / 2 else 0 : ℝ) • 1) :=
      (h.sub_right ((Commute.one_right _).smul_right _)).sub_left (((Commute.one_left _).smul_left _))
    exact h2

theorem interSite_conj {z : Fin n → ℝ} (hz : ∀ i, z (τ i) = z i) {V : Fin n → Fin n → ℝ} (hV : ∀ i j, V (τ i) (τ j) = V i j) :
    permConj ℝ (modePerm b τ) (interSite z V) = interSite z V := by
  unfold interSite
  simp only [permConj_sum, permConj_smul, permConj_mul, permConj_sub, permConj_add, permConj_one, permConj_num, modePerm_orb]
  refine congrArg _ ?_
  have hs : ∀ i, num ℝ (orb (xor false b) (τ i)) + num ℝ (orb (xor true b) (τ i)) = num ℝ (orb false (τ i)) + num ℝ (orb true (τ i)) := by
    intro i; cases b
    · rfl
    · simp [add_comm]
  rw [← Equiv.sum_comp τ fun i => ∑ j, (if i ≠ j then V i j else 0) •
    ((num ℝ (orb false i) + num ℝ (orb true i) - z i • 1) * (num ℝ (orb false j) + num ℝ (orb true j) - z j • 1))]
  refine Finset.sum_congr rfl fun i _ => ?_
  rw [← Equiv.sum_comp τ fun j => (if τ i ≠ j then V (τ i) j else 0) •
    ((num ℝ (orb false (τ i)) + num ℝ (orb true (τ i)) - z (τ i) • 1) * (num ℝ (orb false j) + num ℝ (orb true j) - z j • 1))]
  refine Finset.sum_congr rfl fun j _ => ?_
  rw [hs, hs, hz, hz, hV]
  simp only [ne_eq, EmbeddingLike.apply_eq_iff_eq]

theorem exchange_conj_aux (J : Fin n → Fin n → ℝ) (hJ : ∀ i j, J (τ i) (τ j) = J i j) (F : Bool → Fin n → Fin n → Matrix (Finset (Fin (n + n))) (Finset (Fin (n + n))) ℝ)
    (hF : ∀ s i j, permConj ℝ (modePerm b τ) (F s i j) = F (xor s b) (τ i) (τ j)) :
    permConj ℝ (modePerm b τ) ((1 / 2 : ℝ) • ∑ i, ∑ j, J i j • ∑ s : Bool, F s i j) = (1 / 2 : ℝ) • ∑ i, ∑ j, J i j • ∑ s : Bool, F s i j := by
  simp only [permConj_sum, permConj_smul, hF]
  refine congrArg _ ?_
  rw [← Equiv.sum_comp τ fun i => ∑ j, J i j • ∑ s : Bool, F s i j]
  refine Finset.sum_congr rfl fun i _ => ?_
  rw [← Equiv.sum_comp τ fun j => J (τ i) j • ∑ s : Bool, F s (τ i) j]
  refine Finset.sum_congr rfl fun j _ => ?_
  rw [hJ, sum_xor b fun s => F s (τ i) (τ j)]

theorem codeExchange_conj {Jx Jp : Option (ℕ → ℕ → ℝ)} (hx : ∀ A ∈ Jx, ∀ i j : Fin n, A (τ i) (τ j) = A i j) (hp : ∀ A ∈ Jp, ∀ i j : Fin n, A (τ i) (τ j) = A i j) :
    permConj ℝ (modePerm b τ) (codeExchange (n := n) Jx Jp) = codeExchange Jx Jp := by
  have ho : ∀ J : Option (ℕ → ℕ → ℝ), (∀ A ∈ J, ∀ i j : Fin n, A (τ i) (τ j) = A i j) → ∀ i j, offdiag (n := n) (optMat J) (τ i) (τ j) = offdiag (n := n) (optMat J) i j := by
    intro J hJ i j
    have : optMat J (τ i) (τ j) = optMat J i j := by
      cases J with
      | none => rfl
      | some A => exact hJ A rfl i j
    unfold offdiag
    rw [this]
    simp only [ne_eq, EmbeddingLike.apply_eq_iff_eq]
  have hx' := ho Jx hx
  have hp' := ho Jp hp
  have hb : ∀ s : Bool, (!xor s b) = xor (!s) b := by intro s; cases s <;> cases b <;> rfl
  unfold codeExchange
  rw [permConj_add, permConj_sub]
  unfold exchangeSame exchangeFlip pairHopping
  rw [exchange_conj_aux b τ _ hx', exchange_conj_aux b τ _ hx', exchange_conj_aux b τ _ hp']
  all_goals intro s i j; simp only [permConj_mul, permConj_ann, permConj_cre, modePerm_orb, hb]

end

theorem HamArgs.Invariant.ham {a : HamArgs} {b : Bool} {τ : Equiv.Perm (Fin a.n)} (h : a.Invariant b τ) :
    permOp ℝ (modePerm b τ) * a.ham = a.ham * permOp ℝ (modePerm b τ) := by
  have h1 : permConj ℝ (modePerm b τ) a.ham = a.ham := by
    unfold HamArgs.ham hubbard
    rw [permConj_add, permConj_add, permConj_add, kinetic_conj, onsite_conj b τ _ h.U, interSite_conj b τ _ h.U, codeExchange_conj b τ h.Jx h.Jp]
    · intro i
      cases hz : a.z with
      | none => rfl
      | some v => exact h.z v hz i
    · intro s i j
      rw [kept_apply, kept_apply, h.H, h.H]
      simp only [EmbeddingLike.apply_eq_iff_eq]
  unfold permConj at h1
  calc permOp ℝ (modePerm b τ) * a.ham = permOp ℝ (modePerm b τ) * a.ham * ((permOp ℝ (modePerm b τ))ᵀ * permOp ℝ (modePerm b τ)) := by rw [permOp_orth, Matrix.mul_one]
    _ = a.ham * permOp ℝ (modePerm b τ) := by rw [← Matrix.mul_assoc, h1]

variable {junk : ℕ} {es : Espace (ℕ × ℕ)} {egs beta : ℝ}

theorem HamArgs.Invariant.green {a : HamArgs} {b : Bool} {τ : Equiv.Perm (Fin a.n)} (h : a.Invariant b τ) {s : Bool} {i j : Fin a.n} {z g : ℂ}
    (hg : IsGreen beta a.ham (ann ℝ (orb s i)) (cre ℝ (orb s j)) z g) : IsGreen beta a.ham (ann ℝ (orb (xor s b) (τ i))) (cre ℝ (orb (xor s b) (τ j))) z g := by
  have := isGreen_conj (permOp_orth ℝ (modePerm b τ)) h.ham hg
  have h1 := permConj_ann (R := ℝ) (modePerm b τ) (orb s i)
  have h2 := permConj_cre (R := ℝ) (modePerm b τ) (orb s j)
  unfold permConj at h1 h2
  rwa [h1, h2, modePerm_orb, modePerm_orb] at this

theorem HamArgs.Invariant.occ {a : HamArgs} {b : Bool} {τ : Equiv.Perm (Fin a.n)} (h : a.Invariant b τ) (s : Bool) (i : Fin a.n) :
    thermalOcc beta a.ham (xor s b) (τ i) = thermalOcc beta a.ham s i := by
  unfold thermalOcc
  rw [← thermal_conj (permOp_orth ℝ (modePerm b τ)) h.ham beta (cplx (num ℝ (orb s i))), ← cplx_mul', ← cplx_mul']
  have h1 := permConj_num (R := ℝ) (modePerm b τ) (orb s i)
  unfold permConj at h1
  rw [h1, modePerm_orb]

/-- **C109/C110** all symmetries at once, `build_gf2_exact`: if the input is invariant under a permutation of the sites, with or without exchange of the spins, so are
the Green functions of all pairs of sites. The two runs may see different eigenvectors (degenerate levels), memory contents and reference energies. -/
theorem C109_symmetry_gf2_exact {a : HamArgs} (ha : a.Valid) {b : Bool} {τ : Equiv.Perm (Fin a.n)} (h : a.Invariant b τ) (hes : EigenEspace a.n a.ham es)
    {junk' : ℕ} {es' : Espace (ℕ × ℕ)} {egs' : ℝ} (hes' : EigenEspace a.n a.ham es') (s : Bool) :
    ∃ G G', buildGf2Exact junk a.n es beta egs s = .ok G ∧ buildGf2Exact junk' a.n es' beta egs' (xor s b) = .ok G' ∧ ∀ (i j : Fin a.n) (e eta : ℝ), eta ≠ 0 →
      (G' (τ i) (τ j)).call e eta = (G i j).call e eta := by
  obtain ⟨G, h1, h2⟩ := C93_gf2_exact (junk := junk) (beta := beta) (egs := egs) ha.le hes s
  obtain ⟨G', h1', h2'⟩ := C93_gf2_exact (junk := junk') (beta := beta) (egs := egs') ha.le hes' (xor s b)
  refine ⟨G, G', h1, h1', fun i j e eta he => ?_⟩
  exact ((h2' (τ i) (τ j) e eta he _).mp (h.green ((h2 i j e eta he _).mpr rfl))).symm

/-- The input has no spin dependence. -/
def HamArgs.SpinFree (a : HamArgs) : Prop := ∀ i j, i < a.n → j < a.n → a.H 0 i j = a.H 1 i j

theorem HamArgs.SpinFree.invariant {a : HamArgs} (h : a.SpinFree) : a.Invariant true (Equiv.refl _) := by
  refine ⟨fun s i j => ?_, fun _ _ => rfl, fun _ _ _ => rfl, fun _ _ _ _ => rfl, fun _ _ _ _ => rfl⟩
  cases s
  · simpa using (h i j i.2 j.2).symm
  · simpa using h i j i.2 j.2

/-- **C109** `build_gf2_exact`: up and down Green functions agree if the one-body arrays do. -/
theorem C109_gf2_exact {a : HamArgs} (ha : a.Valid) (h : a.SpinFree) (hes : EigenEspace a.n a.ham es) {junk' : ℕ} {es' : Espace (ℕ × ℕ)} {egs' : ℝ} (hes' : EigenEspace a.n a.ham es') :
    ∃ G G', buildGf2Exact junk a.n es beta egs false = .ok G ∧ buildGf2Exact junk' a.n es' beta egs' true = .ok G' ∧ ∀ (i j : Fin a.n) (e eta : ℝ), eta ≠ 0 →
      (G' i j).call e eta = (G i j).call e eta := by
  obtain ⟨G, G', h1, h2, h3⟩ := C109_symmetry_gf2_exact ha h.invariant hes hes' false (junk := junk) (junk' := junk') (egs := egs) (egs' := egs') (beta := beta)
  exact ⟨G, G', h1, h2, h3⟩

/-- **C109** `get_occupation`: the occupations of the two spins agree, so that twice the up occupation is the occupation of the site. -/
theorem C109_occupation {a : HamArgs} (h : a.SpinFree) (hes : EigenEspace a.n a.ham es) {occ : List OccSct} (hocc : List.Forall₂ OccView es occ) :
    ∃ U D As, getOccupation occ egs beta a.n = .ok (U, D, As) ∧ ∀ k : Fin a.n, U k = D k := by
  obtain ⟨U, D, As, h1, h2⟩ := C101_get_occupation hes hocc egs beta
  refine ⟨U, D, As, h1, fun k => ?_⟩
  have h3 := h.invariant.occ (beta := beta) false k
  obtain ⟨h4, h5⟩ := h2 k
  have : (U k : ℂ) = (D k : ℂ) := by rw [h4, h5]; exact h3.symm
  exact_mod_cast this

/-- **C109** `build_gf_lanczos`: the Green functions of the two spins, from two calls with their own Lanczos runs, agree up to the sum of their errors. -/
theorem C109_gf_lanczos {g g' : GfLArgs} (jk jk' : ℝ) (hgg : g'.ham = g.ham) (hb : g'.beta = g.beta) (hs : g'.ispin = !g.ispin) (ha : g.ham.Valid) (h : g.ham.SpinFree)
    (hw : g.ham.n ≤ g.w) (hw' : g.ham.n ≤ g'.w) (hc : g.cfg.Ok) (hc' : g'.cfg.Ok) (i : Fin g.ham.n) (hes : EigenEspace g.ham.n g.ham.ham es)
    {es' : Espace (ℕ × ℕ)} (hes' : EigenEspace g.ham.n g.ham.ham es')
    {out out' : GfLOut} (hr : BuildGfLanczos g i false es (.ok out)) (hr' : BuildGfLanczos g' i false es' (.ok out')) (e eta ε ε' : ℝ) (he : eta ≠ 0) (h0 : 0 ≤ ε) (h0' : 0 ≤ ε')
    (hε : ∀ run ∈ out.log, run.ResLe ε) (hε' : ∀ run ∈ out'.log, run.ResLe ε') :
    ‖out.gfe.call jk e eta - out'.gfe.call jk' e eta‖ ≤ (ε / eta ^ 2 + 2 * (g.cfg.delta ^ 2 / |eta|)) + (ε' / eta ^ 2 + 2 * (g'.cfg.delta ^ 2 / |eta|)) := by
  obtain ⟨cfg, rep, w, junk, ham, beta, egs, ispin⟩ := g
  obtain ⟨cfg', rep', w', junk', ham', beta', egs', ispin'⟩ := g'
  simp only at hgg hb hs
  subst hgg hb hs
  obtain ⟨o1, e1, -, -, -, k1⟩ := (C98_gf_lanczos jk ha hw hc i.2 hes false).2 _ hr
  obtain ⟨o2, e2, -, -, -, k2⟩ := (C98_gf_lanczos (g := ⟨cfg', rep', w', junk', ham', beta', egs', !ispin⟩) jk' ha hw' hc' i.2 hes' false).2 _ hr'
  injection e1 with e1; subst e1
  injection e2 with e2; subst e2
  have him : (e + Complex.I * eta : ℂ).im ≠ 0 := by simpa using he
  obtain ⟨ge, gh, hp⟩ := greenParts_exist hes beta' (ann ℝ (orb ispin i)) (cre ℝ (orb ispin i)) him
  obtain ⟨ge', gh', hp'⟩ := greenParts_exist hes beta' (ann ℝ (orb (!ispin) i)) (cre ℝ (orb (!ispin) i)) him
  have b1 := k1 e eta ε he h0 hε ge gh hp
  have b2 := k2 e eta ε' he h0' hε' ge' gh' hp'
  rw [if_neg (by simp)] at b1 b2
  have hsum : ge' + gh' = ge + gh := by
    have h1 := h.invariant.green (IsGreenParts.isGreen hp)
    have hx : xor ispin true = !ispin := by cases ispin <;> rfl
    rw [hx] at h1
    rw [(hes.basis.green beta' _ _ him _).mp h1]
    exact (hes.basis.green beta' _ _ him _).mp (IsGreenParts.isGreen hp')
  rw [hsum, norm_sub_rev] at b2
  calc ‖out.gfe.call jk e eta - out'.gfe.call jk' e eta‖ = ‖(out.gfe.call jk e eta - (ge + gh)) + ((ge + gh) - out'.gfe.call jk' e eta)‖ := by rw [sub_add_sub_cancel]
    _ ≤ _ := (norm_add_le _ _).trans (add_le_add b1 b2)

/-- **C110** `build_gf_exact`: sites exchanged by a symmetry of the input have the same Green function. -/
theorem C110_gf_exact {a : HamArgs} (ha : a.Valid) {τ : Equiv.Perm (Fin a.n)} (h : a.Invariant false τ) (hes : EigenEspace a.n a.ham es) (i : Fin a.n) :
    ∃ g g', buildGfExact junk a.n es beta egs i false = .ok g ∧ buildGfExact junk a.n es beta egs (τ i) false = .ok g' ∧
      ∀ e eta : ℝ, eta ≠ 0 → g'.call e eta = g.call e eta := by
  obtain ⟨g, h1, h2⟩ := C92_gf_exact (junk := junk) (beta := beta) (egs := egs) ha.le hes i.2
  obtain ⟨g', h1', h2'⟩ := C92_gf_exact (junk := junk) (beta := beta) (egs := egs) ha.le hes (τ i).2
  exact ⟨g, g', h1, h1', fun e eta he => ((h2' e eta he _).mp (h.green ((h2 e eta he _).mpr rfl))).symm⟩

/-- **C110** `get_occupation`: and the same occupations. -/
theorem C110_occupation {a : HamArgs} {τ : Equiv.Perm (Fin a.n)} (h : a.Invariant false τ) (hes : EigenEspace a.n a.ham es) {occ : List OccSct} (hocc : List.Forall₂ OccView es occ) :
    ∃ U D As, getOccupation occ egs beta a.n = .ok (U, D, As) ∧ ∀ k : Fin a.n, U (τ k) = U k ∧ D (τ k) = D k := by
  obtain ⟨U, D, As, h1, h2⟩ := C101_get_occupation hes hocc egs beta
  refine ⟨U, D, As, h1, fun k => ⟨?_, ?_⟩⟩
  · have h3 := h.occ (beta := beta) false k
    have : (U (τ k) : ℂ) = (U k : ℂ) := by rw [(h2 k).1, (h2 (τ k)).1]; exact h3
    exact_mod_cast this
  · have h3 := h.occ (beta := beta) true k
    have : (D (τ k) : ℂ) = (D k : ℂ) := by rw [(h2 k).2, (h2 (τ k)).2]; exact h3
    exact_mod_cast this

end Edpyt
