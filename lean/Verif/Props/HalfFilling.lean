import Verif.Proof.ParticleHole
/-!
C111: particle-hole symmetry. For particle-hole symmetric input (a half-filled bipartite lattice, an impurity at half filling with a symmetric bath) sites are
half occupied at every temperature and the local Green functions are odd.
-/
namespace Edpyt
open Matrix Spec

/-- The level of site `i` relative to half filling: `H_ii + mu` in half-filling mode, `H_ii + mu + U_i/2` otherwise. -/
noncomputable def HamArgs.relLevel (a : HamArgs) (s : Bool) (i : Fin a.n) : ℝ := a.H (if s then 1 else 0) i i + a.mu + if a.hf then 0 else a.V.U.getD 0 i i / 2

/-- The input is mapped to itself by the exchange of particles and holes with site signs `η`, followed by the site permutation `τ`: hops between sites of equal
sign change sign under `τ` and those between sites of opposite sign are unchanged, relative levels change sign, the interaction is invariant, the reference
occupations of the inter-site interaction are one, and there are no exchange terms. With `τ = 1` this is a half-filled bipartite lattice. -/
structure HamArgs.ParticleHole (a : HamArgs) (η : Fin a.n → ℤ) (τ : Equiv.Perm (Fin a.n)) : Prop where
  sq : ∀ i, η i = 1 ∨ η i = -1
  hop : ∀ (s : Bool) (i j : Fin a.n), i ≠ j → a.H (if s then 1 else 0) (τ i) (τ j) = -(η i * η j : ℤ) * a.H (if s then 1 else 0) i j
  level : ∀ (s : Bool) (i : Fin a.n), a.relLevel s (τ i) = -a.relLevel s i
  U : ∀ i j : Fin a.n, a.V.U.getD 0 (τ i) (τ j) = a.V.U.getD 0 i j
  z : (∀ i j : Fin a.n, i ≠ j → a.V.U.getD 0 i j = 0) ∨ ∀ i : Fin a.n, a.z.getD (fun _ => if a.hf then 1 else 0) i = 1
  Jx : a.V.Jx = none
  Jp : a.V.Jp = none

section
variable {n : ℕ}

/-- The site signs, for both spins. -/
def siteSign (η : Fin n → ℤ) (k : Fin (n + n)) : ℤ := Fin.addCases η η k

theorem siteSign_orb (η : Fin n → ℤ) (s : Bool) (i : Fin n) : siteSign η (orb s i) = η i := by
  cases s
  · exact Fin.addCases_left i
  · exact Fin.addCases_right i

variable {η : Fin n → ℤ} (hη : ∀ i, η i * η i = 1)
include hη

theorem siteSign_sq (k : Fin (n + n)) : siteSign η k * siteSign η k = 1 := by
  refine Fin.addCases (fun i => ?_) (fun i => ?_) k
  · rw [show siteSign η (Fin.castAdd n i) = η i from Fin.addCases_left i, hη]
  · rw [show siteSign η (Fin.natAdd n i) = η i from Fin.addCases_right i, hη]

/-- Transformation of the kinetic term. -/
theorem kinetic_ph (t : Bool → Fin n → Fin n → ℝ) (hs : ∀ s i j, t s i j = t s j i) :
    phConj (siteSign η) (kinetic t) = kinetic (fun s i j => -(η i * η j : ℤ) * t s i j) + (∑ s : Bool, ∑ i, t s i i) • 1 := by
  have hη' := siteSign_sq hη
  have e1 : phConj (siteSign η) (kinetic t) = ∑ s : Bool, ∑ i, ∑ j, (t s i j * (η i * η j : ℤ)) • (ann ℝ (orb s i) * cre ℝ (orb s j)) := by
    unfold kinetic
    have hl : ∀ A : Matrix (Finset (Fin (n + n))) (Finset (Fin (n + n))) ℝ, phConj (siteSign η) A = phOp (siteSign η) * A * (phOp (siteSign η))ᵀ := fun _ => rfl
    rw [hl]
    simp only [Matrix.mul_sum, Matrix.sum_mul, Matrix.mul_smul, Matrix.smul_mul]
    refine Finset.sum_congr rfl fun s _ => Finset.sum_congr rfl fun i _ => Finset.sum_congr rfl fun j _ => ?_
    rw [← hl, phConj_mul hη', phConj_cre hη', phConj_ann hη', siteSign_orb, siteSign_orb, Matrix.smul_mul, Matrix.mul_smul, smul_smul, smul_smul]
    congr 1
    push_cast; ring
  have e2 : kinetic (fun s i j => -(η i * η j : ℤ) * t s i j) = ∑ s : Bool, ∑ i, ∑ j, (-(η i * η j : ℤ) * t s i j) • (cre ℝ (orb s j) * ann ℝ (orb s i)) := by
    unfold kinetic
    refine Finset.sum_congr rfl fun s _ => ?_
    rw [Finset.sum_comm]
    refine Finset.sum_congr rfl fun i _ => Finset.sum_congr rfl fun j _ => ?_
    simp only [hs s j i, mul_comm (η j) (η i)]
  rw [e1, e2, Finset.sum_smul, ← Finset.sum_add_distrib]
  refine Finset.sum_congr rfl fun s _ => ?_
  rw [Finset.sum_smul, ← Finset.sum_add_distrib]
  refine Finset.sum_congr rfl fun i _ => ?_
  have h1 : ∀ j, (t s i j * (η i * η j : ℤ)) • (ann ℝ (orb s i) * cre ℝ (orb s j)) =
      (-(η i * η j : ℤ) * t s i j) • (cre ℝ (orb s j) * ann ℝ (orb s i)) + if i = j then t s i i • (1 : Matrix (Finset (Fin (n + n))) (Finset (Fin (n + n))) ℝ) else 0 := by
    intro j
    have h4 := ann_cre_anticomm (R := ℝ) (orb s i) (orb s j)
    rw [eq_sub_of_add_eq h4]
    by_cases hij : i = j
    · subst hij
      rw [if_pos rfl, if_pos rfl, hη]
      module
    · rw [if_neg (by rw [orb_inj]; exact fun h => hij h.2), if_neg hij]
      module
  rw [Finset.sum_congr rfl fun j _ => h1 j, Finset.sum_add_distrib, Finset.sum_ite_eq, if_pos (Finset.mem_univ _)]

theorem onsite_ph (hf : Bool) (V : Fin n → Fin n → ℝ) :
    phConj (siteSign η) (onsiteU hf V) = onsiteU hf V + if hf then 0 else ∑ i, V i i • (1 - (num ℝ (orb false i) + num ℝ (orb true i))) := by
  have hη' := siteSign_sq hη
  have hl : ∀ A : Matrix (Finset (Fin (n + n))) (Finset (Fin (n + n))) ℝ, phConj (siteSign η) A = phOp (siteSign η) * A * (phOp (siteSign η))ᵀ := fun _ => rfl
  have hsub : ∀ (A : Matrix (Finset (Fin (n + n))) (Finset (Fin (n + n))) ℝ) (c : ℝ), phConj (siteSign η) (A - c • 1) = phConj (siteSign η) A - c • 1 := by
    intro A c
    have := phConj_one hη'
    rw [hl] at this
    rw [hl, hl, Matrix.mul_sub, Matrix.sub_mul, Matrix.mul_smul, Matrix.smul_mul, this]
  have e1 : phConj (siteSign η) (onsiteU hf V) = ∑ i, V i i • ((1 - num ℝ (orb false i) - (if hf then 1 / 2 else 0 : ℝ) • 1) * (1 - num ℝ (orb true i) - (if hf then 1 / 2 else 0 : ℝ) • 1)) := by
    unfold onsiteU
    rw [hl]
    simp only [Matrix.mul_sum, Matrix.sum_mul, Matrix.mul_smul, Matrix.smul_mul]
    refine Finset.sum_congr rfl fun i _ => ?_
    rw [← hl, phConj_mul hη', hsub, hsub, phConj_num hη', phConj_num hη']
  rw [e1]
  unfold onsiteU
  cases hf
  · simp only [Bool.false_eq_true, if_false, zero_smul, sub_zero]
    rw [← Finset.sum_add_distrib]
    refine Finset.sum_congr rfl fun i _ => ?_
    rw [← smul_add]
    congr 1
    simp only [Matrix.sub_mul, Matrix.mul_sub, Matrix.one_mul, Matrix.mul_one]
    abel
  · simp only [if_true, add_zero]
    refine Finset.sum_congr rfl fun i _ => ?_
    congr 1
    have h1 : ∀ N : Matrix (Finset (Fin (n + n))) (Finset (Fin (n + n))) ℝ, 1 - N - (1 / 2 : ℝ) • 1 = -(N - (1 / 2 : ℝ) • 1) := by
      intro N
      have : (1 : Matrix (Finset (Fin (n + n))) (Finset (Fin (n + n))) ℝ) = (1 / 2 : ℝ) • 1 + (1 / 2 : ℝ) • 1 := by
        rw [← add_smul]; norm_num
      nth_rewrite 1 [this]
      abel
    rw [h1, h1, neg_mul_neg]

theorem interSite_ph {z : Fin n → ℝ} {V : Fin n → Fin n → ℝ} (h : (∀ i j, i ≠ j → V i j = 0) ∨ ∀ i, z i = 1) : phConj (siteSign η) (interSite z V) = interSite z V := by
  have hη' := siteSign_sq hη
  have hl : ∀ A : Matrix (Finset (Fin (n + n))) (Finset (Fin (n + n))) ℝ, phConj (siteSign η) A = phOp (siteSign η) * A * (phOp (siteSign η))ᵀ := fun _ => rfl
  have hsub : ∀ (i : Fin n), z i = 1 → phConj (siteSign η) (num ℝ (orb false i) + num ℝ (orb true i) - z i • 1) = -(num ℝ (orb false i) + num ℝ (orb true i) - z i • 1) := by
    intro i hi
    have := phConj_one hη'
    rw [hl] at this
    rw [hl, Matrix.mul_sub, Matrix.sub_mul, Matrix.mul_add, Matrix.add_mul, Matrix.mul_smul, Matrix.smul_mul, this, ← hl, ← hl, phConj_num hη', phConj_num hη', hi, one_smul]
    abel
  unfold interSite
  rw [hl]
  simp only [Matrix.mul_sum, Matrix.sum_mul, Matrix.mul_smul, Matrix.smul_mul]
  refine congrArg _ (Finset.sum_congr rfl fun i _ => Finset.sum_congr rfl fun j _ => ?_)
  split_ifs with hij
  · rcases h with h | h
    · rw [h i j hij, zero_smul, zero_smul]
    · rw [← hl, phConj_mul hη', hsub i (h i), hsub j (h j), neg_mul_neg]
  · rw [zero_smul, zero_smul]

end

theorem HamArgs.ParticleHole.eta_sq {a : HamArgs} {η : Fin a.n → ℤ} {τ : Equiv.Perm (Fin a.n)} (h : a.ParticleHole η τ) (i : Fin a.n) : η i * η i = 1 := by
  rcases h.sq i with h | h <;> rw [h] <;> norm_num

/-- The operator of the symmetry. -/
noncomputable def phSymOp {n : ℕ} (η : Fin n → ℤ) (τ : Equiv.Perm (Fin n)) : Matrix (Finset (Fin (n + n))) (Finset (Fin (n + n))) ℝ :=
  permOp ℝ (modePerm false τ) * phOp (siteSign η)

theorem phSymOp_conj {n : ℕ} (η : Fin n → ℤ) (τ : Equiv.Perm (Fin n)) (A : Matrix (Finset (Fin (n + n))) (Finset (Fin (n + n))) ℝ) :
    phSymOp η τ * A * (phSymOp η τ)ᵀ = permConj ℝ (modePerm false τ) (phConj (siteSign η) A) := by
  unfold phSymOp permConj phConj
  rw [Matrix.transpose_mul]
  simp only [Matrix.mul_assoc]

theorem phSymOp_orth {n : ℕ} {η : Fin n → ℤ} (hη : ∀ i, η i * η i = 1) (τ : Equiv.Perm (Fin n)) : (phSymOp η τ)ᵀ * phSymOp η τ = 1 := by
  unfold phSymOp
  rw [Matrix.transpose_mul, Matrix.mul_assoc, ← Matrix.mul_assoc (permOp ℝ (modePerm false τ))ᵀ, permOp_orth, Matrix.one_mul, phOp_orth (siteSign_sq hη)]

theorem kinetic_add' {n : ℕ} (t t' : Bool → Fin n → Fin n → ℝ) : kinetic (fun s i j => t s i j + t' s i j) = kinetic t + kinetic t' := by
  unfold kinetic
  simp only [add_smul, Finset.sum_add_distrib]

theorem kinetic_diag {n : ℕ} (l : Bool → Fin n → ℝ) : kinetic (fun s i j => if i = j then l s i else 0) = ∑ s : Bool, ∑ i, l s i • num ℝ (orb s i) := by
  unfold kinetic
  simp only [ite_smul, zero_smul, Finset.sum_ite_eq, Finset.mem_univ, if_true]
  rfl

/-- Permuting the sites of a kinetic term. -/
theorem kinetic_perm {n : ℕ} (τ : Equiv.Perm (Fin n)) (t t' : Bool → Fin n → Fin n → ℝ) (ht : ∀ s i j, t' s (τ i) (τ j) = t s i j) :
    permConj ℝ (modePerm false τ) (kinetic t) = kinetic t' := by
  unfold kinetic
  simp only [permConj_sum, permConj_smul, permConj_mul, permConj_ann, permConj_cre, modePerm_orb, Bool.xor_false]
  refine Finset.sum_congr rfl fun s _ => ?_
  rw [← Equiv.sum_comp τ fun i => ∑ j, t' s i j • (cre ℝ (orb s i) * ann ℝ (orb s j))]
  refine Finset.sum_congr rfl fun i _ => ?_
  rw [← Equiv.sum_comp τ fun j => t' s (τ i) j • (cre ℝ (orb s (τ i)) * ann ℝ (orb s j))]
  exact Finset.sum_congr rfl fun j _ => by rw [ht]

theorem HamArgs.ParticleHole.ham {a : HamArgs} (ha : a.Valid) {η : Fin a.n → ℤ} {τ : Equiv.Perm (Fin a.n)} (h : a.ParticleHole η τ) :
    phSymOp η τ * a.ham = a.ham * phSymOp η τ := by
  have hη := h.eta_sq
  have hη' := siteSign_sq hη
  have hx : codeExchange (n := a.n) a.V.Jx a.V.Jp = 0 := by
    have : ∀ i j : Fin a.n, offdiag (n := a.n) (optMat (K := ℝ) none) i j = 0 := by
      intro i j; simp [offdiag, optMat]
    unfold codeExchange exchangeSame exchangeFlip pairHopping
    rw [h.Jx, h.Jp]
    simp [this]
  have h1 : ∃ c : ℝ, phSymOp η τ * a.ham * (phSymOp η τ)ᵀ = a.ham + c • 1 := by
    rw [phSymOp_conj]
    unfold HamArgs.ham hubbard
    rw [hx, add_zero]
    have hadd : ∀ A B : Matrix (Finset (Fin (a.n + a.n))) (Finset (Fin (a.n + a.n))) ℝ, phConj (siteSign η) (A + B) = phConj (siteSign η) A + phConj (siteSign η) B := by
      intro A B; unfold phConj; rw [Matrix.mul_add, Matrix.add_mul]
    set t : Bool → Fin a.n → Fin a.n → ℝ := fun s => kept (n := a.n) a.mu (a.H (if s then 1 else 0)) with ht
    have hts : ∀ s i j, t s i j = t s j i := fun s i j => ((HamArgs.oneBody_symm ha s).apply i j).symm
    rw [hadd, hadd, interSite_ph hη h.z, onsite_ph hη, kinetic_ph hη t hts, permConj_add, permConj_add, permConj_add, permConj_add, onsite_conj false τ a.hf h.U, permConj_smul, permConj_one]
    have hzc : permConj ℝ (modePerm false τ) (interSite (fun i : Fin a.n => a.z.getD (fun _ => if a.hf then 1 else 0) i) fun i j : Fin a.n => a.V.U.getD 0 i j) =
        interSite (fun i : Fin a.n => a.z.getD (fun _ => if a.hf then 1 else 0) i) fun i j : Fin a.n => a.V.U.getD 0 i j := by
      rcases h.z with hz | hz
      · have : ∀ z : Fin a.n → ℝ, interSite z (fun i j : Fin a.n => a.V.U.getD 0 i j) = 0 := by
          intro z
          unfold interSite
          rw [Finset.sum_eq_zero fun i _ => Finset.sum_eq_zero fun j _ => ?_, smul_zero]
          split_ifs with hij
          · simp only [hz i j hij, zero_smul]
          · rw [zero_smul]
        rw [this]
        unfold permConj
        rw [Matrix.mul_zero, Matrix.zero_mul]
      · exact interSite_conj false τ (fun i => by rw [hz, hz]) h.U
    rw [hzc]
    -- the part of the onsite term linear in the occupations
    have hlin : (if a.hf then 0 else ∑ i : Fin a.n, a.V.U.getD 0 i i • (1 - (num ℝ (orb false i) + num ℝ (orb true i))) : Matrix (Finset (Fin (a.n + a.n))) (Finset (Fin (a.n + a.n))) ℝ) =
        kinetic (fun _ i j => if i = j then -(if a.hf then 0 else a.V.U.getD 0 i i) else 0) + (∑ i : Fin a.n, if a.hf then 0 else a.V.U.getD 0 i i) • 1 := by
      rw [kinetic_diag (fun (_ : Bool) (i : Fin a.n) => -(if a.hf then 0 else a.V.U.getD 0 i i)), Fintype.sum_bool]
      by_cases hf : a.hf = true
      · simp [hf]
      · simp only [hf, if_false, Bool.false_eq_true]
        rw [Finset.sum_smul, ← Finset.sum_add_distrib, ← Finset.sum_add_distrib]
        refine Finset.sum_congr rfl fun i _ => ?_
        module
    have hk : permConj ℝ (modePerm false τ) (kinetic fun s i j => -(η i * η j : ℤ) * t s i j) +
        permConj ℝ (modePerm false τ) (kinetic (fun _ i j => if i = j then -(if a.hf then 0 else a.V.U.getD 0 i i) else 0)) = kinetic t := by
      rw [← permConj_add, ← kinetic_add']
      refine kinetic_perm τ _ _ fun s i j => ?_
      simp only [ht, kept_apply, EmbeddingLike.apply_eq_iff_eq]
      by_cases hij : i = j
      · subst hij
        simp only [if_true]
        have hl := h.level s i
        unfold HamArgs.relLevel at hl
        rw [h.U i i] at hl
        rw [hη, Int.cast_one]
        by_cases hf : a.hf = true
        · simp only [hf, if_true] at hl ⊢
          linarith
        · simp only [hf, if_false, Bool.false_eq_true] at hl ⊢
          linarith
      · simp only [hij, if_false, add_zero]
        rw [h.hop s i j hij]
        have h3 : |(-(η i * η j : ℤ) : ℝ)| = 1 := by
          rcases h.sq i with h1 | h1 <;> rcases h.sq j with h2 | h2 <;> rw [h1, h2] <;> norm_num
        rw [abs_mul, h3, one_mul]
        split_ifs <;> simp
    rw [hlin, permConj_add, permConj_smul, permConj_one]
    refine ⟨∑ s : Bool, ∑ i, t s i i + ∑ i : Fin a.n, (if a.hf then 0 else a.V.U.getD 0 i i), ?_⟩
    rw [add_smul]
    rw [← hk]
    abel
  obtain ⟨c, hc⟩ := h1
  have ho := phSymOp_orth hη τ
  have hc0 : c = 0 := by
    have := congrArg Matrix.trace hc
    rw [Matrix.mul_assoc, Matrix.trace_mul_comm, Matrix.mul_assoc, ho, Matrix.mul_one, Matrix.trace_add, Matrix.trace_smul, Matrix.trace_one, left_eq_add, smul_eq_mul] at this
    refine (mul_eq_zero.mp this).resolve_right ?_
    exact_mod_cast Fintype.card_ne_zero
  rw [hc0, zero_smul, add_zero] at hc
  calc phSymOp η τ * a.ham = phSymOp η τ * a.ham * ((phSymOp η τ)ᵀ * phSymOp η τ) := by rw [ho, Matrix.mul_one]
    _ = a.ham * phSymOp η τ := by rw [← Matrix.mul_assoc, hc]

variable {junk : ℕ} {es : Espace (ℕ × ℕ)} {egs beta : ℝ}

theorem HamArgs.ParticleHole.green {a : HamArgs} (ha : a.Valid) {η : Fin a.n → ℤ} {τ : Equiv.Perm (Fin a.n)} (h : a.ParticleHole η τ) (hes : EigenEspace a.n a.ham es) {s : Bool} {i j : Fin a.n} {z g : ℂ}
    (hg : IsGreen beta a.ham (ann ℝ (orb s i)) (cre ℝ (orb s j)) z g) : IsGreen beta a.ham (ann ℝ (orb s (τ i))) (cre ℝ (orb s (τ j))) (-z) (-((η i * η j : ℤ) : ℂ) * g) := by
  have hη' := siteSign_sq h.eta_sq
  have h0 := isGreen_conj (phSymOp_orth h.eta_sq τ) (h.ham ha) hg
  rw [phSymOp_conj, phSymOp_conj, phConj_ann hη', phConj_cre hη', permConj_smul, permConj_smul, permConj_ann, permConj_cre, modePerm_orb, modePerm_orb, siteSign_orb, siteSign_orb, Bool.xor_false] at h0
  have h3 := isGreen_smul ((η i : ℤ) : ℝ) ((η j : ℤ) : ℝ) (isGreen_neg hes.basis.symm h0)
  rw [Matrix.transpose_smul, Matrix.transpose_smul, smul_smul, smul_smul, ← Int.cast_mul, ← Int.cast_mul, h.eta_sq, h.eta_sq, Int.cast_one, one_smul, one_smul] at h3
  have h4 : (cre ℝ (orb s (τ i)))ᵀ = ann ℝ (orb s (τ i)) := rfl
  have h5 : (ann ℝ (orb s (τ j)))ᵀ = cre ℝ (orb s (τ j)) := rfl
  rw [h4, h5] at h3
  convert h3 using 1
  push_cast; ring

/-- **C111** `build_gf2_exact`: for particle-hole symmetric input `G_{τi,τj}(-z) = -η_i η_j G_ij(z)`; in particular the local Green functions of the sites
fixed by `τ` are odd. -/
theorem C111_gf2_exact {a : HamArgs} (ha : a.Valid) {η : Fin a.n → ℤ} {τ : Equiv.Perm (Fin a.n)} (h : a.ParticleHole η τ) (hes : EigenEspace a.n a.ham es) (s : Bool) :
    ∃ G, buildGf2Exact junk a.n es beta egs s = .ok G ∧ ∀ (i j : Fin a.n) (e eta : ℝ), eta ≠ 0 →
      (G (τ i) (τ j)).call (-e) (-eta) = -((η i * η j : ℤ) : ℂ) * (G i j).call e eta := by
  obtain ⟨G, h1, h2⟩ := C93_gf2_exact (junk := junk) (beta := beta) (egs := egs) ha.le hes s
  refine ⟨G, h1, fun i j e eta he => ?_⟩
  have := h.green ha hes ((h2 i j e eta he _).mpr rfl)
  have ez : -((e : ℂ) + Complex.I * eta) = ((-e : ℝ) : ℂ) + Complex.I * ((-eta : ℝ) : ℂ) := by push_cast; ring
  rw [ez] at this
  exact ((h2 (τ i) (τ j) (-e) (-eta) (neg_ne_zero.mpr he) _).mp this).symm

/-- **C111** `build_gf_exact`: the Green function of a site that `τ` leaves in place is odd. -/
theorem C111_gf_exact {a : HamArgs} (ha : a.Valid) {η : Fin a.n → ℤ} {τ : Equiv.Perm (Fin a.n)} (h : a.ParticleHole η τ) (hes : EigenEspace a.n a.ham es) (i : Fin a.n) (hi : τ i = i) :
    ∃ g, buildGfExact junk a.n es beta egs i false = .ok g ∧ ∀ e eta : ℝ, eta ≠ 0 → g.call (-e) (-eta) = -g.call e eta := by
  obtain ⟨g, h1, h2⟩ := C92_gf_exact (junk := junk) (beta := beta) (egs := egs) ha.le hes i.2
  refine ⟨g, h1, fun e eta he => ?_⟩
  have := h.green ha hes ((h2 e eta he _).mpr rfl)
  have ez : -((e : ℂ) + Complex.I * eta) = ((-e : ℝ) : ℂ) + Complex.I * ((-eta : ℝ) : ℂ) := by push_cast; ring
  have hi' : τ (⟨i, i.2⟩ : Fin a.n) = ⟨i, i.2⟩ := hi
  rw [ez, hi', h.eta_sq, Int.cast_one, neg_one_mul] at this
  exact ((h2 (-e) (-eta) (neg_ne_zero.mpr he) _).mp this).symm

/-- **C111** `get_occupation`: occupations of a site and its image add up to one per spin, at every temperature; a site that `τ` leaves in place is half filled. -/
theorem C111_occupation {a : HamArgs} (ha : a.Valid) {η : Fin a.n → ℤ} {τ : Equiv.Perm (Fin a.n)} (h : a.ParticleHole η τ) (hes : EigenEspace a.n a.ham es) {occ : List OccSct} (hocc : List.Forall₂ OccView es occ) :
    ∃ U D As, getOccupation occ egs beta a.n = .ok (U, D, As) ∧ ∀ k : Fin a.n, U (τ k) = 1 - U k ∧ D (τ k) = 1 - D k ∧ (τ k = k → U k = 1 / 2 ∧ D k = 1 / 2) := by
  obtain ⟨U, D, As, h1, h2⟩ := C101_get_occupation hes hocc egs beta
  have hη' := siteSign_sq h.eta_sq
  have key : ∀ (s : Bool) (k : Fin a.n), thermalOcc beta a.ham s (τ k) = 1 - thermalOcc beta a.ham s k := by
    intro s k
    have h3 := thermal_conj (phSymOp_orth h.eta_sq τ) (h.ham ha) beta (cplx (num ℝ (orb s k)))
    rw [← cplx_mul', ← cplx_mul', phSymOp_conj, phConj_num hη', permConj_sub, permConj_one, permConj_num, modePerm_orb, Bool.xor_false, cplx_sub', cplx_one', sub_eq_add_neg, thermal_add,
      ← neg_one_smul ℂ (cplx (num ℝ (orb s (τ k)))), thermal_smul, gibbs_trace_pos hes.basis] at h3
    unfold thermalOcc
    linear_combination -h3
  have hU : ∀ k : Fin a.n, U (τ k) = 1 - U k := by
    intro k
    have e : ((U (τ k) : ℝ) : ℂ) = ((1 - U k : ℝ) : ℂ) := by push_cast; rw [(h2 k).1, (h2 (τ k)).1, key]
    exact_mod_cast e
  have hD : ∀ k : Fin a.n, D (τ k) = 1 - D k := by
    intro k
    have e : ((D (τ k) : ℝ) : ℂ) = ((1 - D k : ℝ) : ℂ) := by push_cast; rw [(h2 k).2, (h2 (τ k)).2, key]
    exact_mod_cast e
  refine ⟨U, D, As, h1, fun k => ⟨hU k, hD k, fun hk => ?_⟩⟩
  have h3 := hU k
  have h4 := hD k
  rw [hk] at h3 h4
  constructor <;> linarith

/-! ### The impurity at half filling -/

/-- Extension of a permutation of the bath levels to all sites. -/
def bathPerm {nb : ℕ} (σ : Equiv.Perm (Fin nb)) : Equiv.Perm (Fin (nb + 1)) := Equiv.Perm.decomposeFin.symm (0, σ)

theorem bathPerm_zero {nb : ℕ} (σ : Equiv.Perm (Fin nb)) : bathPerm σ 0 = 0 := by simp [bathPerm]

theorem bathPerm_succ {nb : ℕ} (σ : Equiv.Perm (Fin nb)) (k : Fin nb) : bathPerm σ k.succ = (σ k).succ := by
  simp [bathPerm, Equiv.Perm.decomposeFin_symm_apply_succ]

/-- Impurity and bath have opposite signs. -/
def bathSign {nb : ℕ} (i : Fin (nb + 1)) : ℤ := if i = 0 then 1 else -1

section
variable (nb : ℕ) (ek0 vk0 : ℕ → ℝ) (hist : List ImpOp) (ek vk : ℕ → ℝ) (mus : List ℝ)

theorem impAfter_particleHole (U : ℝ) (hmu : (impAfter nb ek0 vk0 hist ek vk mus).H 0 0 = -U / 2) (σ : Equiv.Perm (Fin nb)) (he : ∀ k : Fin nb, ek (σ k) = -ek k) (hv : ∀ k : Fin nb, vk (σ k) = vk k) :
    ((impAfter nb ek0 vk0 hist ek vk mus).args (nb + 1) U).ParticleHole (bathSign (nb := nb)) (bathPerm σ) := by
  have h3 : toMat nb (impAfter nb ek0 vk0 hist ek vk mus).H = siam ((impAfter nb ek0 vk0 hist ek vk mus).H 0 0) (fun k : Fin nb => ek k) (fun k : Fin nb => vk k) :=
    (C48_hamiltonian nb ek0 vk0 hist ek vk mus).1
  have hH : ∀ i j : Fin (nb + 1), (impAfter nb ek0 vk0 hist ek vk mus).H i j = siam ((impAfter nb ek0 vk0 hist ek vk mus).H 0 0) (fun k : Fin nb => ek k) (fun k : Fin nb => vk k) i j := by
    intro i j; rw [← h3]; rfl
  have h00 : ∀ e0 e v, siam (nb := nb) e0 e v 0 0 = e0 := by intro e0 e v; simp [siam]
  have h0k : ∀ e0 e v k, siam (nb := nb) e0 e v 0 (Fin.succ k) = v k := by intro e0 e v k; simp [siam]
  have hk0 : ∀ e0 e v k, siam (nb := nb) e0 e v (Fin.succ k) 0 = v k := by intro e0 e v k; simp [siam]
  have hkl : ∀ e0 e v k l, siam (nb := nb) e0 e v (Fin.succ k) (Fin.succ l) = if k = l then e k else 0 := by intro e0 e v k l; simp [siam]
  have hU : ∀ i j : Fin (nb + 1), (if (i : ℕ) = 0 ∧ (j : ℕ) = 0 then U else 0) = if i = 0 ∧ j = 0 then U else 0 := by
    intro i j; simp only [Fin.ext_iff, Fin.val_zero]
  refine ⟨fun (i : Fin (nb + 1)) => ?_, fun s (i j : Fin (nb + 1)) hij => ?_, fun s (i : Fin (nb + 1)) => ?_, fun (i j : Fin (nb + 1)) => ?_, Or.inl fun (i j : Fin (nb + 1)) hij => ?_, rfl, rfl⟩
  · unfold bathSign; split_ifs <;> simp
  · show (impAfter nb ek0 vk0 hist ek vk mus).H (bathPerm σ i) (bathPerm σ j) = -((bathSign i * bathSign j : ℤ) : ℝ) * (impAfter nb ek0 vk0 hist ek vk mus).H i j
    rw [hH, hH]
    revert hij
    refine Fin.cases ?_ (fun k => ?_) i <;> refine Fin.cases ?_ (fun l => ?_) j <;> intro hij
    · exact absurd rfl hij
    · rw [bathPerm_zero, bathPerm_succ, h0k, h0k, hv]; simp [bathSign]
    · rw [bathPerm_zero, bathPerm_succ, hk0, hk0, hv]; simp [bathSign]
    · have hne : k ≠ l := fun e => hij (by rw [e])
      rw [bathPerm_succ, bathPerm_succ, hkl, hkl, if_neg (fun e => hne (σ.injective e)), if_neg hne, mul_zero]
  · unfold HamArgs.relLevel
    show (impAfter nb ek0 vk0 hist ek vk mus).H (bathPerm σ i) (bathPerm σ i) + 0 + (if (bathPerm σ i : ℕ) = 0 ∧ (bathPerm σ i : ℕ) = 0 then U else 0) / 2 =
      -((impAfter nb ek0 vk0 hist ek vk mus).H i i + 0 + (if (i : ℕ) = 0 ∧ (i : ℕ) = 0 then U else 0) / 2)
    rw [hU, hU, hH, hH]
    refine Fin.cases ?_ (fun k => ?_) i
    · rw [bathPerm_zero, h00, hmu]; simp; ring
    · rw [bathPerm_succ, hkl, hkl, if_pos rfl, if_pos rfl, he]
      simp
  · show (if (bathPerm σ i : ℕ) = 0 ∧ (bathPerm σ j : ℕ) = 0 then U else 0) = if (i : ℕ) = 0 ∧ (j : ℕ) = 0 then U else 0
    rw [hU, hU]
    have : ∀ i : Fin (nb + 1), bathPerm σ i = 0 ↔ i = 0 := by
      intro i
      refine Fin.cases ?_ (fun k => ?_) i
      · simp [bathPerm_zero]
      · rw [bathPerm_succ]; simp [Fin.succ_ne_zero]
    simp only [this]
  · show (if (i : ℕ) = 0 ∧ (j : ℕ) = 0 then U else 0) = 0
    rw [hU, if_neg]
    rintro ⟨rfl, rfl⟩
    exact hij rfl

/-- **C111** the impurity object at half filling (`mu = U/2`) with a bath that is symmetric under `e → -e`: the impurity is half filled for each spin at every
temperature, and the self-energy that the object computes from the exact Green function obeys `Sigma(-z) = U - Sigma(z)`. -/
theorem C111_impurity (hn : 1 ≤ nb) (hn' : nb ≤ 31) (U : ℝ) (hmu : (impAfter nb ek0 vk0 hist ek vk mus).H 0 0 = -U / 2) (σ : Equiv.Perm (Fin nb)) (he : ∀ k : Fin nb, ek (σ k) = -ek k)
    (hv : ∀ k : Fin nb, vk (σ k) = vk k) (hes : EigenEspace (nb + 1) ((impAfter nb ek0 vk0 hist ek vk mus).args (nb + 1) U).ham es) {occ : List OccSct} (hocc : List.Forall₂ OccView es occ) :
    (∃ Nu Nd As, getOccupation occ egs beta (nb + 1) = .ok (Nu, Nd, As) ∧ Nu 0 = 1 / 2 ∧ Nd 0 = 1 / 2) ∧
    ∃ g, buildGfExact junk (nb + 1) es beta egs 0 false = .ok g ∧ ∀ z : ℂ, z.im ≠ 0 →
      (impAfter nb ek0 vk0 hist ek vk mus).sigma (nb + 1) (fun z => g.call z.re z.im) (-z) = U - (impAfter nb ek0 vk0 hist ek vk mus).sigma (nb + 1) (fun z => g.call z.re z.im) z := by
  have ha := impAfter_valid nb ek0 vk0 hist ek vk mus hn hn' U
  have hph := impAfter_particleHole nb ek0 vk0 hist ek vk mus U hmu σ he hv
  constructor
  · obtain ⟨Nu, Nd, As, h1, h2⟩ := C111_occupation (egs := egs) (beta := beta) ha hph hes hocc
    exact ⟨Nu, Nd, As, h1, (h2 (0 : Fin (nb + 1))).2.2 (bathPerm_zero σ)⟩
  · obtain ⟨g, h1, h2⟩ := C111_gf_exact (junk := junk) (egs := egs) (beta := beta) ha hph hes (0 : Fin (nb + 1)) (bathPerm_zero σ)
    refine ⟨g, h1, fun z hz => ?_⟩
    have h3 := h2 z.re z.im hz
    have hd : hybridisation (fun k : Fin nb => ek k) (fun k : Fin nb => vk k) (-z) = -hybridisation (fun k : Fin nb => ek k) (fun k : Fin nb => vk k) z := by
      unfold hybridisation
      rw [← Equiv.sum_comp σ, ← Finset.sum_neg_distrib]
      refine Finset.sum_congr rfl fun k _ => ?_
      simp only [he, hv]
      rw [← div_neg]
      congr 1
      push_cast; ring
    simp only [Imp.sigma, Complex.neg_re, Complex.neg_im]
    rw [h3, impAfter_freeInv, impAfter_freeInv, hd, hmu, inv_neg]
    push_cast; ring

end

/-! ### Non-vacuity -/

/-- Two levels at `±1` with equal couplings, `U = 4`, `mu = 2`: the hypotheses hold and the impurity is half filled. -/
example : ∃ es occ Nu Nd As, List.Forall₂ OccView es occ ∧ getOccupation occ 0 3 3 = .ok (Nu, Nd, As) ∧ Nu 0 = 1 / 2 ∧ Nd 0 = 1 / 2 := by
  have ha := impAfter_valid 2 (fun _ => 0) (fun _ => 0) [] (fun k => if k = 0 then 1 else -1) (fun _ => 1) [2] (by norm_num) (by norm_num) 4
  obtain ⟨es, hes⟩ := eigenEspace_exists ha
  have hview : List.Forall₂ OccView es (es.map fun p => OccSct.ofSct p.2) := by
    rw [List.forall₂_map_right_iff]
    exact List.forall₂_same.mpr fun p _ => OccSct.ofSct_view p
  obtain ⟨⟨Nu, Nd, As, h1, h2, h3⟩, -⟩ := C111_impurity 2 (fun _ => 0) (fun _ => 0) [] (fun k => if k = 0 then 1 else -1) (fun _ => 1) [2] (junk := 0) (egs := 0) (beta := 3) (by norm_num) (by norm_num) 4
    (by simp [impAfter, Imp.run, Imp.step]; norm_num) (Equiv.swap 0 1) (by intro k; fin_cases k <;> simp) (fun _ => rfl) hes hview
  exact ⟨es, _, Nu, Nd, As, hview, h1, h2, h3⟩

/-- The Hubbard dimer with `U = 4`, hopping one, in half-filling mode. -/
def dimerArgs : HamArgs := ⟨2, fun _ i j => if i = j then 0 else 1, .array fun i j => if i = j then 4 else 0, none, true, 0⟩

theorem dimerArgs_valid : dimerArgs.Valid := by
  refine ⟨le_refl 2, by simp [dimerArgs], rfl, ?_, by simp [dimerArgs, VArg.array], by simp [dimerArgs, VArg.array], by simp [dimerArgs, VArg.array]⟩
  intro s i j _ _
  simp only [dimerArgs, eq_comm]

theorem dimerArgs_particleHole : dimerArgs.ParticleHole (fun i : Fin 2 => if i = 0 then 1 else -1) (Equiv.refl _) := by
  refine ⟨fun (i : Fin 2) => ?_, fun s (i j : Fin 2) hij => ?_, fun s (i : Fin 2) => ?_, fun _ _ => rfl, Or.inr fun (i : Fin 2) => rfl, rfl, rfl⟩
  · fin_cases i <;> simp
  · have h : ∀ i j : Fin 2, i ≠ j → (if (i : ℕ) = j then (0 : ℝ) else 1) = -(((if i = 0 then 1 else -1) * (if j = 0 then 1 else -1) : ℤ) : ℝ) * (if (i : ℕ) = j then (0 : ℝ) else 1) := by
      intro i j hij
      fin_cases i <;> fin_cases j <;> simp at hij ⊢
    exact h i j hij
  · simp [HamArgs.relLevel, dimerArgs]

/-- The dimer is half filled, its two sites are equivalent, and so are the two spins. -/
example : ∃ es occ U D As, List.Forall₂ OccView es occ ∧ getOccupation occ 0 1 2 = .ok (U, D, As) ∧ U 0 = 1 / 2 ∧ D 1 = 1 / 2 := by
  obtain ⟨es, hes⟩ := eigenEspace_exists dimerArgs_valid
  have hview : List.Forall₂ OccView es (es.map fun p => OccSct.ofSct p.2) := by
    rw [List.forall₂_map_right_iff]
    exact List.forall₂_same.mpr fun p _ => OccSct.ofSct_view p
  obtain ⟨U, D, As, h1, h2⟩ := C111_occupation (egs := 0) (beta := 1) dimerArgs_valid dimerArgs_particleHole hes hview
  exact ⟨es, _, U, D, As, hview, h1, ((h2 (0 : Fin 2)).2.2 rfl).1, ((h2 (1 : Fin 2)).2.2 rfl).2⟩

example : dimerArgs.SpinFree := fun _ _ _ _ => rfl

example : dimerArgs.Invariant false (Equiv.swap (0 : Fin 2) (1 : Fin 2) : Equiv.Perm (Fin 2)) := by
  have h : ∀ (c : ℝ) (d : ℝ) (i j : Fin 2), (if ((Equiv.swap (0 : Fin 2) 1 i : Fin 2) : ℕ) = (Equiv.swap (0 : Fin 2) 1 j : Fin 2) then c else d) = if (i : ℕ) = j then c else d := by
    intro c d i j
    fin_cases i <;> fin_cases j <;> simp
  exact ⟨fun s i j => h 0 1 i j, fun i j => h 4 0 i j, fun v hv => by simp [dimerArgs] at hv, fun A hA => by simp [dimerArgs, VArg.array] at hA, fun A hA => by simp [dimerArgs, VArg.array] at hA⟩

end Edpyt
