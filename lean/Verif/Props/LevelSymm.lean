/-
C131: a symmetry of the input maps the energies of one sector onto those of another.

`build_espace` (edpyt/espace.py:102-164) diagonalizes the Hamiltonian sector by sector.  The lists of
energies of two runs agree, entry by entry, for sectors related by a relabelling of the sites, by the
exchange of the two spins and by a particle-hole transformation.
-/
import Verif.Proof.Levels
import Verif.Props.SpinMultiplet
import Verif.Props.Relabel
import Verif.Props.HalfFilling

namespace Edpyt
open Spec Matrix

/-- Two ascending lists with the same multiplicities are equal. -/
theorem sorted_ext {l l' : List ℝ} (h : l.Pairwise (· ≤ ·)) (h' : l'.Pairwise (· ≤ ·)) (hc : ∀ x, l.count x = l'.count x) : l = l' :=
  List.Perm.eq_of_pairwise (fun _ _ _ _ => le_antisymm) h h' (List.perm_iff_count.2 hc)

theorem buildEspace_sorted {a : HamArgs} (ha : a.Valid) {w : ℕ} (hw : a.n ≤ w) {es : Espace (ℕ × ℕ)} {egs : WithTop ℝ} (h : BuildEspace w a none (.ok (es, egs))) {k : ℕ × ℕ} {I : Sct} (hI : (k, I) ∈ es) :
    I.eigvals.Pairwise (· ≤ ·) := by
  obtain ⟨l, hl⟩ := buildEspace_none_some h
  obtain ⟨-, h2, -⟩ := C28_build_espace ha hw l es egs hl
  obtain ⟨-, -, ⟨D, w', v', -, hE, hw', -⟩, -⟩ := h2 _ hI
  rw [show I.eigvals = _ from hw']
  exact hE.sorted.sublist (List.take_sublist _ _)

/-- The number of electrons of spin `s` counts the sites whose spin-`s` orbital is occupied. -/
theorem spinCount_eq {n : ℕ} (s : Bool) (S : Finset (Fin (n + n))) : spinCount s S = ((Finset.univ.filter fun i : Fin n => orb s i ∈ S).card : ℤ) := by
  cases s
  · simp only [spinCount, Bool.false_eq_true, if_false, Nat.cast_inj]
    rfl
  · simp only [spinCount, if_true, Nat.cast_inj]
    rfl

/-- The counts of a relabelled configuration. -/
theorem permOp_counts {n : ℕ} (b : Bool) (τ : Equiv.Perm (Fin n)) {T S : Finset (Fin (n + n))} (h : permOp ℝ (modePerm b τ) T S ≠ 0) (s : Bool) :
    spinCount s T = spinCount (xor s b) S := by
  simp only [permOp, Matrix.of_apply] at h
  have hT : T = S.map (modePerm b τ).toEmbedding := by
    by_contra hc
    exact h (if_neg hc)
  rw [spinCount_eq, spinCount_eq, Nat.cast_inj]
  symm
  refine Finset.card_bij (fun i _ => τ i) (fun i hi => ?_) (fun _ _ _ _ h => τ.injective h) (fun j hj => ⟨τ.symm j, ?_, by simp⟩)
  · rw [Finset.mem_filter] at hi ⊢
    refine ⟨Finset.mem_univ _, ?_⟩
    rw [hT, Finset.mem_map]
    exact ⟨_, hi.2, by rw [Equiv.coe_toEmbedding, modePerm_orb]; simp⟩
  · rw [Finset.mem_filter] at hj ⊢
    refine ⟨Finset.mem_univ _, ?_⟩
    have := hj.2
    rw [hT, Finset.mem_map] at this
    obtain ⟨k, hk, e⟩ := this
    have e' : k = orb (xor s b) (τ.symm j) := by
      apply (modePerm b τ).injective
      rw [modePerm_orb]
      simpa using e
    rwa [← e']

/-- A particle-hole transformation replaces the electrons of either spin by holes. -/
theorem phSymOp_counts {n : ℕ} (η : Fin n → ℤ) (τ : Equiv.Perm (Fin n)) {T S : Finset (Fin (n + n))} (h : phSymOp η τ T S ≠ 0) (s : Bool) :
    spinCount s T = n - spinCount s S := by
  unfold phSymOp at h
  rw [Matrix.mul_apply] at h
  obtain ⟨R, -, hR⟩ := Finset.exists_ne_zero_of_sum_ne_zero h
  have h1 := permOp_counts false τ (left_ne_zero_of_mul hR) s
  have h2 : R = Sᶜ := by
    by_contra hc
    refine right_ne_zero_of_mul hR ?_
    simp only [phOp, Matrix.of_apply]
    exact if_neg hc
  rw [h1, Bool.xor_false, h2, spinCount_eq, spinCount_eq]
  have := Finset.card_filter_add_card_filter_not (s := (Finset.univ : Finset (Fin n))) (fun i => orb s i ∈ S)
  simp only [Finset.mem_compl]
  rw [Finset.card_univ, Fintype.card_fin] at this
  omega

variable {a : HamArgs} {w w' : ℕ} {es es' : Espace (ℕ × ℕ)} {egs egs' : WithTop ℝ}

/-- An orthogonal operator between two Hamiltonians that maps the sector `(p, q)` to `(p', q')` and back. -/
theorem levels_eq {n : ℕ} {H H' : Matrix (Finset (Fin (n + n))) (Finset (Fin (n + n))) ℝ} (h : EigenEspace n H es) (h' : EigenEspace n H' es') {A : Matrix (Finset (Fin (n + n))) (Finset (Fin (n + n))) ℝ}
    (hA : A * H = H' * A) (hO : Aᵀ * A = 1) {p q p' q' : ℕ} (hp : p ≤ n) (hq : q ≤ n) (hp' : p' ≤ n) (hq' : q' ≤ n)
    (hg : ∀ T S, A T S ≠ 0 → ((spinCount false S = p ∧ spinCount true S = q) ↔ (spinCount false T = p' ∧ spinCount true T = q'))) (E : ℝ) :
    (sctAt es (p, q)).eigvals.count E = (sctAt es' (p', q')).eigvals.count E := by
  have hO' : A * Aᵀ = 1 := _root_.mul_eq_one_comm.mp hO
  refine le_antisymm (level_transfer h h' hA hp hq hp' hq' (fun T S hTS h1 h2 => (hg T S hTS).1 ⟨h1, h2⟩) (fun x _ h0 => ?_) E)
    (level_transfer h' h (A := Aᵀ) ?_ hp' hq' hp hq (fun T S hTS h1 h2 => (hg S T hTS).2 ⟨h1, h2⟩) (fun x _ h0 => ?_) E)
  · have := congrArg (Aᵀ *ᵥ ·) h0
    simpa only [Matrix.mulVec_mulVec, hO, Matrix.one_mulVec, Matrix.mulVec_zero] using this
  · calc Aᵀ * H' = Aᵀ * H' * (A * Aᵀ) := by rw [hO', Matrix.mul_one]
      _ = Aᵀ * (H' * A) * Aᵀ := by simp only [Matrix.mul_assoc]
      _ = Aᵀ * (A * H) * Aᵀ := by rw [hA]
      _ = Aᵀ * A * (H * Aᵀ) := by simp only [Matrix.mul_assoc]
      _ = H * Aᵀ := by rw [hO, Matrix.one_mul]
  · have := congrArg (A *ᵥ ·) h0
    simpa only [Matrix.mulVec_mulVec, hO', Matrix.one_mulVec, Matrix.mulVec_zero] using this

theorem sctAt_of_mem {n : ℕ} {H : Matrix (Finset (Fin (n + n))) (Finset (Fin (n + n))) ℝ} (hes : EigenEspace n H es) {p q : ℕ} {I : Sct} (hI : ((p, q), I) ∈ es) :
    sctAt es (p, q) = I ∧ p ≤ n ∧ q ≤ n := by
  have b := mem_ndindex2.mp (hes.keys.mem_iff.mp (List.mem_map.mpr ⟨_, hI, rfl⟩))
  simp only at b
  exact ⟨by unfold sctAt; rw [dictGet_mem hes.toCompleteEspace.nodup hI], by omega, by omega⟩

/-- **C131** Renumbering the sites, and calling the spins by each other's names if `b`, does not change the energies: sector `(p, q)` of the one run lists the same energies, in the same order,
as sector `(p, q)`, or `(q, p)` if the spins are exchanged, of the other. -/
theorem C131_relabel {b : Bool} {τ : Equiv.Perm (Fin a.n)} {H' : ℕ → ℕ → ℕ → ℝ} {V' : VArg ℝ} {z' : Option (ℕ → ℝ)} (ha : a.Valid) (ha' : (a.withInput H' V' z').Valid) (hw : a.n ≤ w) (hw' : a.n ≤ w')
    (hr : a.Relabel b τ H' V' z') (h : BuildEspace w a none (.ok (es, egs))) (h' : BuildEspace w' (a.withInput H' V' z') none (.ok (es', egs'))) {p q : ℕ} {I J : Sct}
    (hI : ((p, q), I) ∈ es) (hJ : ((if b then (q, p) else (p, q)), J) ∈ es') : I.eigvals = J.eigvals := by
  have e := buildEspace_eigen ha hw h
  have e' : EigenEspace a.n (a.hamWith H' V' z') es' := buildEspace_eigen ha' hw' h'
  refine sorted_ext (buildEspace_sorted ha hw h hI) (buildEspace_sorted ha' hw' h' hJ) fun x => ?_
  obtain ⟨rfl, hp, hq⟩ := sctAt_of_mem e hI
  cases b
  · obtain ⟨rfl, -, -⟩ := sctAt_of_mem e' hJ
    exact levels_eq e e' hr.ham (permOp_orth ℝ _) hp hq hp hq (fun T S hTS => by rw [permOp_counts _ _ hTS, permOp_counts _ _ hTS]; simp) x
  · obtain ⟨rfl, -, -⟩ := sctAt_of_mem e' hJ
    exact levels_eq e e' hr.ham (permOp_orth ℝ _) hp hq hq hp (fun T S hTS => by rw [permOp_counts _ _ hTS, permOp_counts _ _ hTS]; simp [and_comm]) x

/-- **C131** Without magnetic field the sectors `(p, q)` and `(q, p)` list the same energies, whatever the interaction. -/
theorem C131_spin (ha : a.Valid) (hw : a.n ≤ w) (hs : a.SpinFree) (h : BuildEspace w a none (.ok (es, egs))) {p q : ℕ} {I J : Sct}
    (hI : ((p, q), I) ∈ es) (hJ : ((q, p), J) ∈ es) : I.eigvals = J.eigvals := by
  have e := buildEspace_eigen ha hw h
  refine sorted_ext (buildEspace_sorted ha hw h hI) (buildEspace_sorted ha hw h hJ) fun x => ?_
  obtain ⟨rfl, hp, hq⟩ := sctAt_of_mem e hI
  obtain ⟨rfl, -, -⟩ := sctAt_of_mem e hJ
  exact le_antisymm (flip_count e hs hp hq x) (flip_count e hs hq hp x)

/-- **C131** With particle-hole symmetry the sectors with `p, q` electrons and with `p, q` holes list the same energies. -/
theorem C131_particle_hole {η : Fin a.n → ℤ} {τ : Equiv.Perm (Fin a.n)} (ha : a.Valid) (hw : a.n ≤ w) (hph : a.ParticleHole η τ) (h : BuildEspace w a none (.ok (es, egs))) {p q : ℕ} {I J : Sct}
    (hI : ((p, q), I) ∈ es) (hJ : ((a.n - p, a.n - q), J) ∈ es) : I.eigvals = J.eigvals := by
  have e := buildEspace_eigen ha hw h
  refine sorted_ext (buildEspace_sorted ha hw h hI) (buildEspace_sorted ha hw h hJ) fun x => ?_
  obtain ⟨rfl, hp, hq⟩ := sctAt_of_mem e hI
  obtain ⟨rfl, hp', hq'⟩ := sctAt_of_mem e hJ
  refine levels_eq e e (hph.ham ha) (phSymOp_orth hph.eta_sq τ) hp hq hp' hq' (fun T S hTS => ?_) x
  rw [phSymOp_counts η τ hTS, phSymOp_counts η τ hTS]
  omega

/-- Non-vacuity: the half-filled Hubbard dimer is valid, spin-free and particle-hole symmetric; its runs exist, and the sectors `(1, 0)`, `(0, 1)` and `(1, 2)` list the same two energies. -/
example : ∃ es E0, BuildEspace 64 dimerArgs none (.ok (es, E0)) ∧ ∃ I J K : Sct, ((1, 0), I) ∈ es ∧ ((0, 1), J) ∈ es ∧ ((1, 2), K) ∈ es ∧ I.eigvals.length = 2 ∧ I.eigvals = J.eigvals ∧ I.eigvals = K.eigvals := by
  have hv := dimerArgs_valid
  have hw : dimerArgs.n ≤ 64 := by norm_num [dimerArgs]
  obtain ⟨⟨es, E0⟩, h⟩ := (buildEspace_none_ok hv hw).1
  have hes : EigenEspace 2 dimerArgs.ham es := buildEspace_eigen hv hw h
  obtain ⟨-, -, hI, -, -, -, -, hlen⟩ := hes.toCompleteEspace.at (u := 1) (d := 0) (by omega) (by omega)
  obtain ⟨-, -, hJ, -⟩ := hes.toCompleteEspace.at (u := 0) (d := 1) (by omega) (by omega)
  obtain ⟨-, -, hK, -⟩ := hes.toCompleteEspace.at (u := 1) (d := 2) (by omega) (by omega)
  exact ⟨es, E0, h, _, _, _, hI, hJ, hK, by rw [hlen]; decide, C131_spin hv hw (fun _ _ _ _ => rfl) h hI hJ, C131_particle_hole hv hw dimerArgs_particleHole h hI hK⟩

end Edpyt
