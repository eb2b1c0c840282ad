import Verif.Props.Filling
import Verif.Props.OccTruncated
import Verif.Proof.Gibbs
/-!
# C151: raising a level lowers its occupation, and the occupations determine the levels
-/
namespace Edpyt
open Spec Matrix

/-! ## Specification -/

/-- The free energy of a list of eigenvalues: `-log (sum exp (-beta E)) / beta`. -/
noncomputable def Spec.freeEnergy (beta : ℝ) (es : Espace (ℕ × ℕ)) : ℝ := -Real.log (es.map fun p => (p.2.eigvals.map fun E => Real.exp (-beta * E)).sum).sum / beta

/-- A run: `build_espace` with all eigenvalues on the arguments `a`, then `get_occupation` at the inverse temperature `beta` with the result `U` (spin up)
and `D` (spin down). -/
def Spec.OccRun (w : ℕ) (a : HamArgs) (beta : ℝ) (es : Espace (ℕ × ℕ)) (U D : ℕ → ℝ) : Prop :=
  ∃ E occ egs As, BuildEspace w a none (.ok (es, E)) ∧ List.Forall₂ OccView es occ ∧ getOccupation occ egs beta a.n = .ok (U, D, As)

/-- The two one-body matrices have the same elements off the diagonal. -/
def Spec.SameHops (n : ℕ) (H H' : ℕ → ℕ → ℕ → ℝ) : Prop := ∀ s < 2, ∀ i < n, ∀ j < n, i ≠ j → H' s i j = H s i j

/-- The energy of the difference of the levels of two one-body matrices at given occupations. -/
noncomputable def Spec.levelWork (n : ℕ) (H H' : ℕ → ℕ → ℕ → ℝ) (U D : ℕ → ℝ) : ℝ :=
  ∑ i ∈ Finset.range n, ((H' 0 i i - H 0 i i) * U i + (H' 1 i i - H 1 i i) * D i)

variable {a : HamArgs} {w : ℕ} {es es' : Espace (ℕ × ℕ)} {U D U' D' : ℕ → ℝ} {beta : ℝ}

/-! ## Helpers -/

theorem freeEnergy_eq {n : ℕ} (h : CompleteEspace n es) (beta : ℝ) : freeEnergy beta es = -Real.log (∑ k, Real.exp (-beta * esVal n es k)) / beta := by
  have := partition_eq h beta 0
  rw [mul_zero, Real.exp_zero, one_mul] at this
  unfold freeEnergy
  rw [← this]
  unfold partition
  simp only [sub_zero]

theorem Spec.OccRun.eigen (ha : a.Valid) (hw : a.n ≤ w) (h : OccRun w a beta es U D) : EigenEspace a.n a.ham es ∧ ∀ k : Fin a.n,
    (U k : ℂ) = thermalOcc beta a.ham false k ∧ (D k : ℂ) = thermalOcc beta a.ham true k := by
  obtain ⟨E, occ, egs, As, hb, hv, ho⟩ := h
  have h1 := buildEspace_eigen ha hw hb
  obtain ⟨U', D', As', ho', hU⟩ := C101_get_occupation h1 hv egs beta
  rw [ho] at ho'
  obtain ⟨rfl, rfl, rfl⟩ : U = U' ∧ D = D' ∧ As = As' := by simpa using ho'
  exact ⟨h1, hU⟩

theorem Spec.OccRun.exists (ha : a.Valid) (hw : a.n ≤ w) (beta : ℝ) : ∃ es U D, OccRun w a beta es U D := by
  obtain ⟨⟨es, E⟩, hb⟩ := (buildEspace_none_ok ha hw).1
  have hv : List.Forall₂ OccView es (es.map fun p => OccSct.ofSct p.2) := by
    rw [List.forall₂_map_right_iff]
    exact List.forall₂_same.mpr fun p _ => OccSct.ofSct_view p
  obtain ⟨U, D, As, ho, -⟩ := C101_get_occupation (buildEspace_eigen ha hw hb) hv 0 beta
  exact ⟨es, U, D, E, _, 0, As, hb, hv, ho⟩

/-- The thermal average of the difference of the levels is the sum over the occupations. -/
theorem thermal_work {n : ℕ} {A : Matrix (Finset (Fin (n + n))) (Finset (Fin (n + n))) ℝ} (h : EigenEspace n A es) {U D : ℕ → ℝ}
    (hU : ∀ k : Fin n, (U k : ℂ) = thermalOcc beta A false k ∧ (D k : ℂ) = thermalOcc beta A true k) (x y : Fin n → ℝ) :
    (∑ k, Real.exp (-beta * esVal n es k) * (esKet n es k ⬝ᵥ (Matrix.diagonal fun S => ∑ i : Fin n, (x i * (if orb false i ∈ S then 1 else 0) + y i * (if orb true i ∈ S then 1 else 0))) *ᵥ esKet n es k)) /
      (∑ k, Real.exp (-beta * esVal n es k)) = ∑ i : Fin n, (x i * U i + y i * D i) := by
  have e : ∀ (s : Bool) (i : Fin n), thermalOcc beta A s i = (((∑ k, Real.exp (-beta * esVal n es k) * (esKet n es k ⬝ᵥ (num ℝ (orb s i) *ᵥ esKet n es k))) / ∑ k, Real.exp (-beta * esVal n es k) : ℝ) : ℂ) :=
    fun s i => h.basis.thermal beta _
  have hU' : ∀ i : Fin n, U i = (∑ k, Real.exp (-beta * esVal n es k) * (esKet n es k ⬝ᵥ (num ℝ (orb false i) *ᵥ esKet n es k))) / ∑ k, Real.exp (-beta * esVal n es k) := fun i => by
    have := (hU i).1
    rw [e] at this
    exact_mod_cast this
  have hD' : ∀ i : Fin n, D i = (∑ k, Real.exp (-beta * esVal n es k) * (esKet n es k ⬝ᵥ (num ℝ (orb true i) *ᵥ esKet n es k))) / ∑ k, Real.exp (-beta * esVal n es k) := fun i => by
    have := (hU i).2
    rw [e] at this
    exact_mod_cast this
  simp only [hU', hD']
  have hd : (Matrix.diagonal fun S => ∑ i : Fin n, (x i * (if orb false i ∈ S then (1 : ℝ) else 0) + y i * (if orb true i ∈ S then 1 else 0))) = ∑ i : Fin n, (x i • num ℝ (orb false i) + y i • num ℝ (orb true i)) := by
    simp only [num_diagonal, ← Matrix.diagonal_smul, Matrix.diagonal_add, diagonal_sum]
    rfl
  have e2 : ∀ i : Fin n, x i * ((∑ k, Real.exp (-beta * esVal n es k) * (esKet n es k ⬝ᵥ (num ℝ (orb false i) *ᵥ esKet n es k))) / ∑ k, Real.exp (-beta * esVal n es k)) +
      y i * ((∑ k, Real.exp (-beta * esVal n es k) * (esKet n es k ⬝ᵥ (num ℝ (orb true i) *ᵥ esKet n es k))) / ∑ k, Real.exp (-beta * esVal n es k)) =
      (∑ k, Real.exp (-beta * esVal n es k) * (esKet n es k ⬝ᵥ ((x i • num ℝ (orb false i) + y i • num ℝ (orb true i)) *ᵥ esKet n es k))) / ∑ k, Real.exp (-beta * esVal n es k) := fun i => by
    rw [mul_div_assoc', mul_div_assoc', ← add_div, Finset.mul_sum, Finset.mul_sum, ← Finset.sum_add_distrib]
    congr 1
    refine Finset.sum_congr rfl fun k _ => ?_
    rw [Matrix.add_mulVec, dotProduct_add, Matrix.smul_mulVec, Matrix.smul_mulVec, dotProduct_smul, dotProduct_smul, smul_eq_mul, smul_eq_mul]
    ring
  simp only [e2]
  rw [← Finset.sum_div, Finset.sum_comm, hd]
  congr 1
  refine Finset.sum_congr rfl fun k _ => ?_
  rw [← Finset.mul_sum, Matrix.sum_mulVec, dotProduct_sum]

theorem hamH_levels {H : ℕ → ℕ → ℕ → ℝ} (hs : SameHops a.n a.H H) : a.hamH H a.mu = a.ham + Matrix.diagonal fun S => ∑ i : Fin a.n,
    ((H 0 i i - a.H 0 i i) * (if orb false i ∈ S then 1 else 0) + (H 1 i i - a.H 1 i i) * (if orb true i ∈ S then 1 else 0)) := by
  rw [withH_ham a.mu fun s i j hij => hs _ (by split_ifs <;> norm_num) i i.2 j j.2 fun h => hij (Fin.ext h)]
  congr 2
  funext S
  rw [Fintype.sum_bool, add_comm, ← Finset.sum_add_distrib]
  refine Finset.sum_congr rfl fun i _ => ?_
  simp only [if_true, Bool.false_eq_true, if_false]
  ring

theorem levelWork_eq {H H' : ℕ → ℕ → ℕ → ℝ} {n : ℕ} (U D : ℕ → ℝ) : levelWork n H H' U D = ∑ i : Fin n, ((H' 0 i i - H 0 i i) * U i + (H' 1 i i - H 1 i i) * D i) := by
  unfold levelWork
  rw [Finset.sum_range fun i => (H' 0 i i - H 0 i i) * U i + (H' 1 i i - H 1 i i) * D i]

theorem levelWork_symm {H H' : ℕ → ℕ → ℕ → ℝ} {n : ℕ} (U D : ℕ → ℝ) : levelWork n H' H U D = -levelWork n H H' U D := by
  unfold levelWork
  rw [← Finset.sum_neg_distrib]
  exact Finset.sum_congr rfl fun i _ => by ring

theorem Spec.SameHops.symm {n : ℕ} {H H' : ℕ → ℕ → ℕ → ℝ} (h : SameHops n H H') : SameHops n H' H := fun s hs i hi j hj hij => (h s hs i hi j hj hij).symm

theorem free_upper {H : ℕ → ℕ → ℕ → ℝ} (ha : a.Valid) (ha' : ({ a with H := H } : HamArgs).Valid) (hw : a.n ≤ w) (hb : 0 < beta) (hs : SameHops a.n a.H H)
    (h : OccRun w a beta es U D) (h' : OccRun w { a with H := H } beta es' U' D') :
    freeEnergy beta es' - freeEnergy beta es ≤ levelWork a.n a.H H U D ∧
      ((∃ i < a.n, a.H 0 i i ≠ H 0 i i ∨ a.H 1 i i ≠ H 1 i i) → freeEnergy beta es' - freeEnergy beta es < levelWork a.n a.H H U D) := by
  obtain ⟨e, hU⟩ := h.eigen ha hw
  obtain ⟨e', -⟩ : EigenEspace a.n (a.hamH H a.mu) es' ∧ _ := OccRun.eigen (a := { a with H := H }) ha' hw h'
  rw [freeEnergy_eq e.toCompleteEspace, freeEnergy_eq e'.toCompleteEspace, levelWork_eq, ← thermal_work e hU]
  have hd := hamH_levels hs
  have hsub : a.hamH H a.mu - a.ham = Matrix.diagonal fun S => ∑ i : Fin a.n,
    ((H 0 i i - a.H 0 i i) * (if orb false i ∈ S then 1 else 0) + (H 1 i i - a.H 1 i i) * (if orb true i ∈ S then 1 else 0)) := by rw [hd, add_sub_cancel_left]
  constructor
  · have := gibbs_le e.basis e'.basis beta
    rw [hsub] at this
    rw [← sub_div, div_le_iff₀ hb]
    linarith
  · rintro ⟨i, hi, hne⟩
    have := gibbs_lt e.basis e'.basis hb.ne' fun c => ?_
    · rw [hsub] at this
      rw [← sub_div, div_lt_iff₀ hb]
      linarith
    · by_contra hcon
      push Not at hcon
      have key : ∀ S : Finset (Fin (a.n + a.n)), ∑ i : Fin a.n,
          ((H 0 i i - a.H 0 i i) * (if orb false i ∈ S then 1 else 0) + (H 1 i i - a.H 1 i i) * (if orb true i ∈ S then 1 else 0)) = c := fun S => by
        have h1 := congrFun (hcon (Pi.single S 1)) S
        rw [hd, Matrix.add_mulVec, Pi.add_apply, Pi.add_apply, Matrix.mulVec_diagonal] at h1
        simp only [Pi.smul_apply, Pi.single_eq_same, smul_eq_mul, mul_one] at h1
        linarith
      have hc : c = 0 := by rw [← key ∅]; simp
      have h0 := key {orb false ⟨i, hi⟩}
      have h1 := key {orb true ⟨i, hi⟩}
      have hinj : ∀ (s t : Bool) (j : Fin a.n), orb s j ∈ ({orb t ⟨i, hi⟩} : Finset (Fin (a.n + a.n))) ↔ s = t ∧ j = ⟨i, hi⟩ := fun s t j => by
        rw [Finset.mem_singleton, orb_inj]
      simp only [hinj] at h0 h1
      rw [Finset.sum_eq_single ⟨i, hi⟩ (fun j _ hj => by simp [hj]) (by simp)] at h0 h1
      simp at h0 h1
      rcases hne with h | h
      · exact h (by linarith)
      · exact h (by linarith)

/-! ## C151 -/

/-- **C151** (free energy) Changing the levels changes the free energy of the spectrum at most by the work at the old occupations, and at least by that at
the new ones; both inequalities are strict if some level has changed. -/
theorem C151_free_energy {H : ℕ → ℕ → ℕ → ℝ} (ha : a.Valid) (ha' : ({ a with H := H } : HamArgs).Valid) (hw : a.n ≤ w) (hb : 0 < beta) (hs : SameHops a.n a.H H)
    (h : OccRun w a beta es U D) (h' : OccRun w { a with H := H } beta es' U' D') :
    (levelWork a.n a.H H U' D' ≤ freeEnergy beta es' - freeEnergy beta es ∧ freeEnergy beta es' - freeEnergy beta es ≤ levelWork a.n a.H H U D) ∧
    ((∃ i < a.n, a.H 0 i i ≠ H 0 i i ∨ a.H 1 i i ≠ H 1 i i) →
      levelWork a.n a.H H U' D' < freeEnergy beta es' - freeEnergy beta es ∧ freeEnergy beta es' - freeEnergy beta es < levelWork a.n a.H H U D) := by
  obtain ⟨u1, u2⟩ := free_upper ha ha' hw hb hs h h'
  obtain ⟨l1, l2⟩ := free_upper (a := { a with H := H }) (H := a.H) ha' ha hw hb hs.symm h' h
  simp only at l1 l2
  rw [levelWork_symm] at l1 l2
  refine ⟨⟨by linarith, u1⟩, fun ⟨i, hi, hne⟩ => ⟨?_, u2 ⟨i, hi, hne⟩⟩⟩
  have := l2 ⟨i, hi, hne.imp Ne.symm Ne.symm⟩
  linarith

/-- **C151** (levels) If some level differs, the change of the occupations is opposed to that of the levels: summed over sites and spins, the products of
the two changes are negative. -/
theorem C151_levels {H : ℕ → ℕ → ℕ → ℝ} (ha : a.Valid) (ha' : ({ a with H := H } : HamArgs).Valid) (hw : a.n ≤ w) (hb : 0 < beta) (hs : SameHops a.n a.H H)
    (hne : ∃ i < a.n, a.H 0 i i ≠ H 0 i i ∨ a.H 1 i i ≠ H 1 i i) (h : OccRun w a beta es U D) (h' : OccRun w { a with H := H } beta es' U' D') :
    ∑ i ∈ Finset.range a.n, ((H 0 i i - a.H 0 i i) * (U' i - U i) + (H 1 i i - a.H 1 i i) * (D' i - D i)) < 0 := by
  obtain ⟨h1, h2⟩ := (C151_free_energy ha ha' hw hb hs h h').2 hne
  have e : ∑ i ∈ Finset.range a.n, ((H 0 i i - a.H 0 i i) * (U' i - U i) + (H 1 i i - a.H 1 i i) * (D' i - D i)) = levelWork a.n a.H H U' D' - levelWork a.n a.H H U D := by
    unfold levelWork
    rw [← Finset.sum_sub_distrib]
    exact Finset.sum_congr rfl fun i _ => by ring
  rw [e]
  linarith

/-- **C151** (one level) Raising the level of one site for both spins lowers the number of electrons on it, whatever the couplings and interactions. -/
theorem C151_site {H : ℕ → ℕ → ℕ → ℝ} (ha : a.Valid) (ha' : ({ a with H := H } : HamArgs).Valid) (hw : a.n ≤ w) (hb : 0 < beta) {k : ℕ} (hk : k < a.n) {t : ℝ} (ht : 0 < t)
    (hH : ∀ s < 2, ∀ i < a.n, ∀ j < a.n, H s i j = a.H s i j + if i = k ∧ j = k then t else 0) (h : OccRun w a beta es U D) (h' : OccRun w { a with H := H } beta es' U' D') :
    U' k + D' k < U k + D k := by
  have := C151_levels ha ha' hw hb (fun s hs i hi j hj hij => by rw [hH s hs i hi j hj, if_neg (by omega), add_zero]) ⟨k, hk, Or.inl (by rw [hH 0 (by norm_num) k hk k hk]; simp [ht.ne'])⟩ h h'
  rw [Finset.sum_eq_single k (fun i hi hik => by
    rw [hH 0 (by norm_num) i (Finset.mem_range.mp hi) i (Finset.mem_range.mp hi), hH 1 (by norm_num) i (Finset.mem_range.mp hi) i (Finset.mem_range.mp hi)]; simp [hik]) (fun hn => absurd (Finset.mem_range.mpr hk) hn),
    hH 0 (by norm_num) k hk k hk, hH 1 (by norm_num) k hk k hk] at this
  simp only [and_self, if_true] at this
  nlinarith

/-- **C151** (one spin) Raising the level of one site for one spin lowers the number of electrons of that spin on it. -/
theorem C151_spin {H : ℕ → ℕ → ℕ → ℝ} (ha : a.Valid) (ha' : ({ a with H := H } : HamArgs).Valid) (hw : a.n ≤ w) (hb : 0 < beta) {k : ℕ} (hk : k < a.n) {t : ℝ} (ht : 0 < t) {σ : ℕ} (hσ : σ < 2)
    (hH : ∀ s < 2, ∀ i < a.n, ∀ j < a.n, H s i j = a.H s i j + if s = σ ∧ i = k ∧ j = k then t else 0) (h : OccRun w a beta es U D) (h' : OccRun w { a with H := H } beta es' U' D') :
    if σ = 0 then U' k < U k else D' k < D k := by
  have hk2 : ∃ i < a.n, a.H 0 i i ≠ H 0 i i ∨ a.H 1 i i ≠ H 1 i i := by
    refine ⟨k, hk, ?_⟩
    rw [hH 0 (by norm_num) k hk k hk, hH 1 (by norm_num) k hk k hk]
    interval_cases σ <;> simp [ht.ne']
  have := C151_levels ha ha' hw hb (fun s hs i hi j hj hij => by rw [hH s hs i hi j hj, if_neg (by omega), add_zero]) hk2 h h'
  rw [Finset.sum_eq_single k (fun i hi hik => by
    rw [hH 0 (by norm_num) i (Finset.mem_range.mp hi) i (Finset.mem_range.mp hi), hH 1 (by norm_num) i (Finset.mem_range.mp hi) i (Finset.mem_range.mp hi)]; simp [hik]) (fun hn => absurd (Finset.mem_range.mpr hk) hn),
    hH 0 (by norm_num) k hk k hk, hH 1 (by norm_num) k hk k hk] at this
  interval_cases σ <;> simp only [and_self, if_true, true_and, zero_ne_one, one_ne_zero, false_and, if_false] at this ⊢ <;> nlinarith

/-- **C151** (uniqueness) The occupations determine the levels: two sets of levels, with the same couplings and interactions, that give the same
occupations of every site and spin are equal. -/
theorem C151_unique {H : ℕ → ℕ → ℕ → ℝ} (ha : a.Valid) (ha' : ({ a with H := H } : HamArgs).Valid) (hw : a.n ≤ w) (hb : 0 < beta) (hs : SameHops a.n a.H H)
    (h : OccRun w a beta es U D) (h' : OccRun w { a with H := H } beta es' U' D') (heq : ∀ i < a.n, U' i = U i ∧ D' i = D i) : ∀ i < a.n, H 0 i i = a.H 0 i i ∧ H 1 i i = a.H 1 i i := by
  by_contra hcon
  push Not at hcon
  obtain ⟨i, hi, h1⟩ := hcon
  have := C151_levels ha ha' hw hb hs ⟨i, hi, by by_contra hc; push Not at hc; exact h1 hc.1.symm hc.2.symm⟩ h h'
  rw [Finset.sum_eq_zero fun i hi => by obtain ⟨e1, e2⟩ := heq i (Finset.mem_range.mp hi); rw [e1, e2]; ring] at this
  exact lt_irrefl _ this

/-- **C151** (repulsion) With the half-filling mode off, raising elements of the interaction never lowers the free energy, and raises it at most by the
energy they add to the full configuration. -/
theorem C151_repulsion (ha : a.Valid) (hw : a.n ≤ w) (hf : a.hf = false) (hz : a.z = none) (hb : 0 < beta) {V V' : ℕ → ℕ → ℝ} (hV : ∀ i < a.n, ∀ j < a.n, V i j ≤ V' i j) {E E' : WithTop ℝ}
    (h : BuildEspace w (a.withU V) none (.ok (es, E))) (h' : BuildEspace w (a.withU V') none (.ok (es', E'))) :
    freeEnergy beta es ≤ freeEnergy beta es' ∧ freeEnergy beta es' ≤ freeEnergy beta es +
      (∑ i : Fin a.n, (V' i i - V i i) + 1 / 2 * ∑ i : Fin a.n, ∑ j : Fin a.n, if i ≠ j then 4 * (V' i j - V i j) else 0) := by
  have e : EigenEspace a.n (a.hamU V) es := buildEspace_eigen (HamArgs.withU_valid ha V) hw h
  have e' : EigenEspace a.n (a.hamU V') es' := buildEspace_eigen (HamArgs.withU_valid ha V') hw h'
  have hd : a.hamU V' - a.hamU V = Matrix.diagonal fun S => interE a V' S - interE a V S := by
    rw [withU_ham, withU_ham, ← Matrix.diagonal_sub]
    abel
  have hd' : a.hamU V - a.hamU V' = Matrix.diagonal fun S => -(interE a V' S - interE a V S) := by
    rw [← Matrix.diagonal_neg]
    rw [← hd]; abel
  have g := gibbs_le e.basis e'.basis beta
  have g' := gibbs_le e'.basis e.basis beta
  have hpos : ∀ es1 : Espace (ℕ × ℕ), 0 < ∑ k, Real.exp (-beta * esVal a.n es1 k) := fun es1 => Finset.sum_pos (fun i _ => Real.exp_pos _) Finset.univ_nonempty
  have hq : ∀ (d : Finset (Fin (a.n + a.n)) → ℝ) (x : Finset (Fin (a.n + a.n)) → ℝ), x ⬝ᵥ (Matrix.diagonal d) *ᵥ x = ∑ S, d S * x S ^ 2 := fun d x => by
    unfold dotProduct
    refine Finset.sum_congr rfl fun S _ => ?_
    rw [Matrix.mulVec_diagonal]; ring
  have hbd := interE_bounds (a := a) hf hz hV
  rw [freeEnergy_eq e.toCompleteEspace, freeEnergy_eq e'.toCompleteEspace]
  rw [hd] at g
  rw [hd'] at g'
  constructor
  · rw [div_le_div_iff_of_pos_right hb]
    have : (∑ k, Real.exp (-beta * esVal a.n es' k) * (esKet a.n es' k ⬝ᵥ (Matrix.diagonal fun S => -(interE a V' S - interE a V S)) *ᵥ esKet a.n es' k)) / ∑ k, Real.exp (-beta * esVal a.n es' k) ≤ 0 := by
      refine div_nonpos_of_nonpos_of_nonneg (Finset.sum_nonpos fun k _ => mul_nonpos_of_nonneg_of_nonpos (Real.exp_pos _).le ?_) (hpos _).le
      rw [hq]
      exact Finset.sum_nonpos fun S _ => mul_nonpos_of_nonpos_of_nonneg (by linarith [(hbd S).1]) (sq_nonneg _)
    have := mul_nonpos_of_nonneg_of_nonpos hb.le this
    linarith
  · rw [← sub_le_iff_le_add', ← sub_div, div_le_iff₀ hb]
    set M := ∑ i : Fin a.n, (V' i i - V i i) + 1 / 2 * ∑ i : Fin a.n, ∑ j : Fin a.n, if i ≠ j then 4 * (V' i j - V i j) else 0
    have : (∑ k, Real.exp (-beta * esVal a.n es k) * (esKet a.n es k ⬝ᵥ (Matrix.diagonal fun S => interE a V' S - interE a V S) *ᵥ esKet a.n es k)) / ∑ k, Real.exp (-beta * esVal a.n es k) ≤ M := by
      rw [div_le_iff₀ (hpos _), Finset.mul_sum]
      refine Finset.sum_le_sum fun k _ => ?_
      rw [mul_comm M]
      refine mul_le_mul_of_nonneg_left ?_ (Real.exp_pos _).le
      rw [hq]
      refine (Finset.sum_le_sum fun S _ => mul_le_mul_of_nonneg_right (hbd S).2 (sq_nonneg _)).trans ?_
      rw [← Finset.mul_sum]
      have h1 := e.basis.orth k k
      rw [if_pos rfl] at h1
      have h2 : ∑ S, esKet a.n es k S ^ 2 = 1 := by
        rw [← h1]
        exact Finset.sum_congr rfl fun S _ => by ring
      rw [h2, mul_one]
    have := mul_le_mul_of_nonneg_left this hb.le
    linarith

/-- Non-vacuity: on the two-site arguments of `hotImp` with the level of the first site raised by one, both runs exist and the number of electrons on it
falls. -/
example : ∃ es es' U D U' D', OccRun 64 hotArgs 3 es U D ∧ OccRun 64 { hotArgs with H := fun s i j => hotArgs.H s i j + if i = 0 ∧ j = 0 then 1 else 0 } 3 es' U' D' ∧ U' 0 + D' 0 < U 0 + D 0 := by
  have hw : hotArgs.n ≤ 64 := by have := hotArgs_valid.le; omega
  have hv : ({ hotArgs with H := fun s i j => hotArgs.H s i j + if i = 0 ∧ j = 0 then 1 else 0 } : HamArgs).Valid :=
    ⟨hotArgs_valid.two_le, hotArgs_valid.le, hotArgs_valid.hU, fun s i j hi hj => by
      change hotArgs.H s i j + (if i = 0 ∧ j = 0 then 1 else 0) = hotArgs.H s j i + (if j = 0 ∧ i = 0 then 1 else 0)
      rw [hotArgs_valid.symmH s i j hi hj]
      congr 1
      exact if_congr and_comm rfl rfl, hotArgs_valid.symmX, hotArgs_valid.symmP, hotArgs_valid.hJ⟩
  obtain ⟨es, U, D, h⟩ := OccRun.exists hotArgs_valid hw 3
  obtain ⟨es', U', D', h'⟩ := OccRun.exists hv hw 3
  exact ⟨es, es', U, D, U', D', h, h', C151_site hotArgs_valid hv hw (by norm_num) (by have := hotArgs_valid.two_le; omega) one_pos (fun s _ i _ j _ => rfl) h h'⟩

end Edpyt
