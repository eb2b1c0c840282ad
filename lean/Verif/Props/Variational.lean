import Verif.Props.SolveHot
import Verif.Proof.Amplitude
/-!
# C127: the ground state energy is variational
-/
namespace Edpyt
open Spec Matrix

variable {a : HamArgs} {w : ℕ} {es es' : Espace (ℕ × ℕ)} {E E' : ℝ}

theorem EigBasis.quad {ι κ : Type} [Fintype ι] [DecidableEq ι] [Fintype κ] [DecidableEq κ] {H : Matrix ι ι ℝ} {u : κ → ι → ℝ} {E : κ → ℝ} (h : EigBasis H u E) (x : ι → ℝ) :
    x ⬝ᵥ H *ᵥ x = ∑ k, E k * (u k ⬝ᵥ x) ^ 2 ∧ x ⬝ᵥ x = ∑ k, (u k ⬝ᵥ x) ^ 2 := by
  constructor
  · rw [h.apply, dotProduct_sum]
    refine Finset.sum_congr rfl fun k _ => ?_
    rw [dotProduct_smul, dotProduct_comm x, smul_eq_mul]; ring
  · conv_lhs => rw [← h.expand x, dotProduct_comm, dotProduct_sum]
    refine Finset.sum_congr rfl fun k _ => ?_
    rw [dotProduct_smul, dotProduct_comm _ (u k), h.expand x, smul_eq_mul]; ring

/-- **C127** The energy that `build_espace` returns is the lowest expectation value of the Hamiltonian over the whole Fock space, and is attained. -/
theorem C127_variational (ha : a.Valid) (hw : a.n ≤ w) (h : BuildEspace w a none (.ok (es, ((E : ℝ) : WithTop ℝ)))) :
    (∀ x, E * (x ⬝ᵥ x) ≤ x ⬝ᵥ a.ham *ᵥ x) ∧ ∃ x, x ⬝ᵥ x = 1 ∧ a.ham *ᵥ x = E • x := by
  obtain ⟨E0, e0, hl⟩ := buildEspace_least ha hw h
  have e0 : E = E0 := WithTop.coe_injective e0
  subst e0
  have hE := buildEspace_eigen ha hw h
  refine ⟨fun x => ?_, ?_⟩
  · obtain ⟨h1, h2⟩ := hE.basis.quad x
    rw [h1, h2, Finset.mul_sum]
    refine Finset.sum_le_sum fun k _ => mul_le_mul_of_nonneg_right (hl.2 ?_) (sq_nonneg _)
    obtain ⟨up, dw, hm, -, -, -, -, hlen⟩ := hE.toCompleteEspace.at (u := k.1.1) (d := k.1.2) (by have := k.1.1.2; omega) (by have := k.1.2.2; omega)
    refine ⟨_, hm, ?_⟩
    unfold esVal
    rw [List.getElem?_eq_getElem (by rw [hlen]; exact k.2.2)]
    exact List.getElem_mem _
  · obtain ⟨p, hp, hx⟩ := hl.1
    obtain ⟨k, hk, hk'⟩ := List.getElem_of_mem hx
    refine ⟨p.2.ket a.n k, (hE.subEspace.sct p hp).ket_norm hk, ?_⟩
    rw [hE.eig p hp k hk, List.getElem?_eq_getElem hk, hk']
    rfl

/-- `E` is the lowest expectation value of `H`, and attained. -/
def IsGround {ι : Type} [Fintype ι] (H : Matrix ι ι ℝ) (E : ℝ) : Prop := (∀ x, E * (x ⬝ᵥ x) ≤ x ⬝ᵥ H *ᵥ x) ∧ ∃ x, x ⬝ᵥ x = 1 ∧ H *ᵥ x = E • x

theorem IsGround.add_diagonal {ι : Type} [Fintype ι] [DecidableEq ι] {H : Matrix ι ι ℝ} (h : IsGround H E) {d : ι → ℝ} {D : ℝ} (hd : ∀ S, 0 ≤ d S ∧ d S ≤ D)
    (h' : IsGround (H + Matrix.diagonal d) E') : E ≤ E' ∧ E' ≤ E + D := by
  obtain ⟨v1, x, hx1, hx⟩ := h
  obtain ⟨v2, y, hy1, hy⟩ := h'
  have hq : ∀ x : ι → ℝ, x ⬝ᵥ (Matrix.diagonal d) *ᵥ x = ∑ S, d S * x S ^ 2 := fun x => by
    unfold dotProduct
    refine Finset.sum_congr rfl fun S _ => ?_
    rw [Matrix.mulVec_diagonal]; ring
  have hs : ∀ x : ι → ℝ, x ⬝ᵥ x = ∑ S, x S ^ 2 := fun x => Finset.sum_congr rfl fun S _ => by ring
  constructor
  · have h1 := v1 y
    have h2 : y ⬝ᵥ (H + Matrix.diagonal d) *ᵥ y = E' * (y ⬝ᵥ y) := by rw [hy, dotProduct_smul, smul_eq_mul]
    rw [Matrix.add_mulVec, dotProduct_add, hq] at h2
    have : 0 ≤ ∑ S, d S * y S ^ 2 := Finset.sum_nonneg fun S _ => mul_nonneg (hd S).1 (sq_nonneg _)
    rw [hy1, mul_one] at h1 h2
    linarith
  · have h1 := v2 x
    rw [Matrix.add_mulVec, dotProduct_add, hq, hx, dotProduct_smul, smul_eq_mul, hx1, mul_one] at h1
    have : ∑ S, d S * x S ^ 2 ≤ D * (x ⬝ᵥ x) := by
      rw [hs, Finset.mul_sum]
      exact Finset.sum_le_sum fun S _ => mul_le_mul_of_nonneg_right (hd S).2 (sq_nonneg _)
    rw [hx1, mul_one] at this
    linarith

theorem IsGround.concave {ι : Type} [Fintype ι] {H0 H1 : Matrix ι ι ℝ} {E0 E1 Et t : ℝ} (h0 : IsGround H0 E0) (h1 : IsGround H1 E1) (h : IsGround ((1 - t) • H0 + t • H1) Et)
    (ht : 0 ≤ t) (ht' : t ≤ 1) : (1 - t) * E0 + t * E1 ≤ Et := by
  obtain ⟨-, x, hx1, hx⟩ := h
  have e : x ⬝ᵥ ((1 - t) • H0 + t • H1) *ᵥ x = Et := by rw [hx, dotProduct_smul, hx1]; simp
  rw [Matrix.add_mulVec, Matrix.smul_mulVec, Matrix.smul_mulVec, dotProduct_add, dotProduct_smul, dotProduct_smul, smul_eq_mul, smul_eq_mul] at e
  have a0 := h0.1 x
  have a1 := h1.1 x
  rw [hx1, mul_one] at a0 a1
  rw [← e]
  exact add_le_add (mul_le_mul_of_nonneg_left a0 (by linarith)) (mul_le_mul_of_nonneg_left a1 ht)

/-- The arguments with another interaction array. -/
def HamArgs.withU (a : HamArgs) (U : ℕ → ℕ → ℝ) : HamArgs := { a with V := { a.V with U := some U } }

theorem HamArgs.withU_valid (ha : a.Valid) (U : ℕ → ℕ → ℝ) : (a.withU U).Valid := ⟨ha.two_le, ha.le, rfl, ha.symmH, ha.symmX, ha.symmP, ha.hJ⟩

/-- The Hamiltonian with another interaction array. -/
noncomputable def HamArgs.hamU (a : HamArgs) (U : ℕ → ℕ → ℝ) : Matrix (Finset (Fin (a.n + a.n))) (Finset (Fin (a.n + a.n))) ℝ := (a.withU U).ham

/-- The interaction energy of a configuration. -/
noncomputable def interE (a : HamArgs) (U : ℕ → ℕ → ℝ) (S : Finset (Fin (a.n + a.n))) : ℝ :=
  onsiteVal a.hf (fun i j : Fin a.n => U i j) S + interVal (fun i : Fin a.n => (a.z.getD (fun _ => if a.hf then 1 else 0)) i) (fun i j => U i j) S

theorem withU_ham (a : HamArgs) (U : ℕ → ℕ → ℝ) : a.hamU U =
    kinetic (fun s => kept (n := a.n) a.mu (a.H (if s then 1 else 0))) + codeExchange (n := a.n) a.V.Jx a.V.Jp + Matrix.diagonal (interE a U) := by
  unfold HamArgs.hamU HamArgs.ham hubbard
  rw [onsiteU_diagonal, interSite_diagonal]
  have : Matrix.diagonal (interE a U) = Matrix.diagonal (onsiteVal a.hf (fun i j : Fin a.n => U i j)) +
      Matrix.diagonal (interVal (fun i : Fin a.n => (a.z.getD (fun _ => if a.hf then 1 else 0)) i) (fun i j => U i j)) := by
    rw [Matrix.diagonal_add]; rfl
  rw [this]
  simp only [HamArgs.withU, Option.getD_some]
  have e : ∀ K A B C : Matrix (Finset (Fin (a.n + a.n))) (Finset (Fin (a.n + a.n))) ℝ, K + A + B + C = K + C + (A + B) := fun K A B C => by abel
  exact e _ _ _ _

theorem interE_bounds (hf : a.hf = false) (hz : a.z = none) {U U' : ℕ → ℕ → ℝ} (hU : ∀ i < a.n, ∀ j < a.n, U i j ≤ U' i j) (S : Finset (Fin (a.n + a.n))) :
    0 ≤ interE a U' S - interE a U S ∧
      interE a U' S - interE a U S ≤ ∑ i : Fin a.n, (U' i i - U i i) + 1 / 2 * ∑ i : Fin a.n, ∑ j : Fin a.n, if i ≠ j then 4 * (U' i j - U i j) else 0 := by
  have e : interE a U' S - interE a U S = ∑ i : Fin a.n, (U' i i - U i i) * ((if orb false i ∈ S then 1 else 0) * (if orb true i ∈ S then 1 else 0)) +
      1 / 2 * ∑ i : Fin a.n, ∑ j : Fin a.n, (if i ≠ j then U' i j - U i j else 0) *
        (((if orb false i ∈ S then 1 else 0) + (if orb true i ∈ S then 1 else 0)) * ((if orb false j ∈ S then 1 else 0) + (if orb true j ∈ S then 1 else 0))) := by
    unfold interE onsiteVal interVal
    simp only [hf, hz, Option.getD_none, Bool.false_eq_true, if_false, sub_zero]
    rw [add_sub_add_comm, ← Finset.sum_sub_distrib, ← mul_sub, ← Finset.sum_sub_distrib]
    congr 1
    · exact Finset.sum_congr rfl fun i _ => by ring
    · congr 1
      refine Finset.sum_congr rfl fun i _ => ?_
      rw [← Finset.sum_sub_distrib]
      refine Finset.sum_congr rfl fun j _ => ?_
      split_ifs <;> ring
  rw [e]
  have b : ∀ s (i : Fin a.n), (0 : ℝ) ≤ (if orb s i ∈ S then 1 else 0) ∧ (if orb s i ∈ S then 1 else 0 : ℝ) ≤ 1 := fun s i => by split_ifs <;> norm_num
  constructor
  · refine add_nonneg (Finset.sum_nonneg fun i _ => ?_) (mul_nonneg (by norm_num) (Finset.sum_nonneg fun i _ => Finset.sum_nonneg fun j _ => ?_))
    · exact mul_nonneg (by linarith [hU i i.2 i i.2]) (mul_nonneg (b _ _).1 (b _ _).1)
    · refine mul_nonneg ?_ (mul_nonneg (add_nonneg (b _ _).1 (b _ _).1) (add_nonneg (b _ _).1 (b _ _).1))
      split_ifs
      · linarith [hU i i.2 j j.2]
      · exact le_rfl
  · refine add_le_add (Finset.sum_le_sum fun i _ => ?_) (mul_le_mul_of_nonneg_left (Finset.sum_le_sum fun i _ => Finset.sum_le_sum fun j _ => ?_) (by norm_num))
    · exact mul_le_of_le_one_right (by linarith [hU i i.2 i i.2]) (mul_le_one₀ (b _ _).2 (b _ _).1 (b _ _).2)
    · by_cases hij : i = j
      · simp [hij]
      · rw [if_pos hij, if_pos hij, mul_comm 4]
        have : ∀ p q r t : ℝ, 0 ≤ p ∧ p ≤ 1 → 0 ≤ q ∧ q ≤ 1 → 0 ≤ r ∧ r ≤ 1 → 0 ≤ t ∧ t ≤ 1 → (p + q) * (r + t) ≤ 4 := fun p q r t hp hq hr ht => by nlinarith [hp.1, hp.2, hq.1, hq.2, hr.1, hr.2, ht.1, ht.2]
        exact mul_le_mul_of_nonneg_left (this _ _ _ _ (b _ _) (b _ _) (b _ _) (b _ _)) (by linarith [hU i i.2 j j.2])

/-- **C127** Raising the repulsion: the ground state energy does not fall, and grows at most by the energy of the full configuration. -/
theorem C127_repulsion (ha : a.Valid) (hw : a.n ≤ w) (hf : a.hf = false) (hz : a.z = none) {U U' : ℕ → ℕ → ℝ} (hU : ∀ i < a.n, ∀ j < a.n, U i j ≤ U' i j)
    (h : BuildEspace w (a.withU U) none (.ok (es, ((E : ℝ) : WithTop ℝ)))) (h' : BuildEspace w (a.withU U') none (.ok (es', ((E' : ℝ) : WithTop ℝ)))) :
    E ≤ E' ∧ E' ≤ E + (∑ i : Fin a.n, (U' i i - U i i) + 1 / 2 * ∑ i : Fin a.n, ∑ j : Fin a.n, if i ≠ j then 4 * (U' i j - U i j) else 0) := by
  have g := C127_variational (HamArgs.withU_valid ha U) hw h
  have g' := C127_variational (HamArgs.withU_valid ha U') hw h'
  refine IsGround.add_diagonal (H := a.hamU U) (d := fun S => interE a U' S - interE a U S) g (fun S => ?_) ?_
  · exact interE_bounds hf hz hU S
  · have : a.hamU U + Matrix.diagonal (fun S => interE a U' S - interE a U S) = a.hamU U' := by
      rw [withU_ham, withU_ham, add_assoc]
      congr 1
      rw [Matrix.diagonal_add]
      congr 1
      funext S
      ring
    rw [this]
    exact g'

/-- **C127** The ground state energy is concave in the interaction. -/
theorem C127_concave (ha : a.Valid) (hw : a.n ≤ w) {U U' : ℕ → ℕ → ℝ} {t Et : ℝ} {est : Espace (ℕ × ℕ)} (ht : 0 ≤ t) (ht' : t ≤ 1)
    (h : BuildEspace w (a.withU U) none (.ok (es, ((E : ℝ) : WithTop ℝ)))) (h' : BuildEspace w (a.withU U') none (.ok (es', ((E' : ℝ) : WithTop ℝ))))
    (h'' : BuildEspace w (a.withU fun i j => (1 - t) * U i j + t * U' i j) none (.ok (est, ((Et : ℝ) : WithTop ℝ)))) : (1 - t) * E + t * E' ≤ Et := by
  have g := C127_variational (HamArgs.withU_valid ha U) hw h
  have g' := C127_variational (HamArgs.withU_valid ha U') hw h'
  have g'' := C127_variational (HamArgs.withU_valid ha _) hw h''
  refine IsGround.concave (H0 := a.hamU U) (H1 := a.hamU U') g g' ?_ ht ht'
  have : (1 - t) • a.hamU U + t • a.hamU U' = a.hamU fun i j => (1 - t) * U i j + t * U' i j := by
    rw [withU_ham, withU_ham, withU_ham]
    have e : interE a (fun i j => (1 - t) * U i j + t * U' i j) = (1 - t) • interE a U + t • interE a U' := by
      funext S
      simp only [interE, onsiteVal, interVal, Pi.add_apply, Pi.smul_apply, smul_eq_mul]
      have e1 : ∀ (f g : Fin a.n → ℝ) (x : Fin a.n → ℝ), ∑ i, ((1 - t) * f i + t * g i) * x i = (1 - t) * ∑ i, f i * x i + t * ∑ i, g i * x i := fun f g x => by
        rw [Finset.mul_sum, Finset.mul_sum, ← Finset.sum_add_distrib]
        exact Finset.sum_congr rfl fun i _ => by ring
      rw [e1]
      have e2 : ∀ x : Fin a.n → Fin a.n → ℝ, ∑ i : Fin a.n, ∑ j : Fin a.n, (if i ≠ j then (1 - t) * U i j + t * U' i j else 0) * x i j =
          (1 - t) * (∑ i : Fin a.n, ∑ j : Fin a.n, (if i ≠ j then U i j else 0) * x i j) + t * ∑ i : Fin a.n, ∑ j : Fin a.n, (if i ≠ j then U' i j else 0) * x i j := fun x => by
        rw [Finset.mul_sum, Finset.mul_sum, ← Finset.sum_add_distrib]
        refine Finset.sum_congr rfl fun i _ => ?_
        rw [Finset.mul_sum, Finset.mul_sum, ← Finset.sum_add_distrib]
        refine Finset.sum_congr rfl fun j _ => ?_
        split_ifs <;> ring
      rw [e2]
      ring
    have ed : Matrix.diagonal ((1 - t) • interE a U + t • interE a U') = (1 - t) • Matrix.diagonal (interE a U) + t • Matrix.diagonal (interE a U') := by
      rw [← Matrix.diagonal_smul, ← Matrix.diagonal_smul, Matrix.diagonal_add]
      rfl
    rw [e, ed]
    generalize kinetic (fun s => kept (n := a.n) a.mu (a.H (if s then 1 else 0))) + codeExchange (n := a.n) a.V.Jx a.V.Jp = K
    module
  rw [this]
  exact g''

/-- The arguments with other one-body matrices and chemical potential. -/
def HamArgs.withH (a : HamArgs) (H : ℕ → ℕ → ℕ → ℝ) (mu : ℝ) : HamArgs := { a with H := H, mu := mu }

noncomputable def HamArgs.hamH (a : HamArgs) (H : ℕ → ℕ → ℕ → ℝ) (mu : ℝ) : Matrix (Finset (Fin (a.n + a.n))) (Finset (Fin (a.n + a.n))) ℝ := (a.withH H mu).ham

theorem withH_ham {H : ℕ → ℕ → ℕ → ℝ} (mu : ℝ) (hH : ∀ (s : Bool) (i j : Fin a.n), i ≠ j → H (if s then 1 else 0) i j = a.H (if s then 1 else 0) i j) :
    a.hamH H mu = a.ham + Matrix.diagonal fun S => ∑ s : Bool, ∑ i : Fin a.n,
      (H (if s then 1 else 0) i i + mu - (a.H (if s then 1 else 0) i i + a.mu)) * if orb s i ∈ S then 1 else 0 := by
  have e : kinetic (fun s => kept (n := a.n) mu (H (if s then 1 else 0))) = kinetic (fun s => kept (n := a.n) a.mu (a.H (if s then 1 else 0))) +
      Matrix.diagonal fun S => ∑ s : Bool, ∑ i : Fin a.n, (H (if s then 1 else 0) i i + mu - (a.H (if s then 1 else 0) i i + a.mu)) * if orb s i ∈ S then 1 else 0 := by
    rw [← diagonal_sum]
    simp only [← diagonal_sum]
    unfold kinetic
    rw [← Finset.sum_add_distrib]
    refine Finset.sum_congr rfl fun s _ => ?_
    rw [← Finset.sum_add_distrib]
    refine Finset.sum_congr rfl fun i _ => ?_
    beta_reduce
    rw [← Finset.add_sum_erase _ _ (Finset.mem_univ i), ← Finset.add_sum_erase (Finset.univ : Finset (Fin a.n)) (fun j => kept a.mu (a.H (if s then 1 else 0)) i j • _) (Finset.mem_univ i)]
    have e1 : ∀ j ∈ Finset.univ.erase i, kept mu (H (if s then 1 else 0)) i j • (cre ℝ (orb s i) * ann ℝ (orb s j)) = kept a.mu (a.H (if s then 1 else 0)) i j • (cre ℝ (orb s i) * ann ℝ (orb s j)) := fun j hj => by
      have := (Finset.ne_of_mem_erase hj).symm
      rw [kept_apply, kept_apply, if_neg this, if_neg this, hH s i j this]
    rw [Finset.sum_congr rfl e1, kept_apply, kept_apply, if_pos rfl, if_pos rfl]
    have e2 : (Matrix.diagonal fun S => (H (if s then 1 else 0) i i + mu - (a.H (if s then 1 else 0) i i + a.mu)) * if orb s i ∈ S then (1 : ℝ) else 0) =
        (H (if s then 1 else 0) i i + mu - (a.H (if s then 1 else 0) i i + a.mu)) • (cre ℝ (orb s i) * ann ℝ (orb s i)) := by
      have := num_diagonal (K := ℝ) (orb s i)
      unfold num at this
      rw [this, ← Matrix.diagonal_smul]
      rfl
    rw [e2]
    module
  unfold HamArgs.hamH HamArgs.ham hubbard
  simp only [HamArgs.withH]
  rw [e]
  have e' : ∀ K A B C D : Matrix (Finset (Fin (a.n + a.n))) (Finset (Fin (a.n + a.n))) ℝ, K + D + A + B + C = K + A + B + C + D := fun K A B C D => by abel
  exact e' _ _ _ _ _

/-- **C127** Raising on-site energies raises the ground state energy by at most their sum over spins and sites, and never lowers it. -/
theorem C127_levels (ha : a.Valid) (hw : a.n ≤ w) {H : ℕ → ℕ → ℕ → ℝ} (hs : ∀ s i j, i < a.n → j < a.n → i ≠ j → H s i j = a.H s i j) (hd : ∀ s i, i < a.n → a.H s i i ≤ H s i i)
    (h : BuildEspace w a none (.ok (es, ((E : ℝ) : WithTop ℝ)))) (h' : BuildEspace w { a with H := H } none (.ok (es', ((E' : ℝ) : WithTop ℝ)))) :
    E ≤ E' ∧ E' ≤ E + ∑ i ∈ Finset.range a.n, ((H 0 i i - a.H 0 i i) + (H 1 i i - a.H 1 i i)) := by
  have ha' : (a.withH H a.mu).Valid := ⟨ha.two_le, ha.le, ha.hU, fun s i j hi hj => by
    by_cases hij : i = j
    · rw [hij]
    · exact (hs s i j hi hj hij).trans ((ha.symmH s i j hi hj).trans (hs s j i hj hi (Ne.symm hij)).symm), ha.symmX, ha.symmP, ha.hJ⟩
  have g := C127_variational ha hw h
  have h'' : BuildEspace w (a.withH H a.mu) none (.ok (es', ((E' : ℝ) : WithTop ℝ))) := h'
  have hw' : (a.withH H a.mu).n ≤ w := hw
  have g1 := C127_variational ha' hw' h''
  have g' : IsGround (a.hamH H a.mu) E' := g1
  rw [withH_ham a.mu fun s i j hij => hs _ i j i.2 j.2 fun h => hij (Fin.ext h)] at g'
  refine IsGround.add_diagonal g (fun S => ⟨Finset.sum_nonneg fun s _ => Finset.sum_nonneg fun i _ => ?_, ?_⟩) g'
  · have := hd (if s then 1 else 0) i i.2
    split_ifs at * <;> linarith
  · rw [Finset.sum_range fun i => (H 0 i i - a.H 0 i i) + (H 1 i i - a.H 1 i i), Fintype.sum_bool, ← Finset.sum_add_distrib]
    refine Finset.sum_le_sum fun i _ => ?_
    have h0 := hd 0 i i.2
    have h1 := hd 1 i i.2
    simp only [if_true, Bool.false_eq_true, if_false]
    have e : ∀ (x y m : ℝ) (p : Prop) [Decidable p], y ≤ x → (x + m - (y + m)) * (if p then 1 else 0) ≤ x - y := fun x y m p _ hxy => by split_ifs <;> linarith
    have := e _ _ a.mu (orb true i ∈ S) h1
    have := e _ _ a.mu (orb false i ∈ S) h0
    linarith

/-- Non-vacuity: the hypotheses of the comparisons are met by the two-site arguments of `hotImp`, with the interactions `0` and `U ≥ 0` and the levels
raised on the first site. -/
example (t : ℝ) (ht : 0 ≤ t) : ∃ E E' E'' es es' es'', hotArgs.Valid ∧ BuildEspace 64 (hotArgs.withU fun _ _ => 0) none (.ok (es, ((E : ℝ) : WithTop ℝ))) ∧
    BuildEspace 64 (hotArgs.withU fun i j => if i = j then t else 0) none (.ok (es', ((E' : ℝ) : WithTop ℝ))) ∧
    BuildEspace 64 (hotArgs.withH (fun s i j => hotArgs.H s i j + if i = 0 ∧ j = 0 then t else 0) hotArgs.mu) none (.ok (es'', ((E'' : ℝ) : WithTop ℝ))) ∧
    ∀ i j : ℕ, (0 : ℝ) ≤ if i = j then t else 0 := by
  have hw : hotArgs.n ≤ 64 := by have := hotArgs_valid.le; omega
  have key : ∀ b : HamArgs, b.Valid → b.n ≤ 64 → ∃ es E, BuildEspace 64 b none (.ok (es, ((E : ℝ) : WithTop ℝ))) := fun b hb hn => by
    obtain ⟨⟨es, E⟩, h⟩ := (buildEspace_none_ok hb hn).1
    obtain ⟨E0, rfl, -⟩ := buildEspace_least hb hn h
    exact ⟨es, E0, h⟩
  obtain ⟨es, E, h⟩ := key _ (HamArgs.withU_valid hotArgs_valid fun _ _ => 0) hw
  obtain ⟨es', E', h'⟩ := key _ (HamArgs.withU_valid hotArgs_valid fun i j => if i = j then t else 0) hw
  obtain ⟨es'', E'', h''⟩ := key (hotArgs.withH (fun s i j => hotArgs.H s i j + if i = 0 ∧ j = 0 then t else 0) hotArgs.mu)
    ⟨hotArgs_valid.two_le, hotArgs_valid.le, hotArgs_valid.hU, fun s i j hi hj => by
      change hotArgs.H s i j + (if i = 0 ∧ j = 0 then t else 0) = hotArgs.H s j i + (if j = 0 ∧ i = 0 then t else 0)
      rw [hotArgs_valid.symmH s i j hi hj]
      congr 1
      exact if_congr and_comm rfl rfl, hotArgs_valid.symmX, hotArgs_valid.symmP, hotArgs_valid.hJ⟩ hw
  exact ⟨E, E', E'', es, es', es'', hotArgs_valid, h, h', h'', fun i j => by split_ifs <;> simp [ht]⟩

end Edpyt
