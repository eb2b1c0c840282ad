import Verif.Props.GfLanczos
/-!
The loop over the sectors in `build_gf_lanczos` when `espace` holds only part of the eigenstates.
-/
namespace Edpyt
open Spec Matrix
variable {n : ℕ}

/-- The states of `I` are some of the states of a complete diagonalisation of the sector. -/
structure SctSub (n : ℕ) (H : Matrix (Finset (Fin (n + n))) (Finset (Fin (n + n))) ℝ) (q : ℕ × ℕ) (I : Sct) : Prop extends EigSct n H q I where
  sub : ∃ J, EigSct n H q J ∧ Complete J.d J.eigvecs ∧ ∃ f : ℕ → ℕ, Set.InjOn f (Finset.range I.eigvals.length) ∧ ∀ k < I.eigvals.length,
    f k < J.eigvals.length ∧ I.ket n k = J.ket n (f k) ∧ I.eigvals[k]?.getD 0 = J.eigvals[f k]?.getD 0

theorem SctSub.of_complete {H : Matrix (Finset (Fin (n + n))) (Finset (Fin (n + n))) ℝ} {q : ℕ × ℕ} {I : Sct} (h : EigSct n H q I) (hc : Complete I.d I.eigvecs) : SctSub n H q I :=
  ⟨h, I, h, hc, id, fun _ _ _ _ e => e, fun k hk => ⟨hk, rfl, rfl⟩⟩

/-- Part of the eigenstates of some of the sectors. -/
structure SubEspace (n : ℕ) (H : Matrix (Finset (Fin (n + n))) (Finset (Fin (n + n))) ℝ) (es : Espace (ℕ × ℕ)) : Prop where
  nodup : (es.map Prod.fst).Nodup
  grid : ∀ q ∈ es.map Prod.fst, q ∈ ndindex2 (n + 1) (n + 1)
  sct : ∀ p ∈ es, SctSub n H p.1 p.2

theorem EigenEspace.subEspace {H : Matrix (Finset (Fin (n + n))) (Finset (Fin (n + n))) ℝ} {es : Espace (ℕ × ℕ)} (h : EigenEspace n H es) : SubEspace n H es :=
  ⟨h.nodup, fun q hq => h.keys.mem_iff.mp hq, fun p hp => by
    obtain ⟨up, dw, h1, h2⟩ := h.ok p hp
    exact SctSub.of_complete (h.sct p hp) h2⟩

theorem sctAt_mem {es : Espace (ℕ × ℕ)} (hnd : (es.map Prod.fst).Nodup) {q : ℕ × ℕ} (hq : q ∈ es.map Prod.fst) : (q, sctAt es q) ∈ es ∧ dictGet es q = .ok (sctAt es q) := by
  obtain ⟨⟨q', s⟩, hp, rfl⟩ := List.mem_map.mp hq
  have h := dictGet_mem hnd hp
  have e : sctAt es q' = s := by unfold sctAt; rw [h]
  simp only
  rw [e]; exact ⟨hp, h⟩

theorem SubEspace.get {H : Matrix (Finset (Fin (n + n))) (Finset (Fin (n + n))) ℝ} {es : Espace (ℕ × ℕ)} (h : SubEspace n H es) {q : ℕ × ℕ} (hq : q ∈ es.map Prod.fst) :
    dictGet es q = .ok (sctAt es q) ∧ SctSub n H q (sctAt es q) :=
  ⟨(sctAt_mem h.nodup hq).2, h.sct _ (sctAt_mem h.nodup hq).1⟩

theorem dictSet_keys {α β : Type} [DecidableEq α] {es : List (α × β)} {q : α} {s : β} (hq : q ∈ es.map Prod.fst) : (dictSet es q s).map Prod.fst = es.map Prod.fst := by
  unfold dictSet; rw [if_pos hq, List.map_map]
  apply List.map_congr_left
  intro p _
  simp only [Function.comp]
  split
  · rename_i e; exact e.symm
  · rfl

theorem SubEspace.replace {H : Matrix (Finset (Fin (n + n))) (Finset (Fin (n + n))) ℝ} {es : Espace (ℕ × ℕ)} (h : SubEspace n H es) {q : ℕ × ℕ} {J : Sct}
    (hq : q ∈ es.map Prod.fst) (hJ : EigSct n H q J) (hc : Complete J.d J.eigvecs) : SubEspace n H (dictSet es q J) := by
  refine ⟨by rw [dictSet_keys hq]; exact h.nodup, by rw [dictSet_keys hq]; exact h.grid, fun p hp => ?_⟩
  have hset : dictSet es q J = es.map fun p => if p.1 = q then (q, J) else p := by unfold dictSet; rw [if_pos hq]
  rw [hset] at hp
  obtain ⟨p', hp', rfl⟩ := List.mem_map.mp hp
  split
  · exact SctSub.of_complete hJ hc
  · exact h.sct p' hp'

/-- The weight of the states of a sector. -/
noncomputable def sctWt (β egs : ℝ) (I : Sct) : ℝ := ∑ k ∈ Finset.range I.eigvals.length, Real.exp (-β * ((I.eigvals[k]?.getD 0) - egs))

theorem sctWt_nonneg (β egs : ℝ) (I : Sct) : 0 ≤ sctWt β egs I := Finset.sum_nonneg fun _ _ => (Real.exp_pos _).le

theorem sctWt_eq (β egs : ℝ) (I : Sct) : sctWt β egs I = (I.eigvals.map fun E => Real.exp (-β * (E - egs))).sum := by
  unfold sctWt
  rw [← sum_map_range]
  congr 1
  apply List.ext_getElem
  · simp
  · intro i h1 h2
    simp only [List.length_map, List.length_range] at h1 h2
    simp [h2]

theorem partition_keys {es : Espace (ℕ × ℕ)} (hnd : (es.map Prod.fst).Nodup) (β egs : ℝ) :
    partition es β egs = ((es.map Prod.fst).map fun q => sctWt β egs (sctAt es q)).sum := by
  unfold partition
  rw [List.map_map]
  congr 1
  apply List.map_congr_left
  intro p hp
  simp only [Function.comp]
  have : sctAt es p.1 = p.2 := by unfold sctAt; rw [dictGet_mem hnd (show (p.1, p.2) ∈ es from hp)]
  rw [this, sctWt_eq]

theorem ket_norm {H : Matrix (Finset (Fin (n + n))) (Finset (Fin (n + n))) ℝ} {q : ℕ × ℕ} {J : Sct} (h : EigSct n H q J) (hc : Complete J.d J.eigvecs) {k : ℕ} (hk : k < J.eigvals.length) :
    J.ket n k ⬝ᵥ J.ket n k = 1 := by
  obtain ⟨up, dw, hok⟩ := h.ok
  have hk' : k < J.d := by rw [← hc.len, hok.len]; exact hk
  rw [hok.ket_eq, ket_inner hok.hup hok.hdw, ← hok.d, hc.orth k k hk' hk', if_pos rfl]

theorem SctSub.ket_norm {H : Matrix (Finset (Fin (n + n))) (Finset (Fin (n + n))) ℝ} {q : ℕ × ℕ} {I : Sct} (h : SctSub n H q I) {k : ℕ} (hk : k < I.eigvals.length) :
    I.ket n k ⬝ᵥ I.ket n k = 1 := by
  obtain ⟨J, h1, h2, f, -, h3⟩ := h.sub
  obtain ⟨a, b, -⟩ := h3 k hk
  rw [b]; exact Edpyt.ket_norm h1 h2 a

/-- `es0` with the sector `q` replaced by another complete diagonalisation. -/
theorem EigenEspace.replace_at {H : Matrix (Finset (Fin (n + n))) (Finset (Fin (n + n))) ℝ} {es0 : Espace (ℕ × ℕ)} (h : EigenEspace n H es0) {q : ℕ × ℕ}
    (hq : q ∈ ndindex2 (n + 1) (n + 1)) {J : Sct} (hJ : EigSct n H q J) (hc : Complete J.d J.eigvecs) : ∃ es, EigenEspace n H es ∧ sctAt es q = J := by
  refine ⟨dictSet es0 q J, h.replace (h.keys.mem_iff.mpr hq) hJ hc, ?_⟩
  unfold sctAt
  rw [dictGet_dictSet, if_pos rfl]

theorem sctWt_halfErr (B : Matrix (Finset (Fin (n + n))) (Finset (Fin (n + n))) ℝ) (β egs : ℝ) (I : Sct) : sctWt β egs I = halfErr n B β egs I 1 0 1 := by
  unfold sctWt halfErr
  apply Finset.sum_congr rfl; intro k _
  simp

/-- The weight of a complete sector does not depend on the eigenbasis. -/
theorem sctWt_complete {H : Matrix (Finset (Fin (n + n))) (Finset (Fin (n + n))) ℝ} {es es0 : Espace (ℕ × ℕ)} (h : EigenEspace n H es) (h0 : EigenEspace n H es0) (β egs : ℝ)
    {q : ℕ × ℕ} (hq : q ∈ ndindex2 (n + 1) (n + 1)) : sctWt β egs (sctAt es q) = sctWt β egs (sctAt es0 q) := by
  have h1 := halfErr_eq (B := (1 : Matrix _ _ ℝ)) h β egs 1 0 1 hq
  have h2 := halfErr_eq (B := (1 : Matrix _ _ ℝ)) h0 β egs 1 0 1 hq
  rw [sctWt_halfErr 1, sctWt_halfErr 1]
  exact_mod_cast h1.trans h2.symm

theorem resElem_le {ι : Type} [Fintype ι] [DecidableEq ι] {A : Matrix ι ι ℝ} (hA : A.IsSymm) {z : ℂ} (hz : z.im ≠ 0) (x : ι → ℝ) : ‖resElem z A x x‖ ≤ (x ⬝ᵥ x) / |z.im| := by
  have h := resElem_bound hA hz x x
  have hx : 0 ≤ x ⬝ᵥ x := by simp only [dotProduct]; exact Finset.sum_nonneg fun i _ => mul_self_nonneg _
  rw [le_div_iff₀ (abs_pos.mpr hz)]
  apply abs_le_of_sq_le_sq' _ hx |>.2
  rw [mul_pow, sq_abs]
  nlinarith

section
variable {H B : Matrix (Finset (Fin (n + n))) (Finset (Fin (n + n))) ℝ} {c : ℝ}

/-- The two halves of the contribution of a sector. -/
noncomputable def sctVal (n : ℕ) (H B : Matrix (Finset (Fin (n + n))) (Finset (Fin (n + n))) ℝ) (β egs : ℝ) (I : Sct) (z : ℂ) : ℂ :=
  halfExact n H B Ladder.cdg.sign β egs I z + halfExact n H Bᵀ Ladder.c.sign β egs I z

/-- The contribution of one state. -/
noncomputable def sctTerm (n : ℕ) (H B : Matrix (Finset (Fin (n + n))) (Finset (Fin (n + n))) ℝ) (β egs : ℝ) (x : Finset (Fin (n + n)) → ℝ) (E : ℝ) (z : ℂ) : ℂ :=
  ((Real.exp (-β * (E - egs)) : ℝ) : ℂ) * (resElem z (Ladder.cdg.sign • (H - E • (1 : Matrix _ _ ℝ))) (B *ᵥ x) (B *ᵥ x) +
    resElem z (Ladder.c.sign • (H - E • (1 : Matrix _ _ ℝ))) (Bᵀ *ᵥ x) (Bᵀ *ᵥ x))

theorem sctVal_eq (β egs : ℝ) (I : Sct) (z : ℂ) : sctVal n H B β egs I z = ∑ k ∈ Finset.range I.eigvals.length, sctTerm n H B β egs (I.ket n k) (I.eigvals[k]?.getD 0) z := by
  unfold sctVal halfExact sctTerm
  rw [← Finset.sum_add_distrib]
  exact Finset.sum_congr rfl fun k _ => by rw [mul_add]

theorem car_norm (hcar : Bᵀ * B + B * Bᵀ = c • (1 : Matrix _ _ ℝ)) (x : Finset (Fin (n + n)) → ℝ) :
    (B *ᵥ x) ⬝ᵥ (B *ᵥ x) + (Bᵀ *ᵥ x) ⬝ᵥ (Bᵀ *ᵥ x) = c * (x ⬝ᵥ x) := by
  have h := congrArg (fun M => x ⬝ᵥ (M *ᵥ x)) hcar
  simp only [Matrix.add_mulVec, dotProduct_add, Matrix.smul_mulVec, dotProduct_smul, Matrix.one_mulVec, ← Matrix.mulVec_mulVec, smul_eq_mul] at h
  have e1 : x ⬝ᵥ (Bᵀ *ᵥ (B *ᵥ x)) = (B *ᵥ x) ⬝ᵥ (B *ᵥ x) := by rw [Matrix.dotProduct_mulVec, Matrix.vecMul_transpose]
  have e2 : x ⬝ᵥ (B *ᵥ (Bᵀ *ᵥ x)) = (Bᵀ *ᵥ x) ⬝ᵥ (Bᵀ *ᵥ x) := by rw [Matrix.dotProduct_mulVec, ← Matrix.mulVec_transpose]
  rw [e1, e2] at h
  exact h

theorem sctTerm_le (hH : H.IsSymm) (hcar : Bᵀ * B + B * Bᵀ = c • (1 : Matrix _ _ ℝ)) {z : ℂ} (hz : z.im ≠ 0) (β egs E : ℝ) {x : Finset (Fin (n + n)) → ℝ} (hx : x ⬝ᵥ x = 1) :
    ‖sctTerm n H B β egs x E z‖ ≤ Real.exp (-β * (E - egs)) * (c / |z.im|) := by
  have hA : ∀ σ : ℝ, (σ • (H - E • (1 : Matrix _ _ ℝ))).IsSymm := by
    intro σ
    simp only [Matrix.IsSymm, Matrix.transpose_smul, Matrix.transpose_sub, Matrix.transpose_one, hH.eq]
  unfold sctTerm
  rw [norm_mul, Complex.norm_real, Real.norm_of_nonneg (Real.exp_pos _).le]
  apply mul_le_mul_of_nonneg_left _ (Real.exp_pos _).le
  refine (norm_add_le _ _).trans ((add_le_add (resElem_le (hA _) hz _) (resElem_le (hA _) hz _)).trans (le_of_eq ?_))
  rw [← add_div, car_norm hcar, hx, mul_one]

theorem sctVal_le (hH : H.IsSymm) (hcar : Bᵀ * B + B * Bᵀ = c • (1 : Matrix _ _ ℝ)) {z : ℂ} (hz : z.im ≠ 0) (β egs : ℝ) {q : ℕ × ℕ} {I : Sct} (hI : SctSub n H q I) :
    ‖sctVal n H B β egs I z‖ ≤ sctWt β egs I * (c / |z.im|) := by
  rw [sctVal_eq, sctWt, Finset.sum_mul]
  exact (norm_sum_le _ _).trans (Finset.sum_le_sum fun k hk => sctTerm_le hH hcar hz β egs _ (hI.ket_norm (Finset.mem_range.mp hk)))

theorem sctErr_eq (hcar : Bᵀ * B + B * Bᵀ = c • (1 : Matrix _ _ ℝ)) (β egs δ ε η : ℝ) {q : ℕ × ℕ} {I : Sct} (hI : SctSub n H q I) :
    halfErr n B β egs I δ ε η + halfErr n Bᵀ β egs I δ ε η = sctWt β egs I * (c * ε / η ^ 2 + 2 * (δ ^ 2 / |η|)) := by
  unfold halfErr sctWt
  rw [← Finset.sum_add_distrib, Finset.sum_mul]
  apply Finset.sum_congr rfl; intro k hk
  have h := car_norm hcar (I.ket n k)
  rw [hI.ket_norm (Finset.mem_range.mp hk), mul_one] at h
  rw [← h]; ring

/-- Basis independence of the contribution of a complete sector. -/
theorem sctVal_complete {z : ℂ} (hz : z.im ≠ 0) {es es0 : Espace (ℕ × ℕ)} (h : EigenEspace n H es) (h0 : EigenEspace n H es0) (β egs : ℝ)
    {q : ℕ × ℕ} (hq : q ∈ ndindex2 (n + 1) (n + 1)) : sctVal n H B β egs (sctAt es q) z = sctVal n H B β egs (sctAt es0 q) z := by
  have hH := h.basis.symm
  obtain ⟨X, hX, -⟩ := (h.basis.green β Bᵀ B hz _).mpr rfl
  have h1 : ∀ es', EigenEspace n H es' → sctVal n H B β egs (sctAt es' q) z =
      (Real.exp (β * egs) : ℂ) * secTrace n β H q (X * cplx B) + (Real.exp (β * egs) : ℂ) * secTrace n β H q (cplx B * X) := by
    intro es' h'
    exact congrArg₂ (· + ·) (halfExact_eq (fun x E hx => eom_electron hH hz hX hx) h' β egs hq) (halfExact_eq (fun x E hx => eom_hole hH hz hX hx) h' β egs hq)
  rw [h1 es h, h1 es0 h0]

/-- What is missing from a sector that holds only part of its states. -/
theorem SctSub.missing (hH : H.IsSymm) (hcar : Bᵀ * B + B * Bᵀ = c • (1 : Matrix _ _ ℝ)) {es0 : Espace (ℕ × ℕ)} (h0 : EigenEspace n H es0) (β egs : ℝ)
    {q : ℕ × ℕ} (hq : q ∈ ndindex2 (n + 1) (n + 1)) {I : Sct} (hI : SctSub n H q I) :
    sctWt β egs I ≤ sctWt β egs (sctAt es0 q) ∧ ∀ z : ℂ, z.im ≠ 0 → ‖sctVal n H B β egs I z - sctVal n H B β egs (sctAt es0 q) z‖ ≤
      (sctWt β egs (sctAt es0 q) - sctWt β egs I) * (c / |z.im|) := by
  obtain ⟨J, hJ, hc, f, hf, hfk⟩ := hI.sub
  obtain ⟨es, hes, rfl⟩ := h0.replace_at hq hJ hc
  rw [← sctWt_complete hes h0 β egs hq]
  set J := sctAt es q
  set R := Finset.range J.eigvals.length
  set S := (Finset.range I.eigvals.length).image f
  have hS : S ⊆ R := by
    intro j hj
    obtain ⟨k, hk, rfl⟩ := Finset.mem_image.mp hj
    exact Finset.mem_range.mpr (hfk k (Finset.mem_range.mp hk)).1
  have hw : sctWt β egs I = ∑ j ∈ S, Real.exp (-β * ((J.eigvals[j]?.getD 0) - egs)) := by
    rw [Finset.sum_image (fun a ha b hb => hf ha hb)]
    exact Finset.sum_congr rfl fun k hk => by rw [(hfk k (Finset.mem_range.mp hk)).2.2]
  have hwd : sctWt β egs J - sctWt β egs I = ∑ j ∈ R \ S, Real.exp (-β * ((J.eigvals[j]?.getD 0) - egs)) := by
    rw [hw, sctWt, ← Finset.sum_sdiff hS, add_sub_cancel_right]
  refine ⟨?_, fun z hz => ?_⟩
  · have : 0 ≤ ∑ j ∈ R \ S, Real.exp (-β * ((J.eigvals[j]?.getD 0) - egs)) := Finset.sum_nonneg fun _ _ => (Real.exp_pos _).le
    linarith
  · rw [← sctVal_complete hz hes h0 β egs hq, hwd]
    have hv : sctVal n H B β egs I z = ∑ j ∈ S, sctTerm n H B β egs (J.ket n j) (J.eigvals[j]?.getD 0) z := by
      rw [Finset.sum_image (fun a ha b hb => hf ha hb), sctVal_eq]
      exact Finset.sum_congr rfl fun k hk => by rw [(hfk k (Finset.mem_range.mp hk)).2.2, (hfk k (Finset.mem_range.mp hk)).2.1]
    have hvd : sctVal n H B β egs J z = ∑ j ∈ R \ S, sctTerm n H B β egs (J.ket n j) (J.eigvals[j]?.getD 0) z + sctVal n H B β egs I z := by
      rw [hv, sctVal_eq, Finset.sum_sdiff hS]
    rw [hvd, ← norm_neg, neg_sub, add_sub_cancel_right, Finset.sum_mul]
    refine (norm_sum_le _ _).trans (Finset.sum_le_sum fun j hj => sctTerm_le hH hcar hz β egs _ (Edpyt.ket_norm hJ hc ?_))
    exact Finset.mem_range.mp (Finset.mem_sdiff.mp hj).1

end

section
variable {g : GfLArgs} {jk : ℝ} {B : Matrix (Finset (Fin (g.ham.n + g.ham.n))) (Finset (Fin (g.ham.n + g.ham.n))) ℝ}
  {half : Ladder → Sct → ℕ × ℕ → Espace (ℕ × ℕ) → Except PyErr (Espace (ℕ × ℕ) × List GfFn × List LancRun) → Prop} {c : ℝ}

/-- `es'` holds the sectors of `es`, some of them completed. -/
structure Grown (g : GfLArgs) (es es' : Espace (ℕ × ℕ)) : Prop where
  sub : SubEspace g.ham.n g.ham.ham es'
  keys : es'.map Prod.fst = es.map Prod.fst
  wt : ∀ q ∈ es.map Prod.fst, sctWt g.beta g.egs (sctAt es q) ≤ sctWt g.beta g.egs (sctAt es' q)

theorem Grown.refl {es : Espace (ℕ × ℕ)} (h : SubEspace g.ham.n g.ham.ham es) : Grown g es es := ⟨h, rfl, fun _ _ => le_rfl⟩

theorem Grown.trans {es es' es'' : Espace (ℕ × ℕ)} (h : Grown g es es') (h' : Grown g es' es'') : Grown g es es'' :=
  ⟨h'.sub, h'.keys.trans h.keys, fun q hq => (h.wt q hq).trans (h'.wt q (h.keys ▸ hq))⟩

theorem Grown.replace {es es0 : Espace (ℕ × ℕ)} (h : SubEspace g.ham.n g.ham.ham es) (h0 : EigenEspace g.ham.n g.ham.ham es0) {q : ℕ × ℕ} {J : Sct}
    (hq : q ∈ es.map Prod.fst) (hJ : EigSct g.ham.n g.ham.ham q J) (hc : Complete J.d J.eigvecs) : Grown g es (dictSet es q J) := by
  refine ⟨h.replace hq hJ hc, dictSet_keys hq, fun q' hq' => ?_⟩
  by_cases e : q = q'
  · subst e
    have : sctAt (dictSet es q J) q = J := by unfold sctAt; rw [dictGet_dictSet, if_pos rfl]
    rw [this]
    obtain ⟨es1, h1, rfl⟩ := h0.replace_at (h.grid q hq) hJ hc
    rw [sctWt_complete h1 h0 _ _ (h.grid q hq)]
    exact ((h.get hq).2.missing (B := 0) (c := 0) h0.basis.symm (by simp) h0 _ _ (h.grid q hq)).1
  · have : sctAt (dictSet es q J) q' = sctAt es q' := by unfold sctAt; rw [dictGet_dictSet, if_neg e]
    rw [this]

/-- One half. -/
theorem gfStepHalf_sub (hspec : HalfSpec g jk (opOf B) (fun _ _ => False) half) (hB : ∀ op, Grade (opOf B op) (fun t => if t = g.ispin then op.delta else 0))
    {es0 : Espace (ℕ × ℕ)} (h0 : EigenEspace g.ham.n g.ham.ham es0) (op : Ladder) {q : ℕ × ℕ}
    (hq : q ∈ ndindex2 (g.ham.n + 1) (g.ham.n + 1)) {I : Sct} (hI : EigSct g.ham.n g.ham.ham q I) {st : GfLSt} (hst : SubEspace g.ham.n g.ham.ham st.es)
    {r : Except PyErr GfLSt} (h : GfStepHalf half g false op q I st r) :
    ∃ st', r = .ok st' ∧ Grown g st.es st'.es ∧ ∃ log, st'.log = st.log ++ log ∧ (∀ run ∈ log, run.Good g) ∧
      ∀ (e eta ε : ℝ), eta ≠ 0 → 0 ≤ ε → (∀ run ∈ log, run.AccLe g.ham.ham e eta ε) →
        ‖fsum jk st'.fe e eta - fsum jk st.fe e eta - halfExact g.ham.n g.ham.ham (opOf B op) op.sign g.beta g.egs I (e + Complex.I * eta)‖ ≤
          halfErr g.ham.n (opOf B op) g.beta g.egs I g.cfg.delta ε eta := by
  have hsct : ∀ p ∈ st.es, EigSct g.ham.n g.ham.ham p.1 p.2 := fun p hp => (hst.sct p hp).toEigSct
  unfold GfStepHalf at h
  rcases gfArrival_cases (s := g.ispin) (op := op) hq with ⟨q', h1, h2, h3⟩ | ⟨h1, h2⟩
  · rw [h1] at h
    simp only [Int.toNat_natCast] at h
    rcases h with ⟨x, hx, h⟩ | ⟨e, hx, h⟩
    · rcases hspec op q q' I st.es _ h2 h3 hI hsct hx with ⟨hh, -⟩ | ⟨es', fs, log, hr, c1, c2, c3⟩
      · exact hh.elim
      · injection hr with hr; subst hr
        simp only [DetR, Bool.false_eq_true, false_and, if_false] at h
        refine ⟨_, h, ?_, log, rfl, ?_, ?_⟩
        · rcases c1 with rfl | ⟨J, hm, rfl, hJ, hc⟩
          · exact .refl hst
          · exact .replace hst h0 hm hJ hc
        · intro run hr
          obtain ⟨d1, d2⟩ := c2 run hr
          exact ⟨⟨q', mem_ndindex2.mpr ⟨by omega, by omega⟩, d1⟩, d2⟩
        · intro e eta ε he hε hlog
          rw [fsum_append, add_sub_cancel_left]
          exact c3 e eta ε he hε hlog
    · rcases hspec op q q' I st.es _ h2 h3 hI hsct hx with ⟨hh, -⟩ | ⟨es', fs, log, hr, -⟩
      · exact hh.elim
      · cases hr
  · rw [h1] at h
    simp only at h
    refine ⟨st, h, .refl hst, [], by simp, by simp, fun e eta ε he hε _ => ?_⟩
    obtain ⟨up, dw, hok⟩ := hI.ok
    have hz : ∀ k, opOf B op *ᵥ I.ket g.ham.n k = 0 := by
      intro k
      rw [hok.ket_eq]
      exact (hB op).kill hok.hup hok.hdw _ (by
        rcases h2 with h | h | h | h
        · exact .inl h
        · exact .inr (.inl h)
        · exact .inr (.inr (.inl h))
        · exact .inr (.inr (.inr h)))
    have hX : halfExact g.ham.n g.ham.ham (opOf B op) op.sign g.beta g.egs I (e + Complex.I * eta) = 0 := by
      unfold halfExact
      apply Finset.sum_eq_zero; intro k _
      rw [hz]
      have : (fun i : Finset (Fin (g.ham.n + g.ham.n)) => (((0 : Finset (Fin (g.ham.n + g.ham.n)) → ℝ) i : ℝ) : ℂ)) = 0 := by funext i; simp
      simp only [resElem, this, zero_dotProduct, mul_zero]
    rw [hX, sub_self, sub_zero, norm_zero]
    exact halfErr_nonneg _ _ _ _ hε

/-- One pass of the loop. -/
theorem gfStep_sub (hspec : HalfSpec g jk (opOf B) (fun _ _ => False) half) (hB : ∀ op, Grade (opOf B op) (fun t => if t = g.ispin then op.delta else 0))
    (hcar : Bᵀ * B + B * Bᵀ = c • (1 : Matrix _ _ ℝ)) {es0 : Espace (ℕ × ℕ)} (h0 : EigenEspace g.ham.n g.ham.ham es0) {q : ℕ × ℕ} {st : GfLSt}
    (hst : SubEspace g.ham.n g.ham.ham st.es) (hq : q ∈ st.es.map Prod.fst) {r : Except PyErr GfLSt} (h : GfStep half g false st q r) :
    ∃ st', r = .ok st' ∧ Grown g st.es st'.es ∧ ∃ log, st'.log = st.log ++ log ∧ (∀ run ∈ log, run.Good g) ∧
      ∀ (e eta ε : ℝ), eta ≠ 0 → 0 ≤ ε → (∀ run ∈ log, run.AccLe g.ham.ham e eta ε) →
        ‖fsum jk st'.fe e eta - fsum jk st.fe e eta - sctVal g.ham.n g.ham.ham B g.beta g.egs (sctAt st.es q) (e + Complex.I * eta)‖ ≤
          sctWt g.beta g.egs (sctAt st.es q) * (c * ε / eta ^ 2 + 2 * (g.cfg.delta ^ 2 / |eta|)) := by
  obtain ⟨h1, h2⟩ := hst.get hq
  have hg := hst.grid q hq
  unfold GfStep at h
  rw [bindR_ok h1] at h
  rcases h with ⟨st1, hx, h⟩ | ⟨e, hx, h⟩
  · obtain ⟨st1', hr, hg1, l1, a1, a2, a3⟩ := gfStepHalf_sub hspec hB h0 .cdg hg h2.toEigSct hst hx
    injection hr with hr; subst hr
    obtain ⟨st2, hr, hg2, l2, b1, b2, b3⟩ := gfStepHalf_sub hspec hB h0 .c hg h2.toEigSct hg1.sub h
    refine ⟨st2, hr, hg1.trans hg2, l1 ++ l2, by rw [b1, a1, List.append_assoc], ?_, fun e eta ε he hε hlog => ?_⟩
    · intro run hr
      rcases List.mem_append.mp hr with h | h
      · exact a2 _ h
      · exact b2 _ h
    · have c1 := a3 e eta ε he hε (fun run h => hlog run (by simp [h]))
      have c2 := b3 e eta ε he hε (fun run h => hlog run (by simp [h]))
      rw [← sctErr_eq hcar g.beta g.egs g.cfg.delta ε eta h2]
      refine le_trans (le_of_eq ?_) ((norm_add_le _ _).trans (add_le_add c1 c2))
      unfold sctVal
      simp only [opOf]
      congr 1; ring
  · obtain ⟨st1', hr, -⟩ := gfStepHalf_sub hspec hB h0 .cdg hg h2.toEigSct hst hx
    cases hr

/-- The whole loop. -/
theorem gfLoop_sub (hspec : HalfSpec g jk (opOf B) (fun _ _ => False) half) (hB : ∀ op, Grade (opOf B op) (fun t => if t = g.ispin then op.delta else 0))
    (hc0 : 0 ≤ c) (hcar : Bᵀ * B + B * Bᵀ = c • (1 : Matrix _ _ ℝ)) {es0 : Espace (ℕ × ℕ)} (h0 : EigenEspace g.ham.n g.ham.ham es0) (xs : List (ℕ × ℕ)) {st : GfLSt}
    (hst : SubEspace g.ham.n g.ham.ham st.es) (hxs : ∀ q ∈ xs, q ∈ st.es.map Prod.fst) {r : Except PyErr GfLSt} (h : ForR (GfStep half g false) xs st r) :
    ∃ st', r = .ok st' ∧ Grown g st.es st'.es ∧ ∃ log, st'.log = st.log ++ log ∧ (∀ run ∈ log, run.Good g) ∧
      ∀ (e eta ε : ℝ), eta ≠ 0 → 0 ≤ ε → (∀ run ∈ log, run.AccLe g.ham.ham e eta ε) →
        ‖fsum jk st'.fe e eta - fsum jk st.fe e eta - (xs.map fun q => sctVal g.ham.n g.ham.ham B g.beta g.egs (sctAt es0 q) (e + Complex.I * eta)).sum‖ ≤
          (xs.map fun q => (sctWt g.beta g.egs (sctAt es0 q) - sctWt g.beta g.egs (sctAt st.es q)) * (c / |eta|) +
            sctWt g.beta g.egs (sctAt st'.es q) * (c * ε / eta ^ 2 + 2 * (g.cfg.delta ^ 2 / |eta|))).sum := by
  induction xs generalizing st with
  | nil =>
    have h : r = .ok st := h
    exact ⟨st, h, .refl hst, [], by simp, by simp, fun e eta ε _ _ _ => by simp⟩
  | cons q xs ih =>
    have hq := hxs q (by simp)
    rcases h with ⟨st1, h1, h2⟩ | ⟨e, h1, rfl⟩
    · obtain ⟨st1', hr, hg1, l1, a1, a2, a3⟩ := gfStep_sub hspec hB hcar h0 hst hq h1
      injection hr with hr; subst hr
      obtain ⟨st2, hr, hg2, l2, b1, b2, b3⟩ := ih hg1.sub (fun q hq => by rw [hg1.keys]; exact hxs q (by simp [hq])) h2
      refine ⟨st2, hr, hg1.trans hg2, l1 ++ l2, by rw [b1, a1, List.append_assoc], ?_, fun e eta ε he hε hlog => ?_⟩
      · intro run hr
        rcases List.mem_append.mp hr with h | h
        · exact a2 _ h
        · exact b2 _ h
      · have c1 := a3 e eta ε he hε (fun run h => hlog run (by simp [h]))
        have c2 := b3 e eta ε he hε (fun run h => hlog run (by simp [h]))
        have him : (e + Complex.I * eta : ℂ).im = eta := by simp
        have c3 := ((hst.get hq).2.missing h0.basis.symm hcar h0 g.beta g.egs (hst.grid q hq)).2 (e + Complex.I * eta) (by rw [him]; exact he)
        rw [him] at c3
        simp only [List.map_cons, List.sum_cons]
        have hκ : 0 ≤ c * ε / eta ^ 2 + 2 * (g.cfg.delta ^ 2 / |eta|) := by positivity
        have c4 := mul_le_mul_of_nonneg_right ((hg1.trans hg2).wt q hq) hκ
        have hη : 0 ≤ c / |eta| := by positivity
        have c5 : (xs.map fun q => (sctWt g.beta g.egs (sctAt es0 q) - sctWt g.beta g.egs (sctAt st1.es q)) * (c / |eta|) +
            sctWt g.beta g.egs (sctAt st2.es q) * (c * ε / eta ^ 2 + 2 * (g.cfg.delta ^ 2 / |eta|))).sum ≤
            (xs.map fun q => (sctWt g.beta g.egs (sctAt es0 q) - sctWt g.beta g.egs (sctAt st.es q)) * (c / |eta|) +
            sctWt g.beta g.egs (sctAt st2.es q) * (c * ε / eta ^ 2 + 2 * (g.cfg.delta ^ 2 / |eta|))).sum := by
          apply List.sum_le_sum
          intro q' hq'
          have := mul_le_mul_of_nonneg_right (hg1.wt q' (hxs q' (by simp [hq']))) hη
          nlinarith
        refine le_trans (le_of_eq ?_) ((norm_add_le _ _).trans (add_le_add ((norm_add_le _ _).trans (add_le_add c1 c3)) c2) |>.trans ?_)
        · congr 1; ring
        · linarith
    · obtain ⟨st1', hr, -⟩ := gfStep_sub hspec hB hcar h0 hst hq h1
      cases hr

end
end Edpyt
