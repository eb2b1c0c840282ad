import Verif.Props.MinMax
/-!
C214: the sum of the lowest energies of a sector is the least total energy of as many orthonormal vectors of the sector.
-/
namespace Edpyt
open Spec Matrix

/-! ## Specification -/

/-- `k` orthonormal vectors with `p` up and `q` down electrons. -/
def Spec.SectorFrame (n p q k : ℕ) (v : Fin k → Finset (Fin (n + n)) → ℝ) : Prop := (∀ i j, v i ⬝ᵥ v j = if i = j then 1 else 0) ∧ ∀ i, SectorVec n p q (v i)

/-- The total energy of some vectors. -/
def Spec.totalEnergy {n k : ℕ} (H : Matrix (Finset (Fin (n + n))) (Finset (Fin (n + n))) ℝ) (v : Fin k → Finset (Fin (n + n)) → ℝ) : ℝ := ∑ i, v i ⬝ᵥ H *ᵥ v i

variable {a : HamArgs} {w w' p q k : ℕ} {es es' : Espace (ℕ × ℕ)} {egs egs' : WithTop ℝ} {I J : Sct}

/-! ## Helpers -/

theorem bessel_frame {ι : Type} [Fintype ι] {k : ℕ} {v : Fin k → ι → ℝ} (hv : ∀ i j, v i ⬝ᵥ v j = if i = j then 1 else 0) {x : ι → ℝ} (hx : x ⬝ᵥ x = 1) : ∑ i, (x ⬝ᵥ v i) ^ 2 ≤ 1 := by
  set z := ∑ i, (x ⬝ᵥ v i) • v i with hz
  have h1 : x ⬝ᵥ z = ∑ i, (x ⬝ᵥ v i) ^ 2 := by
    rw [hz, dotProduct_sum]
    exact Finset.sum_congr rfl fun i _ => by rw [dotProduct_smul, smul_eq_mul, pow_two]
  have h2 : z ⬝ᵥ z = ∑ i, (x ⬝ᵥ v i) ^ 2 := by
    have : ∀ i, v i ⬝ᵥ z = x ⬝ᵥ v i := fun i => by
      rw [hz, dotProduct_sum, Finset.sum_eq_single i]
      · rw [dotProduct_smul, hv, if_pos rfl, smul_eq_mul, mul_one]
      · intro j _ hj
        rw [dotProduct_smul, hv, if_neg hj.symm, smul_zero]
      · simp
    conv_lhs => rw [hz]
    rw [sum_dotProduct]
    exact Finset.sum_congr rfl fun i _ => by rw [smul_dotProduct, this, smul_eq_mul, pow_two]
  have h3 : 0 ≤ (x - z) ⬝ᵥ (x - z) := Finset.sum_nonneg fun S _ => mul_self_nonneg _
  rw [sub_dotProduct, dotProduct_sub, dotProduct_sub, dotProduct_comm z x, h1, h2, hx] at h3
  linarith

theorem kyfan_lower {ι κ : Type} [Fintype ι] [DecidableEq ι] [Fintype κ] [DecidableEq κ] {H : Matrix ι ι ℝ} {u : κ → ι → ℝ} {E : κ → ℝ} (h : EigBasis H u E) {k : ℕ} {g : Fin k → κ}
    (hg : Function.Injective g) {c : ℝ} (hlow : ∀ i, E (g i) ≤ c) {v : Fin k → ι → ℝ} (hv : ∀ i j, v i ⬝ᵥ v j = if i = j then 1 else 0)
    (hhigh : ∀ y, (∀ i, y ≠ g i) → (∃ i, u y ⬝ᵥ v i ≠ 0) → c ≤ E y) : ∑ i, E (g i) ≤ ∑ i, v i ⬝ᵥ H *ᵥ v i := by
  set W : κ → ℝ := fun y => ∑ i, (u y ⬝ᵥ v i) ^ 2 with hW
  have e1 : ∑ i, v i ⬝ᵥ H *ᵥ v i = ∑ y, E y * W y := by
    simp only [(h.quad _).1, hW, Finset.mul_sum]
    exact Finset.sum_comm
  have e2 : ∑ y, W y = k := by
    simp only [hW]
    rw [Finset.sum_comm]
    have : ∀ i, ∑ y, (u y ⬝ᵥ v i) ^ 2 = 1 := fun i => by rw [← (h.quad _).2, hv, if_pos rfl]
    simp only [this]
    simp
  have h0 : ∀ y, 0 ≤ W y := fun y => Finset.sum_nonneg fun i _ => sq_nonneg _
  have h1 : ∀ y, W y ≤ 1 := fun y => bessel_frame hv (by rw [h.orth, if_pos rfl])
  have h2 : ∀ y, (if y ∈ Finset.univ.image g then E y - c else 0) + c * W y ≤ E y * W y := by
    intro y
    by_cases hy : y ∈ Finset.univ.image g
    · rw [if_pos hy]
      obtain ⟨i, -, rfl⟩ := Finset.mem_image.mp hy
      nlinarith [hlow i, h1 (g i)]
    · rw [if_neg hy, zero_add]
      by_cases hi : ∃ i, u y ⬝ᵥ v i ≠ 0
      · exact mul_le_mul_of_nonneg_right (hhigh y (fun i e => hy (Finset.mem_image.mpr ⟨i, Finset.mem_univ _, e.symm⟩)) hi) (h0 y)
      · push Not at hi
        have : W y = 0 := Finset.sum_eq_zero fun i _ => by rw [hi i]; ring
        rw [this, mul_zero, mul_zero]
  have h3 := Finset.sum_le_sum fun y (_ : y ∈ Finset.univ) => h2 y
  rw [← e1, Finset.sum_add_distrib, ← Finset.mul_sum, e2, Finset.sum_ite_mem, Finset.univ_inter, Finset.sum_image (fun _ _ _ _ hxy => hg hxy), Finset.sum_sub_distrib] at h3
  simp only [Finset.sum_const, Finset.card_univ, Fintype.card_fin, nsmul_eq_mul] at h3
  linarith

theorem take_sum_fin {l : List ℝ} (hk : k ≤ l.length) : (l.take k).sum = ∑ i : Fin k, l[(i : ℕ)]?.getD 0 := by
  have e : l.take k = (List.range k).map fun i => l[i]?.getD 0 := by
    apply List.ext_getElem
    · simp [hk]
    · intro i h1 h2
      have : i < l.length := by
        rw [List.length_take] at h1
        omega
      simp [List.getElem?_eq_getElem this]
  rw [e, sum_map_range, Finset.sum_range]

theorem hamU_convex (a : HamArgs) (U U' : ℕ → ℕ → ℝ) (t : ℝ) : a.hamU (fun i j => (1 - t) * U i j + t * U' i j) = (1 - t) • a.hamU U + t • a.hamU U' := by
  symm
  rw [withU_ham, withU_ham, withU_ham]
  have e : interE a (fun i j => (1 - t) * U i j + t * U' i j) = (1 - t) • interE a U + t • interE a U' := by
    funext S
    simp only [interE, onsiteVal, interVal, Pi.add_apply, Pi.smul_apply, smul_eq_mul]
    have e1 : ∀ (f g : Fin a.n → ℝ) (x : Fin a.n → ℝ), ∑ i, ((1 - t) * f i + t * g i) * x i = (1 - t) * ∑ i, f i * x i + t * ∑ i, g i * x i := fun f g x => by
      rw [Finset.mul_sum, Finset.mul_sum, ← Finset.sum_add_distrib]
      exact Finset.sum_congr rfl fun i _ => by ring
    rw [e1]
    have e2 : ∀ x : Fin a.n → Fin a.n → ℝ, ∑ i : Fin a.n, ∑ j : Fin a.n, (if i ≠ j then (1 - t) * U i j + t * U' i j else 0) * x i j =
        (1 - t) * (∑ i : Fin a.n, ∑ j : Fin a.n, (if i ≠ j then U i j else 0) * x i j) + t * ∑ i : Fin a.n, ∑ j : Fin a.n, (if i ≠ j then U' i j else 0) * x i j := fun x => by
      rw [Finset.mul_sum, Finset.mul_sum, ← Finset.sum_add_distrib]
      refine Finset.sum_congr rfl fun i _ => ?_
      rw [Finset.mul_sum, Finset.mul_sum, ← Finset.sum_add_distrib]
      refine Finset.sum_congr rfl fun j _ => ?_
      split_ifs <;> ring
    rw [e2]
    ring
  have ed : Matrix.diagonal ((1 - t) • interE a U + t • interE a U') = (1 - t) • Matrix.diagonal (interE a U) + t • Matrix.diagonal (interE a U') := by
    rw [← Matrix.diagonal_smul, ← Matrix.diagonal_smul, Matrix.diagonal_add]
    rfl
  rw [e, ed]
  generalize kinetic (fun s => kept (n := a.n) a.mu (a.H (if s then 1 else 0))) + codeExchange (n := a.n) a.V.Jx a.V.Jp = K
  module

theorem totalEnergy_convex {n k : ℕ} (H H' : Matrix (Finset (Fin (n + n))) (Finset (Fin (n + n))) ℝ) (r t : ℝ) (v : Fin k → Finset (Fin (n + n)) → ℝ) :
    totalEnergy (r • H + t • H') v = r * totalEnergy H v + t * totalEnergy H' v := by
  unfold totalEnergy
  rw [Finset.mul_sum, Finset.mul_sum, ← Finset.sum_add_distrib]
  refine Finset.sum_congr rfl fun i _ => ?_
  rw [Matrix.add_mulVec, Matrix.smul_mulVec, Matrix.smul_mulVec, dotProduct_add, dotProduct_smul, dotProduct_smul, smul_eq_mul, smul_eq_mul]

/-! ## C214 -/

/-- **C214** The sum of the lowest `k` energies listed in a sector is the least total energy of `k` orthonormal vectors of the sector (Ky Fan). -/
theorem C214_kyfan (ha : a.Valid) (hw : a.n ≤ w) (h : BuildEspace w a none (.ok (es, egs))) (hI : ((p, q), I) ∈ es) (hk : k ≤ I.eigvals.length) :
    IsLeast {x | ∃ v : Fin k → Finset (Fin (a.n + a.n)) → ℝ, SectorFrame a.n p q k v ∧ x = totalEnergy a.ham v} (I.eigvals.take k).sum := by
  have hes := buildEspace_eigen ha hw h
  have hs := buildEspace_sorted ha hw h hI
  obtain ⟨rfl, hp, hq⟩ := sctAt_of_mem hes hI
  obtain ⟨-, -, -, -, -, -, -, hlen⟩ := hes.toCompleteEspace.at hp hq
  have hB := hes.basis
  let g : Fin k → EigIdx a.n := fun i => lvIdx hp hq ⟨i, by have := i.2; omega⟩
  have hg : Function.Injective g := fun i j e => by
    have := (lvIdx_inj hp hq).mp e
    simpa [Fin.ext_iff] using this
  have hval : ∀ i, esVal a.n es (g i) = (sctAt es (p, q)).eigvals[(i : ℕ)]?.getD 0 := fun i => rfl
  rw [take_sum_fin hk]
  constructor
  · refine ⟨fun i => esKet a.n es (g i), ⟨fun i j => ?_, fun i S hS => hes.support (g i) hS⟩, ?_⟩
    · rw [hB.orth]
      exact if_congr hg.eq_iff rfl rfl
    · unfold totalEnergy
      refine Finset.sum_congr rfl fun i _ => ?_
      rw [hB.eig, dotProduct_smul, hB.orth, if_pos rfl, smul_eq_mul, mul_one, hval]
  · rintro x ⟨v, ⟨hv, hvs⟩, rfl⟩
    have key := kyfan_lower hB hg (c := (sctAt es (p, q)).eigvals[k - 1]?.getD 0) (fun i => by
      rw [hval]
      exact sorted_getD hs (by have := i.2; omega) (by have := i.2; omega)) hv (fun y hy ⟨i, hi⟩ => by
      obtain ⟨T, -, hT⟩ := Finset.exists_ne_zero_of_sum_ne_zero hi
      have c1 := hes.support y (left_ne_zero_of_mul hT)
      have c2 := hvs i T (right_ne_zero_of_mul hT)
      obtain ⟨⟨⟨y1, hy1⟩, ⟨y2, hy2⟩⟩, l⟩ := y
      have e1 : y1 = p := by have := c1.1.symm.trans c2.1; exact_mod_cast this
      have e2 : y2 = q := by have := c1.2.symm.trans c2.2; exact_mod_cast this
      subst e1 e2
      have hl : k ≤ (l : ℕ) := by
        by_contra hc
        exact hy ⟨l, by omega⟩ rfl
      have hkl : k - 1 ≤ (l : ℕ) := (Nat.sub_le k 1).trans hl
      exact sorted_getD hs hkl (by rw [hlen]; exact l.2))
    simp only [hval] at key
    exact key

/-- **C214** So it is at most the total energy of any `k` different configurations of the sector. -/
theorem C214_configurations (ha : a.Valid) (hw : a.n ≤ w) (h : BuildEspace w a none (.ok (es, egs))) (hI : ((p, q), I) ∈ es) {A : Finset (Finset (Fin (a.n + a.n)))}
    (hA : ∀ S ∈ A, spinCount false S = p ∧ spinCount true S = q) (hk : A.card ≤ I.eigvals.length) : (I.eigvals.take A.card).sum ≤ ∑ S ∈ A, a.ham S S := by
  refine (C214_kyfan ha hw h hI hk).2 ⟨fun i => Pi.single (A.equivFin.symm i : Finset (Fin (a.n + a.n))) 1, ⟨fun i j => ?_, fun i S hS => ?_⟩, ?_⟩
  · beta_reduce
    rw [single_dotProduct, one_mul, Pi.single_apply]
    refine if_congr ?_ rfl rfl
    rw [Subtype.val_inj, A.equivFin.symm.injective.eq_iff]
  · have : S = (A.equivFin.symm i : Finset (Fin (a.n + a.n))) := by
      by_contra hc
      exact hS (Pi.single_eq_of_ne hc 1)
    rw [this]
    exact hA _ (A.equivFin.symm i).2
  · unfold totalEnergy
    rw [← Finset.sum_coe_sort, ← Equiv.sum_comp A.equivFin.symm]
    refine Finset.sum_congr rfl fun i _ => ?_
    rw [single_dotProduct, one_mul, Matrix.mulVec_single_one, Matrix.col_apply]

/-- **C214** It is a concave function of the interaction array. -/
theorem C214_concave (ha : a.Valid) (hw : a.n ≤ w) (hw' : a.n ≤ w') {w'' : ℕ} (hw'' : a.n ≤ w'') {U U' : ℕ → ℕ → ℝ} {t : ℝ} (ht : 0 ≤ t) (ht' : t ≤ 1) {est : Espace (ℕ × ℕ)} {egst : WithTop ℝ} {K : Sct}
    (h : BuildEspace w (a.withU U) none (.ok (es, egs))) (h' : BuildEspace w' (a.withU U') none (.ok (es', egs')))
    (h'' : BuildEspace w'' (a.withU fun i j => (1 - t) * U i j + t * U' i j) none (.ok (est, egst)))
    (hI : ((p, q), I) ∈ es) (hJ : ((p, q), J) ∈ es') (hK : ((p, q), K) ∈ est) (hkI : k ≤ I.eigvals.length) (hkJ : k ≤ J.eigvals.length) (hkK : k ≤ K.eigvals.length) :
    (1 - t) * (I.eigvals.take k).sum + t * (J.eigvals.take k).sum ≤ (K.eigvals.take k).sum := by
  have l1 := (C214_kyfan (HamArgs.withU_valid ha U) hw h hI hkI).2
  have l2 := (C214_kyfan (HamArgs.withU_valid ha U') hw' h' hJ hkJ).2
  obtain ⟨v, hv, e⟩ := (C214_kyfan (HamArgs.withU_valid ha _) hw'' h'' hK hkK).1
  rw [e]
  have e1 := l1 ⟨v, hv, rfl⟩
  have e2 := l2 ⟨v, hv, rfl⟩
  have e3 : totalEnergy (n := a.n) (a.hamU fun i j => (1 - t) * U i j + t * U' i j) v = (1 - t) * totalEnergy (n := a.n) (a.hamU U) v + t * totalEnergy (n := a.n) (a.hamU U') v := by
    rw [hamU_convex]
    exact totalEnergy_convex _ _ _ _ _
  refine le_trans ?_ (le_of_eq e3.symm)
  exact add_le_add (mul_le_mul_of_nonneg_left e1 (by linarith)) (mul_le_mul_of_nonneg_left e2 ht)

/-- The hypotheses hold for the four levels of two sites with one electron of each spin, for every interaction array, and for two configurations of that sector. -/
example : (∀ U, (weakArgs.withU U).Valid ∧ ∃ es egs I, BuildEspace 64 (weakArgs.withU U) none (.ok (es, egs)) ∧ ((1, 1), I) ∈ es ∧ I.eigvals.length = 4) ∧
    ∃ A : Finset (Finset (Fin (2 + 2))), A.card = 2 ∧ ∀ S ∈ A, spinCount false S = (1 : ℕ) ∧ spinCount true S = (1 : ℕ) := by
  constructor
  · intro U
    have hb := HamArgs.withU_valid weakArgs_valid U
    have hn : (weakArgs.withU U).n = 2 := rfl
    obtain ⟨⟨⟨es, egs⟩, h⟩, -⟩ := buildEspace_none_ok hb (w := 64) (by omega)
    obtain ⟨-, -, hm, -, -, -, -, hlen⟩ := (buildEspace_eigen hb (by omega) h).toCompleteEspace.at (u := 1) (d := 1) (by omega) (by omega)
    exact ⟨hb, es, egs, _, h, hm, by rw [hlen, hn]; rfl⟩
  · refine ⟨{{orb false 0, orb true 0}, {orb false 0, orb true 1}}, by decide, fun S hS => ?_⟩
    rw [spinCount_eq, spinCount_eq]
    simp only [Finset.mem_insert, Finset.mem_singleton] at hS
    rcases hS with rfl | rfl <;> decide

end Edpyt
