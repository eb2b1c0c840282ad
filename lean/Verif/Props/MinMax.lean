import Verif.Proof.MinMax
import Verif.Props.Stable
import Verif.Props.LevelSymm
/-!
C197: every energy that `build_espace` lists, not only the lowest, obeys the min-max principle, and is therefore stable and monotone.
-/
namespace Edpyt
open Spec Matrix
open scoped Matrix.Norms.L2Operator

variable {a : HamArgs} {w w' p q k : ℕ} {es es' : Espace (ℕ × ℕ)} {egs egs' : WithTop ℝ} {I J : Sct}

theorem quad_norm {ι : Type} [Fintype ι] [DecidableEq ι] {A B : Matrix ι ι ℝ} {δ : ℝ} (h : ‖B - A‖ ≤ δ) (x : ι → ℝ) : x ⬝ᵥ B *ᵥ x ≤ x ⬝ᵥ A *ᵥ x + δ * (x ⬝ᵥ x) := by
  have h0 : 0 ≤ x ⬝ᵥ x := Finset.sum_nonneg fun S _ => mul_self_nonneg _
  rcases h0.eq_or_lt with h0 | h0
  · rw [dotProduct_self_eq_zero.mp h0.symm]; simp
  · have hs := Real.sqrt_pos.mpr h0
    have hss := Real.mul_self_sqrt h0.le
    set r := Real.sqrt (x ⬝ᵥ x) with hr
    have h1 : (r⁻¹ • x) ⬝ᵥ (r⁻¹ • x) = 1 := by
      rw [smul_dotProduct, dotProduct_smul, smul_eq_mul, smul_eq_mul, ← hss]
      field_simp
    have h2 := (le_abs_self _).trans ((opNorm_form (B - A) _ h1).trans h)
    rw [Matrix.mulVec_smul, smul_dotProduct, dotProduct_smul, smul_eq_mul, smul_eq_mul, Matrix.sub_mulVec, dotProduct_sub] at h2
    have h3 := mul_le_mul_of_nonneg_right h2 h0.le
    rw [← hss] at h3
    have h4 : r⁻¹ * (r⁻¹ * (x ⬝ᵥ B *ᵥ x - x ⬝ᵥ A *ᵥ x)) * (r * r) = x ⬝ᵥ B *ᵥ x - x ⬝ᵥ A *ᵥ x := by field_simp
    rw [h4, hss] at h3
    linarith

theorem quad_diagonal {ι : Type} [Fintype ι] [DecidableEq ι] (H : Matrix ι ι ℝ) (d : ι → ℝ) (x : ι → ℝ) : x ⬝ᵥ (H + Matrix.diagonal d) *ᵥ x = x ⬝ᵥ H *ᵥ x + ∑ S, d S * x S ^ 2 := by
  rw [Matrix.add_mulVec, dotProduct_add]
  congr 1
  unfold dotProduct
  refine Finset.sum_congr rfl fun S _ => ?_
  rw [Matrix.mulVec_diagonal]; ring

/-- Energies added to the configurations of a sector raise its levels by no less than the smallest and no more than the largest of them. -/
theorem quad_between {n : ℕ} {H : Matrix (Finset (Fin (n + n))) (Finset (Fin (n + n))) ℝ} {d : Finset (Fin (n + n)) → ℝ} {lo hi : ℝ}
    (hd : ∀ S, spinCount false S = p → spinCount true S = q → lo ≤ d S ∧ d S ≤ hi) {x : Finset (Fin (n + n)) → ℝ} (hx : SectorVec n p q x) :
    x ⬝ᵥ H *ᵥ x ≤ x ⬝ᵥ (H + Matrix.diagonal d) *ᵥ x + -lo * (x ⬝ᵥ x) ∧ x ⬝ᵥ (H + Matrix.diagonal d) *ᵥ x ≤ x ⬝ᵥ H *ᵥ x + hi * (x ⬝ᵥ x) := by
  rw [quad_diagonal]
  have hs : x ⬝ᵥ x = ∑ S, x S ^ 2 := Finset.sum_congr rfl fun S _ => by ring
  have h1 : lo * (x ⬝ᵥ x) ≤ ∑ S, d S * x S ^ 2 := by
    rw [hs, Finset.mul_sum]
    refine Finset.sum_le_sum fun S _ => ?_
    by_cases h0 : x S = 0
    · rw [h0]; simp
    · exact mul_le_mul_of_nonneg_right (hd S (hx S h0).1 (hx S h0).2).1 (sq_nonneg _)
  have h2 : ∑ S, d S * x S ^ 2 ≤ hi * (x ⬝ᵥ x) := by
    rw [hs, Finset.mul_sum]
    refine Finset.sum_le_sum fun S _ => ?_
    by_cases h0 : x S = 0
    · rw [h0]; simp
    · exact mul_le_mul_of_nonneg_right (hd S (hx S h0).1 (hx S h0).2).2 (sq_nonneg _)
  constructor <;> linarith

/-- **C197** The `k`-th energy listed in a sector is at most `E` exactly when the sector holds `k + 1` independent vectors that span a space of mean energies at most `E`. -/
theorem C197_minmax (ha : a.Valid) (hw : a.n ≤ w) (h : BuildEspace w a none (.ok (es, egs))) (hI : ((p, q), I) ∈ es) (hk : k < I.eigvals.length) (E : ℝ) :
    I.eigvals[k] ≤ E ↔ LowSpace a.n p q a.ham (k + 1) E := by
  have hes := buildEspace_eigen ha hw h
  obtain ⟨rfl, hp, hq⟩ := sctAt_of_mem hes hI
  rw [← minmax hes hp hq (buildEspace_sorted ha hw h hI) hk, List.getElem?_eq_getElem hk, Option.getD_some]

theorem levels_shift {H' : Matrix (Finset (Fin (a.n + a.n))) (Finset (Fin (a.n + a.n))) ℝ} (ha : a.Valid) (hw : a.n ≤ w) (h : BuildEspace w a none (.ok (es, egs))) (hI : ((p, q), I) ∈ es)
    (hk : k < I.eigvals.length) {y : ℝ} (hy : ∀ E, y ≤ E ↔ LowSpace a.n p q H' (k + 1) E) {lo hi : ℝ}
    (hH : ∀ x, SectorVec a.n p q x → x ⬝ᵥ a.ham *ᵥ x ≤ x ⬝ᵥ H' *ᵥ x + -lo * (x ⬝ᵥ x) ∧ x ⬝ᵥ H' *ᵥ x ≤ x ⬝ᵥ a.ham *ᵥ x + hi * (x ⬝ᵥ x)) :
    I.eigvals[k] + lo ≤ y ∧ y ≤ I.eigvals[k] + hi := by
  have hm := C197_minmax ha hw h hI hk
  constructor
  · have := (hm (y + -lo)).mpr (lowSpace_mono ((hy y).mp le_rfl) (fun x hx => (hH x hx).1) le_rfl)
    linarith
  · exact (hy _).mpr (lowSpace_mono ((hm _).mp le_rfl) (fun x hx => (hH x hx).2) le_rfl)

/-- **C197** If the levels and kept hopping elements of two inputs differ by `δ` in total, every energy listed by the one run differs from that listed at the same place by the other by at most `δ`. -/
theorem C197_stable {H : ℕ → ℕ → ℕ → ℝ} (ha : a.Valid) (ha' : ({ a with H := H } : HamArgs).Valid) (hw : a.n ≤ w) (hw' : a.n ≤ w') (h : BuildEspace w a none (.ok (es, egs)))
    (h' : BuildEspace w' { a with H := H } none (.ok (es', egs'))) (hI : ((p, q), I) ∈ es) (hJ : ((p, q), J) ∈ es') (hk : k < I.eigvals.length) (hk' : k < J.eigvals.length) :
    |J.eigvals[k] - I.eigvals[k]| ≤ hopChange a.n a.H H := by
  have hn := hamH_norm (a := a) H
  have hy : ∀ E, J.eigvals[k] ≤ E ↔ LowSpace a.n p q (a.hamH H a.mu) (k + 1) E := C197_minmax (a := { a with H := H }) ha' hw' h' hJ hk'
  have := levels_shift ha hw h hI hk hy (lo := -hopChange a.n a.H H) (hi := hopChange a.n a.H H) fun x _ => ⟨by
    rw [neg_neg]; exact quad_norm (by rw [← norm_neg, neg_sub]; exact hn) x, quad_norm hn x⟩
  rw [abs_le]
  constructor <;> linarith [this.1, this.2]

/-- **C197** The hopping elements that the code drops because they are not larger than `1e-7` change no level by more than their sum: the `k`-th level of the full Hamiltonian (the least `E` for which `k + 1`
independent vectors of the sector have mean energies at most `E`) is that close to the listed one. -/
theorem C197_cutoff (ha : a.Valid) (hw : a.n ≤ w) (h : BuildEspace w a none (.ok (es, egs))) (hI : ((p, q), I) ∈ es) (hk : k < I.eigvals.length) :
    LowSpace a.n p q (exactHam a) (k + 1) (I.eigvals[k] + hopDropped a.n a.H) ∧ ∀ E, LowSpace a.n p q (exactHam a) (k + 1) E → I.eigvals[k] - hopDropped a.n a.H ≤ E := by
  have hn := exactHam_norm a
  have hm := C197_minmax ha hw h hI hk
  refine ⟨lowSpace_mono ((hm _).mp le_rfl) (fun x _ => quad_norm hn x) le_rfl, fun E hE => ?_⟩
  have := (hm (E + hopDropped a.n a.H)).mpr (lowSpace_mono hE (fun x _ => quad_norm (by rw [← norm_neg, neg_sub]; exact hn) x) le_rfl)
  linarith

theorem hamU_add (U U' : ℕ → ℕ → ℝ) : a.hamU U' = a.hamU U + Matrix.diagonal (fun S => interE a U' S - interE a U S) := by
  rw [withU_ham, withU_ham, add_assoc _ (Matrix.diagonal (interE a U)), Matrix.diagonal_add]
  congr 2
  funext S
  ring

/-- **C197** Raising elements of the interaction lowers no level of any sector, and raises each at most by the energy of the full configuration. -/
theorem C197_repulsion (ha : a.Valid) (hw : a.n ≤ w) (hw' : a.n ≤ w') (hf : a.hf = false) (hz : a.z = none) {U U' : ℕ → ℕ → ℝ} (hU : ∀ i < a.n, ∀ j < a.n, U i j ≤ U' i j)
    (h : BuildEspace w (a.withU U) none (.ok (es, egs))) (h' : BuildEspace w' (a.withU U') none (.ok (es', egs'))) (hI : ((p, q), I) ∈ es) (hJ : ((p, q), J) ∈ es')
    (hk : k < I.eigvals.length) (hk' : k < J.eigvals.length) :
    I.eigvals[k] ≤ J.eigvals[k] ∧ J.eigvals[k] ≤ I.eigvals[k] + (∑ i : Fin a.n, (U' i i - U i i) + 1 / 2 * ∑ i : Fin a.n, ∑ j : Fin a.n, if i ≠ j then 4 * (U' i j - U i j) else 0) := by
  have hy : ∀ E, J.eigvals[k] ≤ E ↔ LowSpace a.n p q (a.hamU U') (k + 1) E := C197_minmax (HamArgs.withU_valid ha U') hw' h' hJ hk'
  rw [hamU_add U U'] at hy
  have := levels_shift (a := a.withU U) (HamArgs.withU_valid ha U) hw h hI hk hy (fun x hx => quad_between (H := a.hamU U) (fun S _ _ => interE_bounds hf hz hU S) hx)
  exact ⟨by linarith [this.1], this.2⟩

/-- **C197** An on-site repulsion is felt only by pairs of opposite spin: if it is raised by at most `D` on every site, the levels of the sector `(p, q)` rise by at most `D` times the smaller of `p` and `q`, and not at all
if there are no electrons of one spin. -/
theorem C197_onsite (ha : a.Valid) (hw : a.n ≤ w) (hw' : a.n ≤ w') (hf : a.hf = false) {U U' : ℕ → ℕ → ℝ} {D : ℝ} (hU : ∀ i < a.n, U i i ≤ U' i i ∧ U' i i ≤ U i i + D)
    (ho : ∀ i < a.n, ∀ j < a.n, i ≠ j → U' i j = U i j) (h : BuildEspace w (a.withU U) none (.ok (es, egs))) (h' : BuildEspace w' (a.withU U') none (.ok (es', egs'))) (hI : ((p, q), I) ∈ es)
    (hJ : ((p, q), J) ∈ es') (hk : k < I.eigvals.length) (hk' : k < J.eigvals.length) : I.eigvals[k] ≤ J.eigvals[k] ∧ J.eigvals[k] ≤ I.eigvals[k] + D * min p q := by
  have hD : 0 ≤ D := by
    have := hU 0 (by have := ha.two_le; omega)
    linarith [this.1, this.2]
  have hy : ∀ E, J.eigvals[k] ≤ E ↔ LowSpace a.n p q (a.hamU U') (k + 1) E := C197_minmax (HamArgs.withU_valid ha U') hw' h' hJ hk'
  rw [hamU_add U U'] at hy
  have hd : ∀ S : Finset (Fin (a.n + a.n)), spinCount false S = p → spinCount true S = q → 0 ≤ interE a U' S - interE a U S ∧ interE a U' S - interE a U S ≤ D * min p q := by
    intro S c1 c2
    have e : interE a U' S - interE a U S = ∑ i : Fin a.n, (U' i i - U i i) * ((if orb false i ∈ S then 1 else 0) * (if orb true i ∈ S then 1 else 0)) := by
      unfold interE onsiteVal
      have : interVal (fun i : Fin a.n => (a.z.getD (fun _ => if a.hf then 1 else 0)) i) (fun i j => U' i j) S =
          interVal (fun i : Fin a.n => (a.z.getD (fun _ => if a.hf then 1 else 0)) i) (fun i j => U i j) S := by
        unfold interVal
        congr 1
        refine Finset.sum_congr rfl fun i _ => Finset.sum_congr rfl fun j _ => ?_
        by_cases hij : i = j
        · simp [hij]
        · beta_reduce
          rw [ho i i.2 j j.2 (fun hc => hij (Fin.ext hc))]
      rw [this, add_sub_add_right_eq_sub, ← Finset.sum_sub_distrib]
      simp only [hf, Bool.false_eq_true, if_false, sub_zero]
      exact Finset.sum_congr rfl fun i _ => by ring
    have b : ∀ s (i : Fin a.n), (0 : ℝ) ≤ (if orb s i ∈ S then 1 else 0) ∧ (if orb s i ∈ S then 1 else 0 : ℝ) ≤ 1 := fun s i => by split_ifs <;> norm_num
    have hc : ∀ s, ∑ i : Fin a.n, (if orb s i ∈ S then 1 else 0 : ℝ) = ((spinCount s S : ℤ) : ℝ) := fun s => by
      rw [spinCount_eq, Finset.sum_boole]; norm_cast
    rw [e]
    refine ⟨Finset.sum_nonneg fun i _ => mul_nonneg (by linarith [(hU i i.2).1]) (mul_nonneg (b _ _).1 (b _ _).1), ?_⟩
    have key : ∀ s, ∑ i : Fin a.n, (U' i i - U i i) * ((if orb false i ∈ S then 1 else 0) * (if orb true i ∈ S then 1 else 0)) ≤ D * ((spinCount s S : ℤ) : ℝ) := fun s => by
      rw [← hc, Finset.mul_sum]
      refine Finset.sum_le_sum fun i _ => mul_le_mul (by linarith [(hU i i.2).2]) ?_ (mul_nonneg (b _ _).1 (b _ _).1) hD
      cases s
      · exact mul_le_of_le_one_right (b _ _).1 (b _ _).2
      · exact mul_le_of_le_one_left (b _ _).1 (b _ _).2
    have k1 := key false
    have k2 := key true
    rw [c1] at k1
    rw [c2] at k2
    push_cast at k1 k2
    rcases min_cases p q with ⟨hm, -⟩ | ⟨hm, -⟩ <;> rw [hm] <;> assumption
  have := levels_shift (a := a.withU U) (HamArgs.withU_valid ha U) hw h hI hk hy (fun x hx => quad_between (H := a.hamU U) hd hx)
  exact ⟨by linarith [this.1], this.2⟩

/-- **C197** If the on-site energies are raised by at least `lo` and at most `hi`, the energies of the sector `(p, q)` rise by at least `lo` and at most `hi` for each of its electrons. -/
theorem C197_levels {H : ℕ → ℕ → ℕ → ℝ} (ha : a.Valid) (ha' : ({ a with H := H } : HamArgs).Valid) (hw : a.n ≤ w) (hw' : a.n ≤ w') (hs : ∀ s i j, i < a.n → j < a.n → i ≠ j → H s i j = a.H s i j)
    {lo hi : ℝ} (hd : ∀ s i, i < a.n → a.H s i i + lo ≤ H s i i ∧ H s i i ≤ a.H s i i + hi) (h : BuildEspace w a none (.ok (es, egs))) (h' : BuildEspace w' { a with H := H } none (.ok (es', egs')))
    (hI : ((p, q), I) ∈ es) (hJ : ((p, q), J) ∈ es') (hk : k < I.eigvals.length) (hk' : k < J.eigvals.length) :
    I.eigvals[k] + lo * (p + q) ≤ J.eigvals[k] ∧ J.eigvals[k] ≤ I.eigvals[k] + hi * (p + q) := by
  have hy : ∀ E, J.eigvals[k] ≤ E ↔ LowSpace a.n p q (a.hamH H a.mu) (k + 1) E := C197_minmax (a := { a with H := H }) ha' hw' h' hJ hk'
  rw [withH_ham a.mu (fun s i j hij => hs _ i j i.2 j.2 fun hc => hij (Fin.ext hc))] at hy
  refine levels_shift ha hw h hI hk hy fun x hx => quad_between (fun S c1 c2 => ?_) hx
  have hc : ∀ s, ∑ i : Fin a.n, (if orb s i ∈ S then 1 else 0 : ℝ) = ((spinCount s S : ℤ) : ℝ) := fun s => by
    rw [spinCount_eq, Finset.sum_boole]; norm_cast
  have b : ∀ s (i : Fin a.n), (0 : ℝ) ≤ (if orb s i ∈ S then 1 else 0) := fun s i => by split_ifs <;> norm_num
  have key : ∀ s : Bool, lo * ((spinCount s S : ℤ) : ℝ) ≤ ∑ i : Fin a.n, (H (if s then 1 else 0) i i + a.mu - (a.H (if s then 1 else 0) i i + a.mu)) * (if orb s i ∈ S then 1 else 0) ∧
      ∑ i : Fin a.n, (H (if s then 1 else 0) i i + a.mu - (a.H (if s then 1 else 0) i i + a.mu)) * (if orb s i ∈ S then 1 else 0) ≤ hi * ((spinCount s S : ℤ) : ℝ) := fun s => by
    rw [← hc, Finset.mul_sum, Finset.mul_sum]
    exact ⟨Finset.sum_le_sum fun i _ => mul_le_mul_of_nonneg_right (by linarith [(hd (if s then 1 else 0) i i.2).1]) (b _ _),
      Finset.sum_le_sum fun i _ => mul_le_mul_of_nonneg_right (by linarith [(hd (if s then 1 else 0) i i.2).2]) (b _ _)⟩
  have k1 := key false
  have k2 := key true
  rw [c1, Int.cast_natCast] at k1
  rw [c2, Int.cast_natCast] at k2
  rw [Fintype.sum_bool]
  constructor <;> linarith [k1.1, k1.2, k2.1, k2.2]

/-- **C197** A run that asks for some of the energies lists the first of those that a full run lists, sector by sector, so all of the above holds for it too. -/
theorem C197_truncated (ha : a.Valid) (hw : a.n ≤ w) {neig : List ℕ} (h : BuildEspace w a (some neig) (.ok (es, egs))) (h' : BuildEspace w a none (.ok (es', egs')))
    (hI : ((p, q), I) ∈ es) (hJ : ((p, q), J) ∈ es') : I.eigvals = J.eigvals.take (neig[p * (a.n + 1) + q]?.getD 0) := by
  obtain ⟨l, hl⟩ := buildEspace_none_some h'
  obtain ⟨-, h1, -⟩ := C28_build_espace ha hw neig es egs h
  obtain ⟨-, h2, -⟩ := C28_build_espace ha hw l es' egs' hl
  obtain ⟨-, -, ⟨D, w1, v1, f1, f2, f3, -⟩, -⟩ := h1 _ hI
  obtain ⟨-, d2, ⟨D', w2, v2, g1, g2, g3, -⟩, -⟩ := h2 _ hJ
  obtain ⟨e1, b1, b2⟩ := sctAt_of_mem (buildEspace_eigen ha hw h') hJ
  obtain ⟨-, -, -, -, -, -, -, hlen⟩ := (buildEspace_eigen ha hw h').toCompleteEspace.at b1 b2
  obtain ⟨e2, e3⟩ := f1.agree g1
  have e4 := f2.unique g2 e2 e3
  have e5 : J.eigvals = w2 := by
    rw [show J.eigvals = _ from g3]
    refine List.take_of_length_le ?_
    by_contra hc
    rw [e1, show J.eigvals = _ from g3, List.length_take] at hlen
    have := g1.size
    rw [← g2.wlen] at this
    rw [show sectorStates w a.n p = gs w a.n p from rfl, show sectorStates w a.n q = gs w a.n q from rfl, gs_length b1, gs_length b2] at this
    omega
  rw [e5, ← e4]
  exact f3

/-- The hypotheses hold for the four levels of two sites with one electron of each spin, when the hopping or the repulsion is changed. -/
example : weakArgs.Valid ∧ ({ weakArgs with H := fun _ i j => if i = j then 0 else 1 } : HamArgs).Valid ∧ (∃ es egs I, BuildEspace 64 weakArgs none (.ok (es, egs)) ∧ ((1, 1), I) ∈ es ∧ I.eigvals.length = 4) ∧
    (∃ es egs I, BuildEspace 64 { weakArgs with H := fun _ i j => if i = j then 0 else 1 } none (.ok (es, egs)) ∧ ((1, 1), I) ∈ es ∧ I.eigvals.length = 4) ∧
    (∀ U, ∃ es egs I, BuildEspace 64 (weakArgs.withU U) none (.ok (es, egs)) ∧ ((1, 1), I) ∈ es ∧ I.eigvals.length = 4) ∧
    ∃ es egs I, BuildEspace 64 weakArgs (some (List.replicate 9 1)) (.ok (es, egs)) ∧ ((1, 1), I) ∈ es := by
  have key : ∀ b : HamArgs, b.Valid → b.n = 2 → ∃ es egs I, BuildEspace 64 b none (.ok (es, egs)) ∧ ((1, 1), I) ∈ es ∧ I.eigvals.length = 4 := fun b hb hn => by
    obtain ⟨⟨⟨es, egs⟩, h⟩, -⟩ := buildEspace_none_ok hb (w := 64) (by omega)
    obtain ⟨-, -, hm, -, -, -, -, hlen⟩ := (buildEspace_eigen hb (by omega) h).toCompleteEspace.at (u := 1) (d := 1) (by omega) (by omega)
    exact ⟨es, egs, _, h, hm, by rw [hlen, hn]; rfl⟩
  have hv : ({ weakArgs with H := fun _ i j => if i = j then 0 else 1 } : HamArgs).Valid :=
    ⟨weakArgs_valid.two_le, weakArgs_valid.le, weakArgs_valid.hU, fun s i j _ _ => if_congr eq_comm rfl rfl, weakArgs_valid.symmX, weakArgs_valid.symmP, weakArgs_valid.hJ⟩
  refine ⟨weakArgs_valid, hv, key _ weakArgs_valid rfl, key _ hv rfl, fun U => key _ (HamArgs.withU_valid weakArgs_valid U) rfl, ?_⟩
  obtain ⟨⟨⟨es, egs⟩, h⟩, -⟩ := C25_build_espace_partial weakArgs_valid (w := 64) (by simp [weakArgs]) (List.replicate 9 1) ⟨by simp [weakArgs], fun p q hp hq => by
    have h1 := Nat.choose_pos hp
    have h2 := Nat.choose_pos hq
    refine le_trans ?_ (Nat.mul_pos h1 h2)
    rw [List.getElem?_replicate]; split_ifs <;> simp⟩
  obtain ⟨h1, -⟩ := C28_build_espace weakArgs_valid (by simp [weakArgs]) _ es egs h
  have : ((1, 1) : ℕ × ℕ) ∈ es.map Prod.fst := by rw [h1]; decide
  obtain ⟨⟨_, I⟩, hp, rfl⟩ := List.mem_map.mp this
  exact ⟨es, egs, I, h, hp⟩

end Edpyt
