import Verif.Model.GramSchmidt
import Mathlib.LinearAlgebra.LinearIndependent.Lemmas
import Mathlib.LinearAlgebra.Matrix.DotProduct
import Mathlib.Analysis.Complex.Basic
import Mathlib.Analysis.Real.Sqrt
/-!
Theorems about `gram_schmidt_rows` of `edpyt/lanczos.py`.
-/
namespace Edpyt

variable {m : ℕ}

theorem rowNorm_sq (y : Fin m → ℝ) : rowNorm y ^ 2 = dotProduct y y := by
  unfold rowNorm dotProduct
  rw [Real.sq_sqrt (Finset.sum_nonneg fun _ _ => by positivity)]
  exact Finset.sum_congr rfl fun j _ => by rw [Real.norm_eq_abs, sq_abs, sq]

theorem list_sum_dot (L : List (Fin m → ℝ)) (z : Fin m → ℝ) : dotProduct (fun j => (L.map fun p => p j).sum) z = (L.map fun p => dotProduct p z).sum := by
  induction L with
  | nil => simp [dotProduct]
  | cons p L ih =>
    simp only [List.map_cons, List.sum_cons]
    rw [← ih]
    simp only [dotProduct, add_mul, Finset.sum_add_distrib]

theorem list_sum_mem {S : Submodule ℝ (Fin m → ℝ)} (L : List (Fin m → ℝ)) (h : ∀ p ∈ L, p ∈ S) : (fun j => (L.map fun p => p j).sum) ∈ S := by
  induction L with
  | nil => exact S.zero_mem
  | cons p L ih =>
    have : (fun j => ((p :: L).map fun p => p j).sum) = p + fun j => (L.map fun p => p j).sum := by funext j; simp
    rw [this]
    exact S.add_mem (h p (by simp)) (ih fun q hq => h q (by simp [hq]))

/-- State of the loop: the vectors found are orthogonal, not zero, and span what the vectors read so far span. -/
structure GsInv (Z Y : List (Fin m → ℝ)) : Prop where
  len : Y.length = Z.length
  ne : ∀ y ∈ Y, y ≠ 0
  orth : Y.Pairwise fun a b => dotProduct a b = 0
  span : ∀ i, Submodule.span ℝ {y | y ∈ Y.take i} = Submodule.span ℝ {z | z ∈ Z.take i}

theorem pairwise_single {y : Fin m → ℝ} : ∀ {Y : List (Fin m → ℝ)}, Y.Pairwise (fun a b => dotProduct a b = 0) → y ∈ Y → ∀ c : (Fin m → ℝ) → ℝ,
    Y.Nodup → (Y.map fun p => c p * dotProduct p y).sum = c y * dotProduct y y := by
  intro Y
  induction Y with
  | nil => intro _ h; simp at h
  | cons q Y ih =>
    intro hp hy c hn
    rw [List.pairwise_cons] at hp
    rw [List.nodup_cons] at hn
    rw [List.map_cons, List.sum_cons]
    rcases List.mem_cons.mp hy with rfl | hy
    · rw [show (Y.map fun p => c p * dotProduct p y) = Y.map fun _ => 0 from List.map_congr_left fun p hpY => by
        rw [dotProduct_comm, hp.1 p hpY, mul_zero]]
      simp
    · rw [hp.1 y hy, mul_zero, zero_add, ih hp.2 hy c hn.2]

theorem nodup_of_orth {Y : List (Fin m → ℝ)} (h : Y.Pairwise fun a b => dotProduct a b = 0) (hne : ∀ y ∈ Y, y ≠ 0) : Y.Nodup := by
  refine List.Pairwise.imp_of_mem (fun ha _ hab => ?_) h
  rintro rfl
  exact hne _ ha (dotProduct_self_eq_zero.mp hab)

theorem gsStep_inv {Z Y : List (Fin m → ℝ)} {x : Fin m → ℝ} (h : GsInv Z Y) (hx : x ∉ Submodule.span ℝ {z | z ∈ Z}) : GsInv (Z ++ [x]) (gsStep Y x) := by
  have hspan : Submodule.span ℝ {y | y ∈ Y} = Submodule.span ℝ {z | z ∈ Z} := by
    have := h.span Y.length
    rwa [List.take_length, h.len, List.take_length] at this
  have hn := nodup_of_orth h.orth h.ne
  set P : List (Fin m → ℝ) := Y.map fun y j => (∑ i, x i * y i) / ((rowNorm y ^ 2 : ℝ)) * y j with hP
  set s : Fin m → ℝ := fun j => (P.map fun p => p j).sum with hs
  have hstep : gsStep Y x = Y ++ [x - s] := rfl
  have hsm : s ∈ Submodule.span ℝ {y | y ∈ Y} := list_sum_mem P fun p hp => by
    rw [hP, List.mem_map] at hp
    obtain ⟨y, hy, rfl⟩ := hp
    exact Submodule.smul_mem _ ((∑ i, x i * y i) / rowNorm y ^ 2) (Submodule.subset_span hy)
  have horth : ∀ y ∈ Y, dotProduct y (x - s) = 0 := fun y hy => by
    have hyy : dotProduct y y ≠ 0 := fun h0 => h.ne y hy (dotProduct_self_eq_zero.mp h0)
    have h1 : dotProduct s y = dotProduct x y := by
      rw [hs, list_sum_dot, hP, List.map_map]
      have : (fun p => dotProduct p y) ∘ (fun (y : Fin m → ℝ) j => (∑ i, x i * y i) / rowNorm y ^ 2 * y j) = fun p => (dotProduct x p / dotProduct p p) * dotProduct p y := by
        funext p
        rw [Function.comp, rowNorm_sq]
        simp only [dotProduct, Finset.mul_sum, mul_assoc]
      rw [this, pairwise_single h.orth hy (fun p => dotProduct x p / dotProduct p p) hn]
      field_simp
    rw [dotProduct_sub, dotProduct_comm y x, dotProduct_comm y s, h1, sub_self]
  have hne : x - s ≠ 0 := fun h0 => hx (by rw [← hspan, sub_eq_zero.mp h0]; exact hsm)
  rw [hstep]
  refine ⟨by simp [h.len], fun y hy => ?_, ?_, fun i => ?_⟩
  · rcases List.mem_append.mp hy with hy | hy
    · exact h.ne y hy
    · rw [List.mem_singleton.mp hy]; exact hne
  · rw [List.pairwise_append]
    exact ⟨h.orth, List.pairwise_singleton _ _, fun a ha b hb => by rw [List.mem_singleton.mp hb]; exact horth a ha⟩
  · by_cases hi : i ≤ Y.length
    · rw [List.take_append_of_le_length hi, List.take_append_of_le_length (h.len ▸ hi)]
      exact h.span i
    · rw [List.take_of_length_le (by simp; omega), List.take_of_length_le (by simp [← h.len]; omega)]
      have e1 : ∀ (L : List (Fin m → ℝ)) v, {y | y ∈ L ++ [v]} = insert v {y | y ∈ L} := fun L v => by ext y; simp [or_comm]
      rw [e1, e1, Submodule.span_insert, Submodule.span_insert, hspan]
      apply le_antisymm
      · refine sup_le ?_ le_sup_right
        rw [Submodule.span_singleton_le_iff_mem]
        exact Submodule.sub_mem _ (Submodule.mem_sup_left (Submodule.mem_span_singleton_self x)) (Submodule.mem_sup_right (hspan ▸ hsm))
      · refine sup_le ?_ le_sup_right
        rw [Submodule.span_singleton_le_iff_mem]
        have : x = (x - s) + s := by abel
        rw [this]
        nth_rewrite 1 [← this]
        exact Submodule.add_mem _ (Submodule.mem_sup_left (by simpa using Submodule.mem_span_singleton_self (x - s))) (Submodule.mem_sup_right (hspan ▸ hsm))

theorem gs_fold : ∀ (R Z Y : List (Fin m → ℝ)), GsInv Z Y → (∀ i (hi : i < R.length), R[i] ∉ Submodule.span ℝ {z | z ∈ Z ++ R.take i}) → GsInv (Z ++ R) (R.foldl gsStep Y) := by
  intro R
  induction R with
  | nil => intro Z Y h _; simpa using h
  | cons x R ih =>
    intro Z Y h hR
    have h1 := gsStep_inv h (by simpa using hR 0 (by simp))
    have := ih (Z ++ [x]) (gsStep Y x) h1 fun i hi => by
      have := hR (i + 1) (by simpa using hi)
      simpa using this
    simpa using this

theorem notMem_span_take {X : List (Fin m → ℝ)} (hX : LinearIndependent ℝ X.get) (i : ℕ) (hi : i < X.length) : X[i] ∉ Submodule.span ℝ {z | z ∈ X.take i} := by
  have h := linearIndependent_iff_notMem_span.mp hX ⟨i, hi⟩
  refine fun hmem => h (Submodule.span_mono ?_ hmem)
  intro z hz
  obtain ⟨k, hk, rfl⟩ := List.mem_take_iff_getElem.mp hz
  refine ⟨⟨k, by omega⟩, ⟨trivial, ?_⟩, rfl⟩
  simp only [Set.mem_singleton_iff, Fin.mk.injEq]
  omega

theorem gs_inv {X : List (Fin m → ℝ)} (hX : LinearIndependent ℝ X.get) : GsInv X (gramSchmidtRows X false) := by
  cases X with
  | nil => exact ⟨rfl, by simp [gramSchmidtRows], by simp [gramSchmidtRows], by simp [gramSchmidtRows]⟩
  | cons x X =>
    have h0 : GsInv [x] [x] := ⟨rfl, fun y hy => by
      rw [List.mem_singleton.mp hy]
      exact hX.ne_zero ⟨0, by simp⟩, List.pairwise_singleton _ _, fun _ => rfl⟩
    have := gs_fold X [x] [x] h0 fun i hi => by
      have := notMem_span_take hX (i + 1) (by simpa using hi)
      simpa using this
    simpa [gramSchmidtRows] using this

/-- **C70, partial** (real matrices). For every list of independent rows, the rows that `gram_schmidt_rows` returns without normalisation are as
many, orthogonal to each other, not zero, and each first `i` of them span the same space as the first `i` rows given. -/
theorem C70_orthogonal_partial (X : List (Fin m → ℝ)) (hX : LinearIndependent ℝ X.get) :
    let Y := gramSchmidtRows X false
    Y.length = X.length ∧ Y.Pairwise (fun a b => ∑ j, a j * b j = 0) ∧ (∀ y ∈ Y, y ≠ 0) ∧
      ∀ i, Submodule.span ℝ {y | y ∈ Y.take i} = Submodule.span ℝ {x | x ∈ X.take i} := by
  have h := gs_inv hX
  exact ⟨h.len, h.orth, h.ne, h.span⟩

/-- **C70, partial** (real matrices). With normalisation the rows are orthonormal and span the same spaces. -/
theorem C70_orthonormal_partial (X : List (Fin m → ℝ)) (hX : LinearIndependent ℝ X.get) :
    let Y := gramSchmidtRows X true
    Y.length = X.length ∧ Y.Pairwise (fun a b => ∑ j, a j * b j = 0) ∧ (∀ y ∈ Y, ∑ j, y j * y j = 1) ∧
      ∀ i, Submodule.span ℝ {y | y ∈ Y.take i} = Submodule.span ℝ {x | x ∈ X.take i} := by
  have h := gs_inv hX
  set Y0 := gramSchmidtRows X false
  have hY : gramSchmidtRows X true = Y0.map fun y => (1 / rowNorm y) • y := rfl
  have hpos : ∀ y ∈ Y0, 0 < rowNorm y := fun y hy => by
    have h1 : rowNorm y ^ 2 ≠ 0 := by rw [rowNorm_sq]; exact fun h0 => h.ne y hy (dotProduct_self_eq_zero.mp h0)
    exact lt_of_le_of_ne (Real.sqrt_nonneg _) fun h0 => h1 (by rw [← h0]; norm_num)
  simp only [hY]
  refine ⟨by simp [h.len], ?_, fun y hy => ?_, fun i => ?_⟩
  · rw [List.pairwise_map]
    refine h.orth.imp fun {a b} hab => ?_
    change dotProduct _ _ = 0
    rw [smul_dotProduct, dotProduct_smul, hab]
    simp
  · obtain ⟨y, hy0, rfl⟩ := List.mem_map.mp hy
    change dotProduct _ _ = 1
    have := hpos y hy0
    rw [smul_dotProduct, dotProduct_smul, ← rowNorm_sq, smul_eq_mul, smul_eq_mul]
    field_simp
  · rw [← h.span i, ← List.map_take]
    apply le_antisymm
    · rw [Submodule.span_le]
      rintro z hz
      obtain ⟨y, hy, rfl⟩ := List.mem_map.mp hz
      exact Submodule.smul_mem _ _ (Submodule.subset_span hy)
    · rw [Submodule.span_le]
      rintro y hy
      have hp := hpos y (List.mem_of_mem_take hy)
      have : y = rowNorm y • ((1 / rowNorm y) • y) := by
        rw [smul_smul, mul_one_div_cancel hp.ne', one_smul]
      rw [this]
      exact Submodule.smul_mem _ _ (Submodule.subset_span (List.mem_map.mpr ⟨y, hy, rfl⟩))

/-- **C70 is false for complex matrices**: the products are taken without conjugation. The rows `(1, i)` and `(0, 1)` are independent, and what is
returned for them is not orthogonal. -/
theorem C70_refuted : ∃ (x y a b : Fin 2 → ℂ), LinearIndependent ℂ ![x, y] ∧ gramSchmidtRows [x, y] false = [a, b] ∧ ∑ j, (starRingEnd ℂ) (a j) * b j ≠ 0 := by
  have hn : rowNorm (![1, Complex.I] : Fin 2 → ℂ) ^ 2 = 2 := by
    unfold rowNorm
    rw [Real.sq_sqrt (Finset.sum_nonneg fun _ _ => by positivity)]
    simp [Fin.sum_univ_two]
    norm_num
  refine ⟨![1, Complex.I], ![0, 1], ![1, Complex.I], fun j => ![0, 1] j - (Complex.I / 2 * ![1, Complex.I] j), ?_, ?_, ?_⟩
  · rw [LinearIndependent.pair_iff]
    intro s t h
    have h0 := congrFun h 0
    have h1 := congrFun h 1
    simp at h0 h1
    subst h0
    simpa using h1
  · simp only [gramSchmidtRows, gsStep, List.take, List.drop, List.foldl, List.map, List.sum_cons, List.sum_nil, Bool.false_eq_true, if_false, List.cons_append, List.nil_append, hn]
    simp [Fin.sum_univ_two]
  · simp [Fin.sum_univ_two]
    intro h
    have := congrArg Complex.im h
    simp at this
    norm_num at this

/-- Non-vacuity: two independent rows that are not orthogonal. -/
example : LinearIndependent ℝ ([![1, 1], ![0, 1]] : List (Fin 2 → ℝ)).get := by
  have : ([![1, 1], ![0, 1]] : List (Fin 2 → ℝ)).get = ![![1, 1], ![0, 1]] := by
    funext i
    fin_cases i <;> rfl
  rw [this, LinearIndependent.pair_iff]
  intro s t h
  have h0 := congrFun h 0
  have h1 := congrFun h 1
  simp at h0 h1
  subst h0
  simpa using h1

end Edpyt
