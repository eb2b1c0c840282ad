import Verif.Model.SqTunneling
import Verif.Proof.Py
/-!
Lemmas on matrices assembled from flows.
-/
namespace Edpyt

theorem addFlow_zero (W : ℕ → ℕ → ℝ) (f i : ℕ) : addFlow W f i 0 = W := by
  funext a b; simp [addFlow]

theorem addFlow_off {W : ℕ → ℕ → ℝ} {f i : ℕ} (h : i ≠ f) (γ : ℝ) {a b : ℕ} (hab : a ≠ b) :
    addFlow W f i γ a b = W a b + if f = a ∧ i = b then γ else 0 := by
  unfold addFlow
  by_cases h1 : a = f ∧ b = i
  · obtain ⟨rfl, rfl⟩ := h1
    simp [hab]
  · have h2 : ¬ (f = a ∧ i = b) := fun h => h1 ⟨h.1.symm, h.2.symm⟩
    have h3 : ¬ (a = i ∧ b = i) := fun h => hab (h.1.trans h.2.symm)
    simp only [if_neg h1, if_neg h2, if_neg h3, add_zero]

theorem addFlow_diag {W : ℕ → ℕ → ℝ} {f i : ℕ} (h : i ≠ f) (γ : ℝ) (a : ℕ) :
    addFlow W f i γ a a = W a a - if i = a then γ else 0 := by
  unfold addFlow
  by_cases h1 : i = a
  · subst h1; simp [h]
  · have h2 : ¬ (a = f ∧ a = i) := fun h => h1 h.2.symm
    have h3 : ¬ (a = i ∧ a = i) := fun h => h1 h.1.symm
    simp only [if_neg h1, if_neg h2, if_neg h3, sub_zero]

/-- Add the flow `g p` from `p.1` to `p.2` for each pair of different indices in a list. -/
noncomputable def flows (g : ℕ × ℕ → ℝ) (L : List (ℕ × ℕ)) (W : ℕ → ℕ → ℝ) : ℕ → ℕ → ℝ :=
  L.foldl (fun W p => if p.1 ≠ p.2 then addFlow W p.2 p.1 (g p) else W) W

theorem flows_off (g : ℕ × ℕ → ℝ) (L : List (ℕ × ℕ)) (W : ℕ → ℕ → ℝ) {a b : ℕ} (hab : a ≠ b) :
    flows g L W a b = W a b + (L.map fun p => if p.1 ≠ p.2 ∧ p.2 = a ∧ p.1 = b then g p else 0).sum := by
  unfold flows
  induction L generalizing W with
  | nil => simp
  | cons p L ih =>
    rw [List.foldl_cons, ih, List.map_cons, List.sum_cons]
    by_cases h : p.1 = p.2
    · simp [h]
    · rw [if_pos h, addFlow_off h _ hab]
      simp only [ne_eq, h, not_false_eq_true, true_and]
      ring

theorem flows_diag (g : ℕ × ℕ → ℝ) (L : List (ℕ × ℕ)) (W : ℕ → ℕ → ℝ) (a : ℕ) :
    flows g L W a a = W a a - (L.map fun p => if p.1 ≠ p.2 ∧ p.1 = a then g p else 0).sum := by
  unfold flows
  induction L generalizing W with
  | nil => simp
  | cons p L ih =>
    rw [List.foldl_cons, ih, List.map_cons, List.sum_cons]
    by_cases h : p.1 = p.2
    · simp [h]
    · rw [if_pos h, addFlow_diag h]
      simp only [ne_eq, h, not_false_eq_true, true_and]
      ring

theorem flows_ndindex_off (g : ℕ × ℕ → ℝ) {sz : ℕ} (W : ℕ → ℕ → ℝ) {a b : ℕ} (ha : a < sz) (hb : b < sz) (hab : a ≠ b) :
    flows g (ndindex2 sz sz) W a b = W a b + g (b, a) := by
  rw [flows_off g _ W hab, sum_ndindex2]
  congr 1
  rw [Finset.sum_eq_single_of_mem b (Finset.mem_range.mpr hb), Finset.sum_eq_single_of_mem a (Finset.mem_range.mpr ha)]
  · simp [Ne.symm hab]
  · intro j _ hj; simp [hj]
  · intro i _ hi; apply Finset.sum_eq_zero; intro j _; simp [hi]

theorem flows_ndindex_diag (g : ℕ × ℕ → ℝ) {sz : ℕ} (W : ℕ → ℕ → ℝ) {a : ℕ} (ha : a < sz) :
    flows g (ndindex2 sz sz) W a a = W a a - ∑ f ∈ (Finset.range sz).erase a, g (a, f) := by
  rw [flows_diag, sum_ndindex2]
  congr 1
  rw [Finset.sum_eq_single_of_mem a (Finset.mem_range.mpr ha)]
  · rw [← Finset.add_sum_erase _ _ (Finset.mem_range.mpr ha)]
    simp only [ne_eq, not_true_eq_false, false_and, if_false, zero_add]
    refine Finset.sum_congr rfl fun f hf => ?_
    rw [if_pos ⟨(Finset.ne_of_mem_erase hf).symm, trivial⟩]
  · intro i _ hi; apply Finset.sum_eq_zero; intro j _; simp [hi]

/-- The flow from `I` to `F` through one lead, zero if the code skips it. -/
noncomputable def sqFlow (gd : GfDict) (beta : ℝ) (mu : List ℝ) (A : List (List ℝ)) (lead : ℕ) (p : ℕ × ℕ) : ℝ :=
  match (finalIds gd)[p.2]?, (finalIds gd)[p.1]? with
  | some F, some I => (sqGamma gd beta mu A lead F I).getD 0
  | _, _ => 0

theorem sqRateStep_eq (gd : GfDict) (beta : ℝ) (mu : List ℝ) (A : List (List ℝ)) (lead : ℕ) (W : ℕ → ℕ → ℝ) (p : ℕ × ℕ) :
    sqRateStep gd beta mu A lead W p = if p.1 ≠ p.2 then addFlow W p.2 p.1 (sqFlow gd beta mu A lead p) else W := by
  unfold sqRateStep sqFlow
  by_cases h : p.1 = p.2
  · simp [h]
  · simp only [ne_eq, h, not_false_eq_true, if_true]
    cases h2 : (finalIds gd)[p.2]? with
    | none => simp [addFlow_zero]
    | some F =>
      cases h1 : (finalIds gd)[p.1]? with
      | none => simp [addFlow_zero]
      | some I =>
        cases h3 : sqGamma gd beta mu A lead F I with
        | none => simp [addFlow_zero, h3]
        | some γ => simp [h3]

theorem sqRate_eq (gd : GfDict) (beta : ℝ) (mu : List ℝ) (A : List (List ℝ)) :
    sqRate gd beta mu A = flows (sqFlow gd beta mu A 1) (ndindex2 (finalIds gd).length (finalIds gd).length)
      (flows (sqFlow gd beta mu A 0) (ndindex2 (finalIds gd).length (finalIds gd).length) fun _ _ => 0) := by
  unfold sqRate flows
  have h : ∀ lead, sqRateStep gd beta mu A lead = fun W p => if p.1 ≠ p.2 then addFlow W p.2 p.1 (sqFlow gd beta mu A lead p) else W :=
    fun lead => by funext W p; exact sqRateStep_eq gd beta mu A lead W p
  simp only [List.range_succ, List.range_zero, List.nil_append, List.foldl_append, List.foldl_cons, List.foldl_nil, h]

theorem sqRate_off (gd : GfDict) (beta : ℝ) (mu : List ℝ) (A : List (List ℝ)) {f i : ℕ} (hf : f < (finalIds gd).length)
    (hi : i < (finalIds gd).length) (h : f ≠ i) :
    sqRate gd beta mu A f i = sqFlow gd beta mu A 0 (i, f) + sqFlow gd beta mu A 1 (i, f) := by
  rw [sqRate_eq, flows_ndindex_off _ _ hf hi h, flows_ndindex_off _ _ hf hi h, zero_add]

theorem sqRate_diag (gd : GfDict) (beta : ℝ) (mu : List ℝ) (A : List (List ℝ)) {i : ℕ} (hi : i < (finalIds gd).length) :
    sqRate gd beta mu A i i = -∑ f ∈ (Finset.range (finalIds gd).length).erase i, (sqFlow gd beta mu A 0 (i, f) + sqFlow gd beta mu A 1 (i, f)) := by
  rw [sqRate_eq, flows_ndindex_diag _ _ hi, flows_ndindex_diag _ _ hi, Finset.sum_add_distrib]
  ring

theorem fermi_pos (E beta : ℝ) : 0 < fermi E beta := by
  unfold fermi; positivity

theorem sqFlow_nonneg (gd : GfDict) (beta : ℝ) (mu : List ℝ) (A : List (List ℝ)) (lead : ℕ) (p : ℕ × ℕ) : 0 ≤ sqFlow gd beta mu A lead p := by
  have hg : ∀ F I γ, sqGamma gd beta mu A lead F I = some γ → 0 ≤ γ := by
    intro F I γ h
    unfold sqGamma at h
    simp only [bind, Except.bind, pure, Except.pure, GfT.call, dotArr] at h
    revert h
    repeat' split
    all_goals intro h
    all_goals simp only [Except.toOption, reduceCtorEq, Option.some.injEq] at h
    all_goals first | (subst h; exact mul_nonneg (sq_nonneg _) (by first | exact (fermi_pos _ _).le | (split <;> exact (fermi_pos _ _).le))) | simp_all
  unfold sqFlow
  split
  · rename_i F I _ _
    cases h : sqGamma gd beta mu A lead F I with
    | none => simp
    | some γ => simpa using hg F I γ h
  · exact le_rfl

end Edpyt
