import Verif.Props.NTransitions
/-!
C79: the rate matrix and the transition matrix have the same rows and columns.
-/
namespace Edpyt
open Spec

theorem leN_total (a b : NId) : (leN a b || leN b a) = true := by
  unfold leN
  simp only [Bool.or_eq_true, decide_eq_true_eq]
  omega

theorem leN_trans (a b c : NId) (h1 : leN a b = true) (h2 : leN b c = true) : leN a c = true := by
  unfold leN at *
  simp only [decide_eq_true_eq] at *
  omega

theorem leN_antisymm {a b : NId} (h1 : leN a b = true) (h2 : leN b a = true) : a = b := by
  unfold leN at *
  simp only [decide_eq_true_eq] at *
  exact Prod.ext (by omega) (by omega)

theorem matrixIds_sorted (D : List ((NId × NId) × ℝ)) : (matrixIds D).Pairwise fun a b => leN a b = true := by
  unfold matrixIds uniqueSorted
  exact List.pairwise_mergeSort (fun a b c => leN_trans a b c) leN_total _

/-- The list of states is determined by its members. -/
theorem matrixIds_ext {D D' : List ((NId × NId) × ℝ)} (h : ∀ x, x ∈ matrixIds D ↔ x ∈ matrixIds D') : matrixIds D = matrixIds D' := by
  refine List.Perm.eq_of_pairwise (le := fun a b => leN a b = true) (fun a b _ _ h1 h2 => leN_antisymm h1 h2) (matrixIds_sorted D) (matrixIds_sorted D') ?_
  exact (List.perm_ext_iff_of_nodup (matrixIds_nodup D) (matrixIds_nodup D')).mpr h

theorem mem_matrixIds_keys {D : List ((NId × NId) × ℝ)} {x : NId} : x ∈ matrixIds D ↔ ∃ k ∈ D.map Prod.fst, k.1 = x ∨ k.2 = x := by
  rw [mem_matrixIds]
  constructor
  · rintro (⟨p, hp, h⟩ | ⟨p, hp, h⟩)
    · exact ⟨p.1, List.mem_map.mpr ⟨p, hp, rfl⟩, .inl h⟩
    · exact ⟨p.1, List.mem_map.mpr ⟨p, hp, rfl⟩, .inr h⟩
  · rintro ⟨k, hk, h⟩
    obtain ⟨p, hp, rfl⟩ := List.mem_map.mp hk
    rcases h with h | h
    · exact .inl ⟨p, hp, h⟩
    · exact .inr ⟨p, hp, h⟩

theorem mem_matrixIds_dictAdd {D : List ((NId × NId) × ℝ)} {k : NId × NId} {v : ℝ} {x : NId} :
    x ∈ matrixIds (dictAdd D k v) ↔ (k.1 = x ∨ k.2 = x) ∨ x ∈ matrixIds D := by
  rw [mem_matrixIds_keys, mem_matrixIds_keys]
  simp only [keys_dictAdd]
  constructor
  · rintro ⟨q, rfl | hq, h⟩
    · exact .inl h
    · exact .inr ⟨q, hq, h⟩
  · rintro (h | ⟨q, hq, h⟩)
    · exact ⟨k, .inl rfl, h⟩
    · exact ⟨q, .inr hq, h⟩

theorem mem_matrixIds_addRate {W : List ((NId × NId) × ℝ)} {k : NId × NId} (hk : k.1 ≠ k.2) {γ : ℝ} {x : NId} :
    x ∈ matrixIds (addRate W k γ) ↔ (k.1 = x ∨ k.2 = x) ∨ x ∈ matrixIds W := by
  unfold addRate
  rw [if_pos hk, mem_matrixIds_dictAdd, mem_matrixIds_dictAdd]
  simp only
  tauto

/-- **C79** for `sqtnl`: if no element joins a state with itself, which holds for all elements of the sequential code, the two matrices
have the same states as rows and columns, in the same order. -/
theorem C79_sqtnl {gd : List ((NId × NId) × List NGf)} (hgd : ∀ p ∈ gd, p.1.1 ≠ p.1.2) {beta : ℝ} {mu : List ℝ} {A : List (List ℝ)} {inject : ℤ}
    {st : NState} (h : sqtnlDicts gd beta mu A inject = .ok st) : matrixIds st.W = matrixIds st.T := by
  refine matrixIds_ext fun x => ?_
  unfold sqtnlDicts at h
  cases h0 : checkElements gd with
  | error e => simp [h0, bind, Except.bind] at h
  | ok u =>
    rw [h0] at h
    refine forM'_inv (fun st => x ∈ matrixIds st.W ↔ x ∈ matrixIds st.T) (fun s p s' hp hb hP => ?_) h Iff.rfl
    unfold sqtnlStep at hb
    cases h1 : sqtnlGamma p.2 beta mu A 0 with
    | error e => simp [h1, bind, Except.bind] at hb
    | ok g0 =>
      cases h2 : sqtnlGamma p.2 beta mu A 1 with
      | error e => simp [h1, h2, bind, Except.bind] at hb
      | ok g1 =>
        cases h3 : getItem [g0, g1] inject with
        | error e => simp [h1, h2, h3, bind, Except.bind] at hb
        | ok gi =>
          simp only [h1, h2, h3, bind, Except.bind, pure, Except.pure] at hb
          split at hb
          · simp at hb
          · simp only [Except.ok.injEq] at hb
            rw [← hb, mem_matrixIds_addRate (hgd p hp), mem_matrixIds_dictAdd, hP]

/-- **C79** end to end for `sqtnl`: for every complete spectrum. -/
theorem C79_sqtnl_from_spectrum {junk n N : ℕ} (hn : 2 * n ≤ 32) {es : Espace ℕ} (hes : NEspaceOk n es) (hN : N ≤ 2 * n) {egs : Option ℝ} {beta : ℝ}
    {mu : List ℝ} {A : List (List ℝ)} {inject : ℤ} {sd : List ((NId × NId) × List NGf)} (hsd : sqtnlBuild junk n es (some (N : ℤ)) egs = .ok sd)
    {st : NState} (h : sqtnlDicts sd beta mu A inject = .ok st) : matrixIds st.W = matrixIds st.T := by
  obtain ⟨I, sI, gI, hI⟩ := hes N (by omega)
  have hJ : ∃ J sJ, ((N : ℤ) + 1 < 2 * n → dictGet es (N + 1) = .ok J ∧ NSctOk n (N + 1) J sJ) := by
    by_cases h : (N : ℤ) + 1 < 2 * n
    · obtain ⟨J, sJ, gJ, hJ⟩ := hes (N + 1) (by omega)
      exact ⟨J, sJ, fun _ => ⟨gJ, hJ⟩⟩
    · exact ⟨I, [], fun h' => absurd h' h⟩
  obtain ⟨J, sJ, hJ⟩ := hJ
  obtain ⟨K, sK, gK, hK⟩ := hes (N - 1) (by omega)
  have hb := sqtnlBuild_eq (junk := junk) hn ⟨gI, hI⟩ hJ (fun _ => ⟨gK, hK⟩) egs
  rw [hsd, Except.ok.injEq] at hb
  refine C79_sqtnl (fun p hp heq => ?_) h
  have hk : p.1 ∈ sd.map Prod.fst := List.mem_map.mpr ⟨p, hp, rfl⟩
  rw [hb, mem_sorted_keys] at hk
  have := pairs_sector hk
  rw [heq] at this
  omega

/-- The states of the rate matrix are among those of the transition matrix in `cotnl`, and the transition matrix has all states that
occur in the elements. -/
theorem C79_cotnl_partial {sd : List ((NId × NId) × List NSigma)} {integ : ℕ → ℕ → NSigma → Except PyErr ℝ} {extract inject : ℤ}
    {W T : List ((NId × NId) × ℝ)} (h : cotnlDicts sd integ extract inject = .ok (W, T)) :
    (∀ x, x ∈ matrixIds W ↔ ∃ p ∈ sd, p.1.1 ≠ p.1.2 ∧ (p.1.1 = x ∨ p.1.2 = x)) ∧ ∀ x, x ∈ matrixIds T ↔ ∃ p ∈ sd, p.1.1 = x ∨ p.1.2 = x := by
  unfold cotnlDicts at h
  cases h0 : checkElements sd with
  | error e => simp [h0, bind, Except.bind] at h
  | ok u =>
    rw [h0] at h
    simp only [bind, Except.bind] at h
    have key : ∀ (l : List ((NId × NId) × List NSigma)) (st st' : List ((NId × NId) × ℝ) × List ((NId × NId) × ℝ)),
        forM' (cotnlStep integ extract inject) l st = .ok st' →
        (∀ x, x ∈ matrixIds st'.1 ↔ x ∈ matrixIds st.1 ∨ ∃ p ∈ l, p.1.1 ≠ p.1.2 ∧ (p.1.1 = x ∨ p.1.2 = x)) ∧
        ∀ x, x ∈ matrixIds st'.2 ↔ x ∈ matrixIds st.2 ∨ ∃ p ∈ l, p.1.1 = x ∨ p.1.2 = x := by
      intro l
      induction l with
      | nil =>
        intro st st' h
        simp only [forM', Except.ok.injEq] at h
        simp [h]
      | cons p l ih =>
        intro st st' h
        rw [forM'] at h
        cases hb : cotnlStep integ extract inject st p with
        | error e => simp [hb, bind, Except.bind] at h
        | ok s1 =>
          rw [hb] at h
          obtain ⟨g00, g01, g10, g11, x, y, -, -, -, -, -, -, rfl⟩ := cotnlStep_ok hb
          obtain ⟨i1, i2⟩ := ih _ _ h
          refine ⟨fun x => ?_, fun x => ?_⟩
          · rw [i1]
            simp only [List.mem_cons, exists_eq_or_imp]
            by_cases hk : p.1.1 = p.1.2
            · unfold addRate
              rw [if_neg (by simp [hk])]
              simp [hk]
            · rw [mem_matrixIds_addRate hk]
              simp only [ne_eq, hk, not_false_eq_true, true_and]
              rw [or_comm (a := p.1.1 = x ∨ p.1.2 = x), or_assoc]
          · rw [i2]
            simp only [List.mem_cons, exists_eq_or_imp]
            rw [mem_matrixIds_dictAdd, or_comm (a := p.1.1 = x ∨ p.1.2 = x), or_assoc]
    have := key sd ([], []) (W, T) h
    have hnil : ∀ x, x ∉ matrixIds ([] : List ((NId × NId) × ℝ)) := by
      intro x hx
      rw [mem_matrixIds] at hx
      simp at hx
    simpa [hnil] using this

/-- C79 is false of `cotnl`: with a single state the rate matrix has no row while the transition matrix has one, for every list of
elements and every method that returns. -/
theorem C79_cotnl_refuted {l : List NSigma} {a : NId} {integ : ℕ → ℕ → NSigma → Except PyErr ℝ} {extract inject : ℤ} {W T : List ((NId × NId) × ℝ)}
    (h : cotnlDicts [((a, a), l)] integ extract inject = .ok (W, T)) : (matrixIds W).length = 0 ∧ (matrixIds T).length = 1 := by
  obtain ⟨h1, h2⟩ := C79_cotnl_partial h
  constructor
  · rw [List.length_eq_zero_iff, List.eq_nil_iff_forall_not_mem]
    intro x hx
    have := (h1 x).mp hx
    simp at this
  · have hp : (matrixIds T).Perm [a] := by
      rw [List.perm_ext_iff_of_nodup (matrixIds_nodup T) (by simp)]
      intro x
      rw [h2]
      simp [eq_comm]
    simpa using hp.length_eq

/-- Non-vacuity of `C79_cotnl_refuted`: one state and one element, with the approximate method. -/
example : ∃ W T, cotnlDicts [(((1, 0), (1, 0)), [⟨(0, 0), [⟨true, [[1]], [[1]], [2], 0⟩], 0⟩])]
    (NSigma.approximate [[1], [1]] 1 [0, 0]) 0 1 = .ok (W, T) := by
  have hc : ∀ e i : ℕ, e < 2 → i < 2 → ∃ x, NSigma.approximate [[1], [1]] 1 [0, 0] e i ⟨(0, 0), [⟨true, [[1]], [[1]], [2], 0⟩], 0⟩ = .ok x := by
    intro e i he hi
    interval_cases e <;> interval_cases i <;>
      exact ⟨_, by simp [NSigma.approximate, NSigma.call, NGf2.call, NGf2.y, dotRows, dotArr, forM', getItem, pyIndex, bind, Except.bind, pure, Except.pure]; rfl⟩
  obtain ⟨x00, h00⟩ := hc 0 0 (by norm_num) (by norm_num)
  obtain ⟨x01, h01⟩ := hc 0 1 (by norm_num) (by norm_num)
  obtain ⟨x10, h10⟩ := hc 1 0 (by norm_num) (by norm_num)
  obtain ⟨x11, h11⟩ := hc 1 1 (by norm_num) (by norm_num)
  simp only [cotnlDicts, checkElements, cotnlStep, cotnlGamma, forM', h00, h01, h10, h11, bind, Except.bind, pure, Except.pure]
  simp [gamma22, getItem, pyIndex, bind, Except.bind]

end Edpyt
