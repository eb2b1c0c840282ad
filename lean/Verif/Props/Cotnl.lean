import Verif.Model.Cotnl
import Verif.Proof.RateDict
import Verif.Props.Cotunneling
/-!
C55, C58, C61, C63 for the tunnelling code with conserved number of electrons (`edpyt/sqtnl.py`, `edpyt/cotnl.py`).
-/
namespace Edpyt
open Spec

/-- A property kept by every pass of a loop holds at the end. -/
theorem forM'_inv {α σ : Type} {body : σ → α → Except PyErr σ} (P : σ → Prop) {xs : List α} (h : ∀ st x st', x ∈ xs → body st x = .ok st' → P st → P st') :
    ∀ {st st' : σ}, forM' body xs st = .ok st' → P st → P st' := by
  induction xs with
  | nil =>
    intro st st' he hP
    simp only [forM', Except.ok.injEq] at he
    rwa [← he]
  | cons x xs ih =>
    intro st st' he hP
    rw [forM'] at he
    cases hb : body st x with
    | error e => simp [hb, bind, Except.bind] at he
    | ok s1 =>
      rw [hb] at he
      exact ih (fun st y st' hy => h st y st' (by simp [hy])) he (h st x s1 (by simp) hb hP)

/-! ### C55, sequential tunnelling -/

theorem nFcut_nonneg (x : ℝ) : 0 ≤ nFcut x := by
  unfold nFcut
  split <;> positivity

theorem ngf_call_nonneg {g : NGf} {a : List ℝ} {beta mu x : ℝ} (h : g.call a beta mu = .ok x) : 0 ≤ x := by
  unfold NGf.call at h
  cases h1 : dotArr g.v a with
  | error e => simp [h1, bind, Except.bind] at h
  | ok y =>
    simp only [h1, bind, Except.bind, pure, Except.pure, Except.ok.injEq] at h
    rw [← h]
    refine mul_nonneg (sq_nonneg _) ?_
    split <;> exact nFcut_nonneg _

theorem sqtnlGamma_nonneg {l : List NGf} {beta : ℝ} {mu : List ℝ} {A : List (List ℝ)} {lead : ℕ} {γ : ℝ}
    (h : sqtnlGamma l beta mu A lead = .ok γ) : 0 ≤ γ := by
  refine forM'_inv (fun γ => 0 ≤ γ) (fun st g st' _ hb hP => ?_) h le_rfl
  cases h1 : getItem A lead with
  | error e => simp [h1, bind, Except.bind] at hb
  | ok a =>
    cases h2 : getItem mu lead with
    | error e => simp [h1, h2, bind, Except.bind] at hb
    | ok m =>
      cases h3 : g.call a beta m with
      | error e => simp [h1, h2, h3, bind, Except.bind] at hb
      | ok x =>
        simp only [h1, h2, h3, bind, Except.bind, pure, Except.pure, Except.ok.injEq] at hb
        rw [← hb]
        exact add_nonneg hP (ngf_call_nonneg h3)

theorem sqtnlDicts_rate {gd : List ((NId × NId) × List NGf)} {beta : ℝ} {mu : List ℝ} {A : List (List ℝ)} {inject : ℤ} {st : NState}
    (h : sqtnlDicts gd beta mu A inject = .ok st) : RateDict st.W := by
  unfold sqtnlDicts at h
  cases h0 : checkElements gd with
  | error e => simp [h0, bind, Except.bind] at h
  | ok u =>
    rw [h0] at h
    refine forM'_inv (fun st => RateDict st.W) (fun s p s' _ hb hP => ?_) h rateDict_nil
    unfold sqtnlStep at hb
    cases h1 : sqtnlGamma p.2 beta mu A 0 with
    | error e => simp [h1, bind, Except.bind] at hb
    | ok g0 =>
      cases h2 : sqtnlGamma p.2 beta mu A 1 with
      | error e => simp [h1, h2, bind, Except.bind] at hb
      | ok g1 =>
        cases h3 : getItem [g0, g1] inject with
        | error e => simp [h1, h2, h3, bind, Except.bind] at hb
        | ok gi =>
          simp only [h1, h2, h3, bind, Except.bind, pure, Except.pure] at hb
          split at hb
          · simp at hb
          · simp only [Except.ok.injEq] at hb
            rw [← hb]
            exact rateDict_addRate hP _ (add_nonneg (sqtnlGamma_nonneg h1) (sqtnlGamma_nonneg h2))

/-- C55 for `sqtnl.build_rate_and_transition_matrices`: whenever it returns, the first matrix is a rate matrix, for all elements,
temperatures, chemical potentials and couplings. -/
theorem C55_sqtnl {gd : List ((NId × NId) × List NGf)} {beta : ℝ} {mu : List ℝ} {A : List (List ℝ)} {inject : ℤ} {st : NState}
    (h : sqtnlDicts gd beta mu A inject = .ok st) : IsRateMatrix (matrixIds st.W).length (dictToMatrix st.W) :=
  rateDict_matrix (sqtnlDicts_rate h)

/-! ### C55, cotunnelling -/

theorem cotnlGamma_nonneg {l : List NSigma} {integ : ℕ → ℕ → NSigma → Except PyErr ℝ} (hi : ∀ e i s x, integ e i s = .ok x → 0 ≤ x) {l1 l2 : ℕ} {γ : ℝ}
    (h : cotnlGamma l integ l1 l2 = .ok γ) : 0 ≤ γ := by
  refine forM'_inv (fun γ => 0 ≤ γ) (fun st s st' _ hb hP => ?_) h le_rfl
  cases h1 : integ l1 l2 s with
  | error e => simp [h1, bind, Except.bind] at hb
  | ok x =>
    simp only [h1, bind, Except.bind, pure, Except.pure, Except.ok.injEq] at hb
    rw [← hb]
    exact add_nonneg hP (hi _ _ _ _ h1)

/-- What a successful pass of the loop does. -/
theorem cotnlStep_ok {integ : ℕ → ℕ → NSigma → Except PyErr ℝ} {extract inject : ℤ} {st st' : List ((NId × NId) × ℝ) × List ((NId × NId) × ℝ)}
    {p : (NId × NId) × List NSigma} (h : cotnlStep integ extract inject st p = .ok st') :
    ∃ g00 g01 g10 g11 x y, cotnlGamma p.2 integ 0 0 = .ok g00 ∧ cotnlGamma p.2 integ 0 1 = .ok g01 ∧ cotnlGamma p.2 integ 1 0 = .ok g10 ∧
      cotnlGamma p.2 integ 1 1 = .ok g11 ∧ gamma22 g00 g01 g10 g11 extract inject = .ok x ∧ gamma22 g00 g01 g10 g11 inject extract = .ok y ∧
      st' = (addRate st.1 p.1 (g00 + g01 + g10 + g11), dictAdd st.2 p.1 (x - y)) := by
  unfold cotnlStep at h
  cases h1 : cotnlGamma p.2 integ 0 0 with
  | error e => simp [h1, bind, Except.bind] at h
  | ok g00 =>
    cases h2 : cotnlGamma p.2 integ 0 1 with
    | error e => simp [h1, h2, bind, Except.bind] at h
    | ok g01 =>
      cases h3 : cotnlGamma p.2 integ 1 0 with
      | error e => simp [h1, h2, h3, bind, Except.bind] at h
      | ok g10 =>
        cases h4 : cotnlGamma p.2 integ 1 1 with
        | error e => simp [h1, h2, h3, h4, bind, Except.bind] at h
        | ok g11 =>
          cases h5 : gamma22 g00 g01 g10 g11 extract inject with
          | error e => simp [h1, h2, h3, h4, h5, bind, Except.bind] at h
          | ok x =>
            cases h6 : gamma22 g00 g01 g10 g11 inject extract with
            | error e => simp [h1, h2, h3, h4, h5, h6, bind, Except.bind] at h
            | ok y =>
              simp only [h1, h2, h3, h4, h5, h6, bind, Except.bind, pure, Except.pure, Except.ok.injEq] at h
              exact ⟨g00, g01, g10, g11, x, y, rfl, rfl, rfl, rfl, h5, h6, h.symm⟩

/-- C55 for `cotnl.build_rate_and_transition_matrices` with any method of integration that gives non-negative values. -/
theorem C55_cotnl {sd : List ((NId × NId) × List NSigma)} {integ : ℕ → ℕ → NSigma → Except PyErr ℝ} (hi : ∀ e i s x, integ e i s = .ok x → 0 ≤ x)
    {extract inject : ℤ} {W T : List ((NId × NId) × ℝ)} (h : cotnlDicts sd integ extract inject = .ok (W, T)) :
    IsRateMatrix (matrixIds W).length (dictToMatrix W) := by
  unfold cotnlDicts at h
  cases h0 : checkElements sd with
  | error e => simp [h0, bind, Except.bind] at h
  | ok u =>
    rw [h0] at h
    refine rateDict_matrix (forM'_inv (fun st => RateDict st.1) (fun s p s' _ hb hP => ?_) h rateDict_nil)
    obtain ⟨g00, g01, g10, g11, x, y, h1, h2, h3, h4, -, -, rfl⟩ := cotnlStep_ok hb
    have := cotnlGamma_nonneg hi h1
    have := cotnlGamma_nonneg hi h2
    have := cotnlGamma_nonneg hi h3
    have := cotnlGamma_nonneg hi h4
    exact rateDict_addRate hP _ (by linarith)

theorem nsigma_call_nonneg {s : NSigma} {z : ℝ} {A : List (List ℝ)} {e i : ℕ} {x : ℝ} (h : s.call z A e i = .ok x) : 0 ≤ x := by
  unfold NSigma.call at h
  revert h
  generalize forM' _ s.gf2 (0 : ℝ) = r
  intro h
  cases r with
  | error e => simp [bind, Except.bind] at h
  | ok r =>
    simp only [bind, Except.bind, pure, Except.pure, Except.ok.injEq] at h
    rw [← h]
    positivity

/-- C55 for the approximate method of `cotnl`, for all positive inverse temperatures. -/
theorem C55_cotnl_approximate {sd : List ((NId × NId) × List NSigma)} {beta : ℝ} (hb : 0 < beta) {mu : List ℝ} {A : List (List ℝ)} {extract inject : ℤ}
    {W T : List ((NId × NId) × ℝ)} (h : cotnlDicts sd (NSigma.approximate A beta mu) extract inject = .ok (W, T)) :
    IsRateMatrix (matrixIds W).length (dictToMatrix W) := by
  refine C55_cotnl (fun e i s x h => ?_) h
  unfold NSigma.approximate at h
  cases h1 : getItem mu (e : ℤ) with
  | error er => simp [h1, bind, Except.bind] at h
  | ok me =>
    cases h2 : getItem mu (i : ℤ) with
    | error er => simp [h1, h2, bind, Except.bind] at h
    | ok mi =>
      cases h3 : s.call (0.5 * (s.dE + mu.sum)) A e i with
      | error er => simp [h1, h2, h3, bind, Except.bind] at h
      | ok r =>
        simp only [h1, h2, h3, bind, Except.bind, pure, Except.pure, Except.ok.injEq] at h
        rw [← h]
        exact mul_nonneg (coG_nonneg hb _) (nsigma_call_nonneg h3)

theorem trapz_nonneg : ∀ (y x : List ℝ), (∀ v ∈ y, 0 ≤ v) → x.Pairwise (· ≤ ·) → 0 ≤ trapz y x
  | [], _, _, _ => by simp [trapz]
  | [_], _, _, _ => by simp [trapz]
  | _ :: _ :: _, [], _, _ => by simp [trapz]
  | _ :: _ :: _, [_], _, _ => by simp [trapz]
  | y :: y' :: ys, x :: x' :: xs, hy, hx => by
    rw [trapz]
    have h1 := trapz_nonneg (y' :: ys) (x' :: xs) (fun v hv => hy v (by simp only [List.mem_cons] at hv ⊢; tauto)) (List.pairwise_cons.mp hx).2
    have h2 : x ≤ x' := (List.pairwise_cons.mp hx).1 x' (by simp)
    have h3 := hy y (by simp)
    have h4 := hy y' (by simp)
    have h5 : 0 ≤ (x' - x) * (y + y') / 2 := by
      have : 0 ≤ (x' - x) * (y + y') := mul_nonneg (by linarith) (by linarith)
      linarith
    linarith

theorem linspace200_sorted {a b : ℝ} (h : a ≤ b) : (linspace200 a b).Pairwise (· ≤ ·) := by
  unfold linspace200
  rw [List.pairwise_map]
  refine List.pairwise_lt_range.imp fun {i j} hij => ?_
  have h1 : 0 ≤ (b - a) / 199 := by
    apply div_nonneg <;> linarith
  have h2 : (i : ℝ) ≤ j := by exact_mod_cast hij.le
  nlinarith

theorem mapM_ok_mem {α β : Type} (f : α → Except PyErr β) : ∀ (l : List α) (r : List β), l.mapM f = .ok r → ∀ y ∈ r, ∃ x ∈ l, f x = .ok y := by
  intro l
  induction l with
  | nil =>
    intro r h y hy
    simp only [List.mapM_nil, pure, Except.pure, Except.ok.injEq] at h
    simp [← h] at hy
  | cons x l ih =>
    intro r h y hy
    rw [List.mapM_cons] at h
    cases h1 : f x with
    | error e => simp [h1, bind, Except.bind] at h
    | ok v =>
      cases h2 : l.mapM f with
      | error e => simp [h1, h2, bind, Except.bind] at h
      | ok r' =>
        simp only [h1, h2, bind, Except.bind, pure, Except.pure, Except.ok.injEq] at h
        rw [← h, List.mem_cons] at hy
        rcases hy with rfl | hy
        · exact ⟨x, by simp, h1⟩
        · obtain ⟨z, hz, hz'⟩ := ih r' h2 y hy
          exact ⟨z, by simp [hz], hz'⟩

theorem nF_pos (x : ℝ) : 0 < nF x := by unfold nF; positivity

theorem nF_lt_one (x : ℝ) : nF x < 1 := by
  unfold nF
  rw [div_lt_one (by positivity)]
  have := Real.exp_pos x
  linarith

/-- C55 for the numerical integration of `cotnl`, for all positive inverse temperatures. -/
theorem C55_cotnl_integrate {sd : List ((NId × NId) × List NSigma)} {beta : ℝ} (hb : 0 < beta) {mu : List ℝ} {A : List (List ℝ)} {extract inject : ℤ}
    {W T : List ((NId × NId) × ℝ)} (h : cotnlDicts sd (NSigma.integrate A beta mu) extract inject = .ok (W, T)) :
    IsRateMatrix (matrixIds W).length (dictToMatrix W) := by
  refine C55_cotnl (fun e i s x h => ?_) h
  unfold NSigma.integrate at h
  cases h1 : getItem mu (e : ℤ) with
  | error er => simp [h1, bind, Except.bind] at h
  | ok me =>
    cases h2 : getItem mu (i : ℤ) with
    | error er => simp [h1, h2, bind, Except.bind] at h
    | ok mi =>
      simp only [h1, h2, bind, Except.bind] at h
      revert h
      generalize hm : List.mapM (m := Except PyErr) _ (linspace200 _ _) = m
      intro h
      cases m with
      | error er => simp at h
      | ok vals =>
        simp only [pure, Except.pure, Except.ok.injEq] at h
        rw [← h]
        refine trapz_nonneg _ _ (fun v hv => ?_) (linspace200_sorted ?_)
        · obtain ⟨e', -, he'⟩ := mapM_ok_mem _ _ _ hm v hv
          cases h3 : s.call e' A e i with
          | error er => simp [h3] at he'
          | ok r =>
            simp only [h3, pure, Except.pure, Except.ok.injEq] at he'
            rw [← he']
            exact mul_nonneg (nsigma_call_nonneg h3) (nF_pos _).le
        · have h5 : 0 < 4 / beta := by positivity
          have h6 : min (me - s.dE) mi ≤ max (me - s.dE) mi := min_le_max
          linarith

/-! ### C58 -/

/-- The dictionary with the opposite values. -/
def negDict (D : List ((NId × NId) × ℝ)) : List ((NId × NId) × ℝ) := D.map fun p => (p.1, -p.2)

theorem dictGet_negDict (D : List ((NId × NId) × ℝ)) (k : NId × NId) : dictGet (negDict D) k = (dictGet D k).map fun x => -x := by
  induction D with
  | nil => simp [negDict, dictGet_nil, Except.map]
  | cons p D ih =>
    change dictGet ((p.1, -p.2) :: negDict D) k = _
    rw [dictGet_cons, dictGet_cons, ih]
    by_cases hp : p.1 = k <;> simp [hp, Except.map]

theorem negDict_dictAdd (D : List ((NId × NId) × ℝ)) (k : NId × NId) (v : ℝ) : negDict (dictAdd D k v) = dictAdd (negDict D) k (-v) := by
  unfold dictAdd
  have hv : (match dictGet (negDict D) k with | .ok x => x | .error _ => 0) + -v = -((match dictGet D k with | .ok x => x | .error _ => 0) + v) := by
    rw [dictGet_negDict]
    cases dictGet D k with
    | error e => simp [Except.map]
    | ok x => simp [Except.map]; ring
  have hg : ∀ w : ℝ, negDict (dictSet D k w) = dictSet (negDict D) k (-w) := by
    intro w
    have hk : (negDict D).map Prod.fst = D.map Prod.fst := by simp [negDict]
    unfold dictSet
    rw [hk]
    split
    · unfold negDict
      rw [List.map_map, List.map_map]
      refine List.map_congr_left fun p _ => ?_
      by_cases hp : p.1 = k <;> simp [hp]
    · simp [negDict]
  rw [hg]
  congr 1
  exact hv.symm

theorem dictToMatrix_negDict (D : List ((NId × NId) × ℝ)) (a b : ℕ) : dictToMatrix (negDict D) a b = -dictToMatrix D a b := by
  have hid : matrixIds (negDict D) = matrixIds D := by
    unfold matrixIds negDict
    rw [List.map_map, List.map_map]
    rfl
  rw [dictToMatrix_eq, dictToMatrix_eq, hid]
  clear hid
  generalize matrixIds D = ids
  unfold negDict
  induction D with
  | nil => simp
  | cons p D ih =>
    simp only [List.map_cons, List.sum_cons, List.map_map] at ih ⊢
    rw [ih]
    split <;> ring

/-- C58 for `cotnl`: exchanging the extracting and the injecting lead keeps the rate matrix and changes the sign of the
transition matrix, for all elements and methods of integration. -/
theorem C58_cotnl {sd : List ((NId × NId) × List NSigma)} {integ : ℕ → ℕ → NSigma → Except PyErr ℝ} {extract inject : ℤ}
    {W T : List ((NId × NId) × ℝ)} (h : cotnlDicts sd integ extract inject = .ok (W, T)) :
    ∃ T', cotnlDicts sd integ inject extract = .ok (W, T') ∧ matrixIds T' = matrixIds T ∧ ∀ a b, dictToMatrix T' a b = -dictToMatrix T a b := by
  refine ⟨negDict T, ?_, ?_, dictToMatrix_negDict T⟩
  · unfold cotnlDicts at h ⊢
    cases h0 : checkElements sd with
    | error e => simp [h0, bind, Except.bind] at h
    | ok u =>
      rw [h0] at h
      simp only [bind, Except.bind] at h ⊢
      have key : ∀ (l : List ((NId × NId) × List NSigma)) (st st' : List ((NId × NId) × ℝ) × List ((NId × NId) × ℝ)),
          forM' (cotnlStep integ extract inject) l st = .ok st' →
          forM' (cotnlStep integ inject extract) l (st.1, negDict st.2) = .ok (st'.1, negDict st'.2) := by
        intro l
        induction l with
        | nil =>
          intro st st' h
          simp only [forM', Except.ok.injEq] at h ⊢
          rw [h]
        | cons p l ih =>
          intro st st' h
          rw [forM'] at h ⊢
          cases hb : cotnlStep integ extract inject st p with
          | error e => simp [hb, bind, Except.bind] at h
          | ok s1 =>
            rw [hb] at h
            obtain ⟨g00, g01, g10, g11, x, y, h1, h2, h3, h4, h5, h6, rfl⟩ := cotnlStep_ok hb
            have : cotnlStep integ inject extract (st.1, negDict st.2) p
                = .ok (addRate st.1 p.1 (g00 + g01 + g10 + g11), negDict (dictAdd st.2 p.1 (x - y))) := by
              unfold cotnlStep
              simp only [h1, h2, h3, h4, h5, h6, bind, Except.bind, pure, Except.pure, negDict_dictAdd, neg_sub]
            rw [this]
            exact ih _ _ h
      exact key sd ([], []) (W, T) h
  · unfold matrixIds negDict
    rw [List.map_map, List.map_map]
    rfl

/-! ### C63 -/

/-- The thermal weight that the property asks for: occupied in the extracting lead, empty in the injecting lead. -/
noncomputable def Spec.fermiProduct (beta e muE muI : ℝ) : ℝ := 1 / (Real.exp (beta * (e - muE)) + 1) * (1 / (Real.exp (-beta * (e - muI)) + 1))

/-- C63 is false of the code at every energy, temperature and chemical potential: a misplaced parenthesis nests one Fermi function in
the other, and the weight that is used is always larger than the product. -/
theorem C63_refuted (beta e muE muI : ℝ) : Spec.fermiProduct beta e muE muI < nWeight beta e muE muI := by
  have key : ∀ x t : ℝ, 0 < t → t < 1 → 1 / (Real.exp x + 1) * t < 1 / (Real.exp (x * t) + 1) := by
    intro x t h0 h1
    have hc : Real.exp (x * t) ≤ t * Real.exp x + (1 - t) := by
      have := convexOn_exp.2 (Set.mem_univ x) (Set.mem_univ 0) h0.le (by linarith : 0 ≤ 1 - t) (by ring)
      simp only [smul_eq_mul, mul_zero, add_zero, Real.exp_zero, mul_one] at this
      rwa [mul_comm x t]
    rw [one_div_mul_eq_div, div_lt_div_iff₀ (by positivity) (by positivity), one_mul]
    have hp := Real.exp_pos x
    nlinarith [mul_pos hp (mul_pos h0 (sub_pos.mpr h1)), mul_pos (sub_pos.mpr h1) (sub_pos.mpr h1), mul_le_mul_of_nonneg_left hc h0.le]
  exact key _ _ (nF_pos _) (nF_lt_one _)

/-- C63, part that holds: the weight is a number strictly between zero and one. Missing: it is not the product (`C63_refuted`). -/
theorem C63_partial (beta e muE muI : ℝ) : 0 < nWeight beta e muE muI ∧ nWeight beta e muE muI < 1 := ⟨nF_pos _, nF_lt_one _⟩

end Edpyt
