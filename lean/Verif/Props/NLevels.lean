import Verif.Props.NCurrent
import Verif.Props.NEspace
import Verif.Props.SqLevels
/-!
Property C169: matrices of `sqtnl` between levels do not depend on the choice of the eigenvectors.
-/
namespace Edpyt
open Spec Matrix

/-! ## Specification -/

/-- The level of a state: its number of electrons and its energy. -/
noncomputable def Spec.nLevel (es : Espace ℕ) (x : NId) : ℤ × ℝ := (x.1, nidEnergy es x)

/-- The level of row `i` of the matrices. -/
noncomputable def Spec.nRowLevel (es : Espace ℕ) (ids : List NId) (i : ℕ) : ℤ × ℝ := nLevel es (ids[i]?.getD (0, 0))

/-! ## Elements as functions of the levels -/

/-- The couplings of a lead, if there are any. -/
def leadV (A : List (List ℝ)) (lead : ℕ) : List ℝ := match getItem A lead with | .ok a => a | .error _ => []

/-- The Fermi factor of a lead; zero if the call raises. -/
noncomputable def leadG (n : ℕ) (beta : ℝ) (mu : List ℝ) (A : List (List ℝ)) (lead : ℕ) (el : Bool) (d : ℝ) : ℝ :=
  match getItem A lead, getItem mu lead with
  | .ok a, .ok m => if a.length = n then (if el then nFcut (beta * (d - m)) else nFcut (-beta * (d - m))) else 0
  | _, _ => 0

theorem ratePart_element (n : ℕ) (sI sJ : List ℕ) (I J : Sct) (j i s : ℕ) (e el : Bool) (beta : ℝ) (mu : List ℝ) (A : List (List ℝ)) (lead : ℕ) :
    ratePart beta mu A lead { element n sI sJ I J j i e s with el := el } =
      leadG n beta mu A lead el (J.eigvals[j]?.getD 0 - I.eigvals[i]?.getD 0) * (∑ k : Fin n, ((leadV A lead)[(k : ℕ)]?.getD 0) * amplitude n sI sJ I J j i s k) ^ 2 := by
  unfold ratePart sqtnlGamma leadG leadV NGf.call
  simp only [forM', bind, Except.bind, pure, Except.pure]
  cases hA : getItem A (lead : ℤ) with
  | error x => simp
  | ok a =>
    cases hm : getItem mu (lead : ℤ) with
    | error x => simp
    | ok m =>
      simp only
      cases hd : dotArr (element n sI sJ I J j i e s).v a with
      | error x =>
        simp only
        rw [if_neg, zero_mul]
        intro hl
        obtain ⟨y, hy⟩ := dotArr_len (v := (element n sI sJ I J j i e s).v) (a := a) (by simp [element, hl])
        rw [hy] at hd; cases hd
      | ok y =>
        obtain ⟨h1, h2⟩ := dotArr_amp (n := n) (s := 1) (f := fun k => amplitude n sI sJ I J j i s k) (by simp [element]) hd
        simp only
        rw [if_pos h1, h2, one_mul, zero_add, mul_comm]
        rfl

theorem amp_cast {m m' : ℕ} (h : m = m') (sJ sI : List ℕ) (x y : ℕ → ℝ) {p : ℕ} (hp : p < m) (hp' : p < m') :
    ketN m sJ x ⬝ᵥ (cre ℝ (⟨p, hp⟩ : Fin m)).mulVec (ketN m sI y) = ketN m' sJ x ⬝ᵥ (cre ℝ (⟨p, hp'⟩ : Fin m')).mulVec (ketN m' sI y) := by
  subst h; rfl

/-- What is used of a run of `build_espace(…, symmetry='N')`. -/
structure NRun (a : HamArgs) (es : Espace ℕ) : Prop where
  le : 2 * a.n ≤ 32
  ok : NEspaceOk a.n es
  basis : EigBasis a.hamN (nKet a.n es) (nVal a.n es)
  supp : ∀ (x : NIdx a.n) S, nKet a.n es x S ≠ 0 → S.card = x.1
  get : ∀ N, N ≤ a.n + a.n → ∃ st, dictGet es N = .ok (nSctAt es N) ∧ NSctOk a.n N (nSctAt es N) st ∧ (nSctAt es N).eigvals.length = (a.n + a.n).choose N

theorem nRun (a : HamArgs) (ha : a.NValid) {w : ℕ} (hw : a.n + a.n ≤ w) {es : Espace ℕ} {egs : WithTop ℝ} (h : NBuildEspace w a none (.ok (es, egs))) : NRun a es := by
  obtain ⟨-, h2, h3, h4, -⟩ := C168_eigenbasis ha hw h
  refine ⟨by have := ha.le; omega, h2, h3, h4, fun N hN => ?_⟩
  obtain ⟨-, hat⟩ := nEspace_at ha hw h
  obtain ⟨D, -, hg, hs, hd, f1, f2⟩ := hat N hN
  refine ⟨_, hg, ⟨hs, ?_, ?_⟩, ?_⟩
  · rw [two_mul]; exact gsN_list ha hw hN
  · rw [hd, gs_length hN]
  · rw [f2.wlen, f1.size, gs_length hN]

/-- Two runs on the same arguments have the same eigenvalues. -/
theorem nRun_vals {a : HamArgs} (ha : a.NValid) {w w' : ℕ} (hw : a.n + a.n ≤ w) (hw' : a.n + a.n ≤ w') {es es1 : Espace ℕ} {egs egs1 : WithTop ℝ}
    (h : NBuildEspace w a none (.ok (es, egs))) (h1 : NBuildEspace w' a none (.ok (es1, egs1))) {N : ℕ} (hN : N ≤ a.n + a.n) :
    (nSctAt es N).eigvals = (nSctAt es1 N).eigvals := by
  obtain ⟨D, -, -, -, -, f1, f2⟩ := (nEspace_at ha hw h).2 N hN
  obtain ⟨D', -, -, -, -, g1, g2⟩ := (nEspace_at ha hw' h1).2 N hN
  have e := (gsN_list ha hw hN).eq (gsN_list ha hw' hN)
  refine f2.unique g2 (by rw [f1.size, g1.size, e]) fun i j hi hj => ?_
  rw [f1.size] at hi hj
  rw [f1.val i j hi hj, g1.val i j (by rw [← e]; exact hi) (by rw [← e]; exact hj)]
  simp only [e]

section
variable {a : HamArgs} {es es1 : Espace ℕ}

/-- The level of an eigenstate. -/
noncomputable def xLevel (n : ℕ) (es : Espace ℕ) (x : NIdx n) : ℤ × ℝ := (((x.1 : ℕ) : ℤ), nVal n es x)

theorem nLevel_x (hr : NRun a es) {N k : ℕ} (hN : N < a.n + a.n + 1) (hk : k < (a.n + a.n).choose N) :
    nLevel es ((N : ℤ), k) = xLevel a.n es ⟨⟨N, hN⟩, ⟨k, hk⟩⟩ := by
  obtain ⟨st, hg, -⟩ := hr.get N (by omega)
  unfold nLevel xLevel nVal
  rw [nidEnergy_of (M := N) rfl hg]

theorem xLevel_overlap (h : NRun a es) (h1 : NRun a es1) (x y : NIdx a.n) (ho : nKet a.n es x ⬝ᵥ nKet a.n es1 y ≠ 0) : xLevel a.n es x = xLevel a.n es1 y := by
  have hp := EigBasis.perp h.basis.symm h.basis h1.basis x y id
  have he := mul_right_cancel₀ ho hp
  simp only [id] at he
  obtain ⟨S, -, hS⟩ := Finset.exists_ne_zero_of_sum_ne_zero ho
  have e1 := h.supp x S (left_ne_zero_of_mul hS)
  have e2 := h1.supp y S (right_ne_zero_of_mul hS)
  unfold xLevel
  rw [he, ← e1, ← e2]

theorem nKet_amp (hr : NRun a es) {N : ℕ} (hN : N + 1 < a.n + a.n + 1) {sI sJ : List ℕ} (hI : NSctOk a.n N (nSctAt es N) sI) (hJ : NSctOk a.n (N + 1) (nSctAt es (N + 1)) sJ)
    (j : Fin ((a.n + a.n).choose (N + 1))) (i : Fin ((a.n + a.n).choose N)) (σ : Bool) (v : List ℝ) :
    nKet a.n es ⟨⟨N + 1, hN⟩, j⟩ ⬝ᵥ leadOp a.n σ v *ᵥ nKet a.n es ⟨⟨N, by omega⟩, i⟩ =
      ∑ k : Fin a.n, (v[(k : ℕ)]?.getD 0) * amplitude a.n sI sJ (nSctAt es N) (nSctAt es (N + 1)) j i (if σ then 1 else 0) k := by
  unfold leadOp
  rw [sum_mulVec, dotProduct_sum]
  refine Finset.sum_congr rfl fun k _ => ?_
  rw [smul_mulVec, dotProduct_smul, smul_eq_mul]
  congr 1
  have hk : (k : ℕ) + (if σ then 1 else 0) * a.n < 2 * a.n := by have := k.2; cases σ <;> simp <;> omega
  unfold amplitude nKet Sct.ketTotal
  rw [dif_pos hk]
  simp only [hI.states, hJ.states]
  rw [amp_cast (two_mul a.n) sJ sI _ _ hk (by rw [← two_mul]; exact hk)]
  have : (orb σ k : Fin (a.n + a.n)) = ⟨(k : ℕ) + (if σ then 1 else 0) * a.n, by rw [← two_mul]; exact hk⟩ := by
    apply Fin.ext; unfold orb; cases σ <;> simp [add_comm]
  rw [this]

open Classical in
/-- The weight of a pair of levels in the sum over the elements. -/
noncomputable def levW (n N : ℕ) (Φ : ℤ × ℝ → ℤ × ℝ → ℝ) (el : Bool) (beta : ℝ) (mu : List ℝ) (A : List (List ℝ)) (lead : ℕ) (k l : ℤ × ℝ) : ℝ :=
  if k.1 = N + 1 ∧ l.1 = N then Φ k l * leadG n beta mu A lead el (k.2 - l.2) else 0

/-- The elements which add an electron to a sector, summed with a weight that depends on the levels. -/
theorem upList_sum (hr : NRun a es) {N : ℕ} (hN : N + 1 < a.n + a.n + 1) {sI sJ : List ℕ} (hI : NSctOk a.n N (nSctAt es N) sI) (hJ : NSctOk a.n (N + 1) (nSctAt es (N + 1)) sJ)
    (Φ : ℤ × ℝ → ℤ × ℝ → ℝ) (el : Bool) (σ : Bool) (beta : ℝ) (mu : List ℝ) (A : List (List ℝ)) (lead : ℕ) :
    ((upList a.n sI sJ (nSctAt es N) (nSctAt es (N + 1)) N (if σ then 1 else 0)).map fun q =>
      Φ (nLevel es q.1.1) (nLevel es q.1.2) * ratePart beta mu A lead { q.2 with el := el }).sum =
    ∑ x : NIdx a.n, ∑ y : NIdx a.n, levW a.n N Φ el beta mu A lead (xLevel a.n es x) (xLevel a.n es y) *
      (nKet a.n es x ⬝ᵥ leadOp a.n σ (leadV A lead) *ᵥ nKet a.n es y) ^ 2 := by
  obtain ⟨st, hg, -, hl⟩ := hr.get N (by omega)
  obtain ⟨st', hg', -, hl'⟩ := hr.get (N + 1) (by omega)
  unfold upList
  rw [List.map_map, ndindex2_sum, hl, hl']
  rw [Fintype.sum_sigma, Finset.sum_eq_single (⟨N + 1, hN⟩ : Fin (a.n + a.n + 1))]
  · rw [Finset.sum_range]
    refine Finset.sum_congr rfl fun j _ => ?_
    rw [Fintype.sum_sigma, Finset.sum_eq_single (⟨N, by omega⟩ : Fin (a.n + a.n + 1))]
    · rw [Finset.sum_range]
      refine Finset.sum_congr rfl fun i _ => ?_
      simp only [Function.comp]
      rw [nKet_amp hr hN hI hJ, ratePart_element, ← mul_assoc]
      congr 1
      unfold levW
      have e1 := nLevel_x hr hN j.2
      have e2 := nLevel_x hr (show N < a.n + a.n + 1 by omega) i.2
      push_cast at e1
      rw [e1, e2, if_pos ⟨by simp [xLevel], by simp [xLevel]⟩]
      rfl
    · intro b _ hb
      refine Finset.sum_eq_zero fun i _ => ?_
      unfold levW
      rw [if_neg, zero_mul]
      rintro ⟨-, h2⟩
      exact hb (Fin.ext (by simpa [xLevel] using h2))
    · intro h; exact absurd (Finset.mem_univ _) h
  · intro b _ hb
    refine Finset.sum_eq_zero fun j _ => Finset.sum_eq_zero fun y _ => ?_
    unfold levW
    rw [if_neg, zero_mul]
    rintro ⟨h1, -⟩
    exact hb (Fin.ext (by have := h1; simp only [xLevel] at this; simp only; omega))
  · intro h; exact absurd (Finset.mem_univ _) h

/-- The sum is the same for two runs. -/
theorem upList_level (h : NRun a es) (h1 : NRun a es1) {N : ℕ} (hN : N + 1 < a.n + a.n + 1) {sI sJ sI1 sJ1 : List ℕ} (hI : NSctOk a.n N (nSctAt es N) sI)
    (hJ : NSctOk a.n (N + 1) (nSctAt es (N + 1)) sJ) (hI1 : NSctOk a.n N (nSctAt es1 N) sI1) (hJ1 : NSctOk a.n (N + 1) (nSctAt es1 (N + 1)) sJ1)
    (Φ : ℤ × ℝ → ℤ × ℝ → ℝ) (el : Bool) {s : ℕ} (hs : s < 2) (beta : ℝ) (mu : List ℝ) (A : List (List ℝ)) (lead : ℕ) :
    ((upList a.n sI sJ (nSctAt es N) (nSctAt es (N + 1)) N s).map fun q => Φ (nLevel es q.1.1) (nLevel es q.1.2) * ratePart beta mu A lead { q.2 with el := el }).sum =
    ((upList a.n sI1 sJ1 (nSctAt es1 N) (nSctAt es1 (N + 1)) N s).map fun q => Φ (nLevel es1 q.1.1) (nLevel es1 q.1.2) * ratePart beta mu A lead { q.2 with el := el }).sum := by
  have hσ : ∃ σ : Bool, s = if σ then 1 else 0 := by
    interval_cases s
    · exact ⟨false, rfl⟩
    · exact ⟨true, rfl⟩
  obtain ⟨σ, rfl⟩ := hσ
  rw [upList_sum h hN hI hJ, upList_sum h1 hN hI1 hJ1]
  exact level_sum2 h.basis h1.basis (fun x y => xLevel_overlap h h1 x y) (levW a.n N Φ el beta mu A lead) _

/-- All elements which add an electron, for two runs. -/
theorem ups_level (h : NRun a es) (h1 : NRun a es1) {st st1 : ℕ → List ℕ} (hst : ∀ N, N ≤ a.n + a.n → NSctOk a.n N (nSctAt es N) (st N))
    (hst1 : ∀ N, N ≤ a.n + a.n → NSctOk a.n N (nSctAt es1 N) (st1 N)) {N : ℕ} (hN : N ≤ a.n + a.n)
    (Φ : ℤ × ℝ → ℤ × ℝ → ℝ) (el : Bool) (beta : ℝ) (mu : List ℝ) (A : List (List ℝ)) (lead : ℕ) :
    ((allUps a.n (st (N - 1)) (st N) (st (N + 1)) (nSctAt es (N - 1)) (nSctAt es N) (nSctAt es (N + 1)) N).map fun q =>
      Φ (nLevel es q.1.1) (nLevel es q.1.2) * ratePart beta mu A lead { q.2 with el := el }).sum =
    ((allUps a.n (st1 (N - 1)) (st1 N) (st1 (N + 1)) (nSctAt es1 (N - 1)) (nSctAt es1 N) (nSctAt es1 (N + 1)) N).map fun q =>
      Φ (nLevel es1 q.1.1) (nLevel es1 q.1.2) * ratePart beta mu A lead { q.2 with el := el }).sum := by
  have h2 : List.range 2 = [0, 1] := rfl
  have hup : ∀ s < 2, (N : ℤ) + 1 < 2 * a.n → ((upList a.n (st N) (st (N + 1)) (nSctAt es N) (nSctAt es (N + 1)) N s).map fun q => Φ (nLevel es q.1.1) (nLevel es q.1.2) * ratePart beta mu A lead { q.2 with el := el }).sum =
    ((upList a.n (st1 N) (st1 (N + 1)) (nSctAt es1 N) (nSctAt es1 (N + 1)) N s).map fun q => Φ (nLevel es1 q.1.1) (nLevel es1 q.1.2) * ratePart beta mu A lead { q.2 with el := el }).sum := by
    intro s hs hc
    exact upList_level h h1 (by omega) (hst N (by omega)) (hst _ (by omega)) (hst1 N (by omega)) (hst1 _ (by omega)) Φ el hs beta mu A lead
  have hdn : ∀ s < 2, (N : ℤ) - 1 > 0 → ((upList a.n (st (N - 1)) (st N) (nSctAt es (N - 1)) (nSctAt es N) ((N : ℤ) - 1) s).map fun q => Φ (nLevel es q.1.1) (nLevel es q.1.2) * ratePart beta mu A lead { q.2 with el := el }).sum =
    ((upList a.n (st1 (N - 1)) (st1 N) (nSctAt es1 (N - 1)) (nSctAt es1 N) ((N : ℤ) - 1) s).map fun q => Φ (nLevel es1 q.1.1) (nLevel es1 q.1.2) * ratePart beta mu A lead { q.2 with el := el }).sum := by
    intro s hs hc
    obtain ⟨M, rfl⟩ : ∃ M, N = M + 1 := ⟨N - 1, by omega⟩
    have e : ((M + 1 : ℕ) : ℤ) - 1 = (M : ℤ) := by push_cast; ring
    rw [e, Nat.add_sub_cancel]
    exact upList_level h h1 (by omega) (hst M (by omega)) (hst _ (by omega)) (hst1 M (by omega)) (hst1 _ (by omega)) Φ el hs beta mu A lead
  unfold allUps
  rw [h2]
  simp only [List.flatMap_cons, List.flatMap_nil, List.append_nil, List.map_append, List.sum_append]
  by_cases c1 : (N : ℤ) + 1 < 2 * a.n <;> by_cases c2 : (N : ℤ) - 1 > 0 <;>
    simp only [c1, c2, if_true, if_false, List.map_nil, List.sum_nil]
  · rw [hup 0 (by norm_num) c1, hup 1 (by norm_num) c1, hdn 0 (by norm_num) c2, hdn 1 (by norm_num) c2]
  · rw [hup 0 (by norm_num) c1, hup 1 (by norm_num) c1]
  · rw [hdn 0 (by norm_num) c2, hdn 1 (by norm_num) c2]

/-- The elements connect the same states in two runs. -/
theorem ups_keys (hv : ∀ N, N ≤ a.n + a.n → (nSctAt es N).eigvals = (nSctAt es1 N).eigvals) {st st1 : ℕ → List ℕ} {N : ℕ} (hN : N ≤ a.n + a.n) :
    (allUps a.n (st (N - 1)) (st N) (st (N + 1)) (nSctAt es (N - 1)) (nSctAt es N) (nSctAt es (N + 1)) N).map Prod.fst =
    (allUps a.n (st1 (N - 1)) (st1 N) (st1 (N + 1)) (nSctAt es1 (N - 1)) (nSctAt es1 N) (nSctAt es1 (N + 1)) N).map Prod.fst := by
  have h2 : List.range 2 = [0, 1] := rfl
  unfold allUps
  rw [h2]
  simp only [List.flatMap_cons, List.flatMap_nil, List.append_nil, List.map_append]
  have e2 : (N : ℤ) + 1 < 2 * a.n → ∀ s, (upList a.n (st N) (st (N + 1)) (nSctAt es N) (nSctAt es (N + 1)) N s).map Prod.fst = (upList a.n (st1 N) (st1 (N + 1)) (nSctAt es1 N) (nSctAt es1 (N + 1)) N s).map Prod.fst := by
    intro hc s
    unfold upList
    rw [hv N hN, hv (N + 1) (by omega)]
    simp
  have e3 : ∀ s, (upList a.n (st (N - 1)) (st N) (nSctAt es (N - 1)) (nSctAt es N) ((N : ℤ) - 1) s).map Prod.fst = (upList a.n (st1 (N - 1)) (st1 N) (nSctAt es1 (N - 1)) (nSctAt es1 N) ((N : ℤ) - 1) s).map Prod.fst := by
    intro s
    unfold upList
    rw [hv N hN, hv (N - 1) (by omega)]
    simp
  by_cases c1 : (N : ℤ) + 1 < 2 * a.n <;> by_cases c2 : (N : ℤ) - 1 > 0 <;> simp only [c1, c2, if_true, if_false, e3, List.map_nil]
  · rw [e2 c1, e2 c1]
  · rw [e2 c1, e2 c1]

end

/-! ## Sums over the matrices -/

section
variable {gd : List ((NId × NId) × List NGf)} {En : NId → ℝ} {L : List ((NId × NId) × NGf)} (hP : Paired gd En L)
  {beta : ℝ} {mu : List ℝ} {A : List (List ℝ)} {inject : ℕ} (hi : inject < 2) {st : NState} (h : sqtnlDicts gd beta mu A inject = .ok st)

include hP hi h

theorem matrix_W (F : NId → NId → ℝ) :
    ∑ x ∈ Finset.range (matrixIds st.W).length, ∑ y ∈ Finset.range (matrixIds st.W).length, dictToMatrix st.W x y * F ((matrixIds st.W)[x]?.getD (0, 0)) ((matrixIds st.W)[y]?.getD (0, 0)) =
      (L.map fun q => (F q.1.1 q.1.2 - F q.1.2 q.1.2) * ratePart beta mu A 0 { q.2 with el := true }).sum + (L.map fun q => (F q.1.1 q.1.2 - F q.1.2 q.1.2) * ratePart beta mu A 1 { q.2 with el := true }).sum +
      ((L.map fun q => (F q.1.2 q.1.1 - F q.1.1 q.1.1) * ratePart beta mu A 0 { q.2 with el := false }).sum + (L.map fun q => (F q.1.2 q.1.1 - F q.1.1 q.1.1) * ratePart beta mu A 1 { q.2 with el := false }).sum) := by
  rw [wsum_matrix rfl fun x y => F ((matrixIds st.W)[x]?.getD (0, 0)) ((matrixIds st.W)[y]?.getD (0, 0)), (sqtnl_weights hi hP.seq (sqtnlDicts_forM h) (by simp) (by simp) _).1, paired_sum hP]
  have z : ∀ w : NId × NId → ℝ, wsum w ([] : List ((NId × NId) × ℝ)) = 0 := fun w => rfl
  rw [z, zero_add, ← List.sum_map_add, ← List.sum_map_add, ← List.sum_map_add]
  congr 1
  refine List.map_congr_left fun q hq => ?_
  obtain ⟨m1, m2⟩ := paired_mem hP hi h hq
  have e : ({ q.2 with el := true } : NGf) = q.2 := by rw [← hP.el q hq]
  rw [e]
  simp only [reverseEl, List.getElem?_idxOf m1, List.getElem?_idxOf m2, Option.getD_some]
  ring

theorem matrix_T (F : NId → NId → ℝ) :
    ∑ x ∈ Finset.range (matrixIds st.T).length, ∑ y ∈ Finset.range (matrixIds st.T).length, dictToMatrix st.T x y * F ((matrixIds st.T)[x]?.getD (0, 0)) ((matrixIds st.T)[y]?.getD (0, 0)) =
      (L.map fun q => -F q.1.1 q.1.2 * ratePart beta mu A inject { q.2 with el := true }).sum + (L.map fun q => F q.1.2 q.1.1 * ratePart beta mu A inject { q.2 with el := false }).sum := by
  rw [wsum_matrix rfl fun x y => F ((matrixIds st.T)[x]?.getD (0, 0)) ((matrixIds st.T)[y]?.getD (0, 0)), (sqtnl_weights hi hP.seq (sqtnlDicts_forM h) (by simp) (by simp) _).2.1, paired_sum hP]
  have z : ∀ w : NId × NId → ℝ, wsum w ([] : List ((NId × NId) × ℝ)) = 0 := fun w => rfl
  rw [z, zero_add, ← List.sum_map_add]
  congr 1
  refine List.map_congr_left fun q hq => ?_
  obtain ⟨m1, m2⟩ := paired_mem hP hi h hq
  rw [← paired_ids hP hi h] at m1 m2
  have e : ({ q.2 with el := true } : NGf) = q.2 := by rw [← hP.el q hq]
  have ht := hP.el q hq
  rw [e]
  simp only [reverseEl, List.getElem?_idxOf m1, List.getElem?_idxOf m2, Option.getD_some, ht, if_true, Bool.false_eq_true, if_false]
  ring

end

/-! ## Property -/

/-- **C169** Two runs of `build_espace(…, symmetry='N')` on the same arguments may differ in the eigenvectors of degenerate levels. The tables of states of the
matrices of `sqtnl` are nevertheless the same, row by row with the same number of electrons and energy, and so is the rate between levels: any sum of rates,
or of entries of the transition matrix, weighted by a function of the levels of both states. So is the current for populations which depend on the level only. -/
theorem C169_levels {a : HamArgs} (ha : a.NValid) {w w' : ℕ} (hw : a.n + a.n ≤ w) (hw' : a.n + a.n ≤ w') {es es1 : Espace ℕ} {e0 e1 : WithTop ℝ}
    (h : NBuildEspace w a none (.ok (es, e0))) (h1 : NBuildEspace w' a none (.ok (es1, e1))) {N : ℕ} (hN : N ≤ 2 * a.n) {junk junk' : ℕ} {egs egs' : Option ℝ}
    {gd gd1 : List ((NId × NId) × List NGf)} (hgd : sqtnlBuild junk a.n es (some (N : ℤ)) egs = .ok gd) (hgd1 : sqtnlBuild junk' a.n es1 (some (N : ℤ)) egs' = .ok gd1)
    {beta : ℝ} {mu : List ℝ} {A : List (List ℝ)} {inject : ℕ} (hi : inject < 2) {st st1 : NState}
    (hst : sqtnlDicts gd beta mu A inject = .ok st) (hst1 : sqtnlDicts gd1 beta mu A inject = .ok st1) :
    matrixIds st.W = matrixIds st1.W ∧ matrixIds st.T = matrixIds st1.T ∧ (∀ i, nRowLevel es (matrixIds st.W) i = nRowLevel es1 (matrixIds st1.W) i) ∧
    (∀ ψ : ℤ × ℝ → ℤ × ℝ → ℝ,
      ∑ f ∈ Finset.range (matrixIds st.W).length, ∑ i ∈ Finset.range (matrixIds st.W).length, dictToMatrix st.W f i * ψ (nRowLevel es (matrixIds st.W) f) (nRowLevel es (matrixIds st.W) i) =
      ∑ f ∈ Finset.range (matrixIds st1.W).length, ∑ i ∈ Finset.range (matrixIds st1.W).length, dictToMatrix st1.W f i * ψ (nRowLevel es1 (matrixIds st1.W) f) (nRowLevel es1 (matrixIds st1.W) i)) ∧
    (∀ ψ : ℤ × ℝ → ℤ × ℝ → ℝ,
      ∑ f ∈ Finset.range (matrixIds st.T).length, ∑ i ∈ Finset.range (matrixIds st.T).length, dictToMatrix st.T f i * ψ (nRowLevel es (matrixIds st.T) f) (nRowLevel es (matrixIds st.T) i) =
      ∑ f ∈ Finset.range (matrixIds st1.T).length, ∑ i ∈ Finset.range (matrixIds st1.T).length, dictToMatrix st1.T f i * ψ (nRowLevel es1 (matrixIds st1.T) f) (nRowLevel es1 (matrixIds st1.T) i)) ∧
    ∀ p : ℤ × ℝ → ℝ, nCurrent st (fun i => p (nRowLevel es (matrixIds st.T) i)) = nCurrent st1 (fun i => p (nRowLevel es1 (matrixIds st1.T) i)) := by
  have hr := nRun a ha hw h
  have hr1 := nRun a ha hw' h1
  have hv : ∀ M, M ≤ a.n + a.n → (nSctAt es M).eigvals = (nSctAt es1 M).eigvals := fun M hM => nRun_vals ha hw hw' h h1 hM
  have hsome : ∀ {e : Espace ℕ}, NRun a e → ∃ s : ℕ → List ℕ, ∀ M, M ≤ a.n + a.n → dictGet e M = .ok (nSctAt e M) ∧ NSctOk a.n M (nSctAt e M) (s M) := by
    intro e he
    choose! s hs using he.get
    exact ⟨s, fun M hM => ⟨(hs M hM).1, (hs M hM).2.1⟩⟩
  obtain ⟨s, hs⟩ := hsome hr
  obtain ⟨s1, hs1⟩ := hsome hr1
  have hN' : N ≤ a.n + a.n := by omega
  have hP := build_paired_ups hr.le hr.ok hN hgd (hs N hN') (fun _ => hs (N + 1) (by omega)) (fun _ => hs (N - 1) (by omega))
  have hP1 := build_paired_ups hr1.le hr1.ok hN hgd1 (hs1 N hN') (fun _ => hs1 (N + 1) (by omega)) (fun _ => hs1 (N - 1) (by omega))
  have hlev : ∀ Φ el lead, _ := fun Φ el lead => ups_level hr hr1 (fun M hM => (hs M hM).2) (fun M hM => (hs1 M hM).2) hN' Φ el beta mu A lead
  have hE : ∀ x : NId, x.1.toNat ≤ a.n + a.n → nLevel es x = nLevel es1 x := by
    intro x hx
    unfold nLevel nidEnergy
    rw [(hs _ hx).1, (hs1 _ hx).1]
    simp only [hv _ hx]
  have hids : matrixIds st.W = matrixIds st1.W := by
    have w0 := (sqtnl_weights hi hP.seq (sqtnlDicts_forM hst) (by simp) (by simp) fun _ => 0).2.2
    have w1 := (sqtnl_weights hi hP1.seq (sqtnlDicts_forM hst1) (by simp) (by simp) fun _ => 0).2.2
    have hk := ups_keys (a := a) hv (st := s) (st1 := s1) hN'
    have mem : ∀ {g : List ((NId × NId) × List NGf)} {e : NId → ℝ} {L : List ((NId × NId) × NGf)}, Paired g e L → ∀ x, (∃ q ∈ flatD g, q.1.1 = x ∨ q.1.2 = x) ↔ ∃ k ∈ L.map Prod.fst, k.1 = x ∨ k.2 = x := by
      intro g e L hp x
      rw [hp.flat]
      constructor
      · rintro ⟨q, hq, hx⟩
        rcases Multiset.mem_add.mp hq with hq | hq
        · exact ⟨q.1, List.mem_map.mpr ⟨q, by simpa using hq, rfl⟩, hx⟩
        · obtain ⟨q', hq', rfl⟩ := List.mem_map.mp (Multiset.mem_coe.mp hq)
          exact ⟨q'.1, List.mem_map.mpr ⟨q', hq', rfl⟩, hx.symm⟩
      · rintro ⟨k, hk, hx⟩
        obtain ⟨q, hq, rfl⟩ := List.mem_map.mp hk
        exact ⟨q, Multiset.mem_add.mpr (.inl (by simpa using hq)), hx⟩
    refine matrixIds_ext fun x => ?_
    rw [w0, w1, mem hP, mem hP1, hk]
  have hT : matrixIds st.T = matrixIds st1.T := by rw [paired_ids hP hi hst, paired_ids hP1 hi hst1, hids]
  have htr : ∀ ψ : ℤ × ℝ → ℤ × ℝ → ℝ,
      ∑ f ∈ Finset.range (matrixIds st.T).length, ∑ i ∈ Finset.range (matrixIds st.T).length, dictToMatrix st.T f i * ψ (nRowLevel es (matrixIds st.T) f) (nRowLevel es (matrixIds st.T) i) =
      ∑ f ∈ Finset.range (matrixIds st1.T).length, ∑ i ∈ Finset.range (matrixIds st1.T).length, dictToMatrix st1.T f i * ψ (nRowLevel es1 (matrixIds st1.T) f) (nRowLevel es1 (matrixIds st1.T) i) := by
    intro ψ
    unfold nRowLevel
    rw [matrix_T hP hi hst fun x y => ψ (nLevel es x) (nLevel es y), matrix_T hP1 hi hst1 fun x y => ψ (nLevel es1 x) (nLevel es1 y)]
    rw [hlev (fun k l => -ψ k l) true inject, hlev (fun k l => ψ l k) false inject]
  refine ⟨hids, hT, fun i => ?_, fun ψ => ?_, htr, fun p => htr fun _ l => p l⟩
  · unfold nRowLevel
    rw [← hids]
    refine hE _ ?_
    by_cases hl : i < (matrixIds st.W).length
    · rw [List.getElem?_eq_getElem hl, Option.getD_some]
      have hm := List.getElem_mem hl
      have w0 := (sqtnl_weights hi hP.seq (sqtnlDicts_forM hst) (by simp) (by simp) fun _ => 0).2.2
      obtain h0 | ⟨q, hq, hx⟩ := (w0 _).mp hm
      · simp [matrixIds, uniqueSorted] at h0
      · rw [hP.flat] at hq
        have : ∀ q ∈ allUps a.n (s (N - 1)) (s N) (s (N + 1)) (nSctAt es (N - 1)) (nSctAt es N) (nSctAt es (N + 1)) N, q.1.1.1.toNat ≤ a.n + a.n ∧ q.1.2.1.toNat ≤ a.n + a.n := by
          intro q hq
          rcases ups_mem hq with ⟨c, j, i, t, rfl⟩ | ⟨c, j, i, t, rfl⟩ <;> simp only <;> omega
        rcases Multiset.mem_add.mp hq with hq | hq
        · obtain ⟨b1, b2⟩ := this q (by simpa using hq)
          rcases hx with hx | hx <;> rw [← hx] <;> assumption
        · obtain ⟨q', hq', rfl⟩ := List.mem_map.mp (Multiset.mem_coe.mp hq)
          obtain ⟨b1, b2⟩ := this q' hq'
          rcases hx with hx | hx <;> rw [← hx] <;> assumption
    · rw [List.getElem?_eq_none (by omega)]; simp
  · unfold nRowLevel
    rw [matrix_W hP hi hst fun x y => ψ (nLevel es x) (nLevel es y), matrix_W hP1 hi hst1 fun x y => ψ (nLevel es1 x) (nLevel es1 y)]
    rw [hlev (fun k l => ψ k l - ψ l l) true 0, hlev (fun k l => ψ k l - ψ l l) true 1, hlev (fun k l => ψ l k - ψ k k) false 0, hlev (fun k l => ψ l k - ψ k k) false 1]

end Edpyt
