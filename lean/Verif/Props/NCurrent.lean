import Verif.Props.Extract
import Verif.Props.SqCurrent
/-!
C166: currents of sequential tunnelling between the states of `sqtnl`.
-/
namespace Edpyt
open Spec

/-! ### Specification -/

/-- The current of the lead `inject`: the sum of the entries of `T p`. It counts electrons that leave the dot towards this lead. -/
noncomputable def Spec.nCurrent (st : NState) (p : ℕ → ℝ) : ℝ :=
  ∑ a ∈ Finset.range (matrixIds st.T).length, ∑ b ∈ Finset.range (matrixIds st.T).length, dictToMatrix st.T a b * p b

/-- The number of electrons of the state of row `a`. -/
def Spec.rowCharge (ids : List NId) (a : ℕ) : ℝ := ((ids[a]?.getD (0, 0)).1 : ℝ)

/-- The energy of a state in the spectrum. -/
noncomputable def Spec.nidEnergy (es : Espace ℕ) (x : NId) : ℝ :=
  match dictGet es x.1.toNat with | .ok s => s.eigvals[x.2]?.getD 0 | .error _ => 0

/-! ### Sums over the elements -/

theorem wsum_matrix {D : List ((NId × NId) × ℝ)} {ids : List NId} (hids : matrixIds D = ids) (X : ℕ → ℕ → ℝ) :
    ∑ a ∈ Finset.range ids.length, ∑ b ∈ Finset.range ids.length, dictToMatrix D a b * X a b =
      wsum (fun k => X (ids.idxOf k.1) (ids.idxOf k.2)) D := by
  have hmem : ∀ p ∈ D, ids.idxOf p.1.1 < ids.length ∧ ids.idxOf p.1.2 < ids.length := by
    intro p hp
    exact ⟨List.idxOf_lt_length_iff.mpr (hids ▸ mem_matrixIds.mpr (.inl ⟨p, hp, rfl⟩)), List.idxOf_lt_length_iff.mpr (hids ▸ mem_matrixIds.mpr (.inr ⟨p, hp, rfl⟩))⟩
  have h1 : ∀ a b, dictToMatrix D a b = wsum (fun k => if a = ids.idxOf k.1 ∧ b = ids.idxOf k.2 then 1 else 0) D := by
    intro a b; rw [dictToMatrix_wsum, hids]
  simp only [h1]
  unfold wsum
  clear hids h1
  induction D with
  | nil => simp
  | cons p D ih =>
    have := ih fun q hq => hmem q (by simp [hq])
    simp only [List.map_cons, List.sum_cons, add_mul, Finset.sum_add_distrib, this]
    congr 1
    obtain ⟨ha, hb⟩ := hmem p (by simp)
    rw [Finset.sum_eq_single (ids.idxOf p.1.1), Finset.sum_eq_single (ids.idxOf p.1.2)]
    · simp [mul_comm]
    · intro b _ hb'; simp [hb']
    · intro h; exact absurd (Finset.mem_range.mpr hb) h
    · intro a _ ha'; simp [ha']
    · intro h; exact absurd (Finset.mem_range.mpr ha) h

theorem sqtnlDicts_forM {gd : List ((NId × NId) × List NGf)} {beta : ℝ} {mu : List ℝ} {A : List (List ℝ)} {inject : ℤ} {st : NState}
    (h : sqtnlDicts gd beta mu A inject = .ok st) : forM' (sqtnlStep beta mu A inject) gd ⟨[], [], none⟩ = .ok st := by
  unfold sqtnlDicts at h
  cases h0 : checkElements gd with
  | error e => simp [h0, bind, Except.bind] at h
  | ok u => rw [h0] at h; exact h

theorem seqDict_off {gd : List ((NId × NId) × List NGf)} (hg : SeqDict gd) : ∀ p ∈ gd, p.1.1 ≠ p.1.2 := by
  intro p hp
  obtain ⟨q, hq, h⟩ := (seq_ids hg p.1).mp (List.mem_map.mpr ⟨p, hp, rfl⟩)
  rw [← h]
  exact hg.off q hq

/-- The element in the other direction. -/
def reverseEl (q : (NId × NId) × NGf) : (NId × NId) × NGf := ((q.1.2, q.1.1), { q.2 with el := false })

/-- The elements come in pairs which add and remove the same electron. -/
structure Paired (gd : List ((NId × NId) × List NGf)) (En : NId → ℝ) (L : List ((NId × NId) × NGf)) : Prop where
  seq : SeqDict gd
  flat : flatD gd = ↑L + ↑(L.map reverseEl)
  el : ∀ q ∈ L, q.2.el = true
  charge : ∀ q ∈ L, q.1.1.1 = q.1.2.1 + 1
  energy : ∀ q ∈ L, q.2.E = En q.1.1 - En q.1.2

section
variable {gd : List ((NId × NId) × List NGf)} {En : NId → ℝ} {L : List ((NId × NId) × NGf)} (hP : Paired gd En L)
  {beta : ℝ} {mu : List ℝ} {A : List (List ℝ)} {inject : ℕ} (hi : inject < 2) {st : NState} (h : sqtnlDicts gd beta mu A inject = .ok st)

include hP

theorem paired_sum (φ : (NId × NId) × NGf → ℝ) : ((flatD gd).map φ).sum = (L.map fun q => φ q + φ (reverseEl q)).sum := by
  rw [hP.flat, Multiset.map_add, Multiset.sum_add, Multiset.map_coe, Multiset.map_coe, Multiset.sum_coe, Multiset.sum_coe, List.map_map, List.sum_map_add]
  rfl

include hi h

theorem paired_ids : matrixIds st.T = matrixIds st.W := (C79_sqtnl (seqDict_off hP.seq) h).symm

theorem paired_mem {q : (NId × NId) × NGf} (hq : q ∈ L) : q.1.1 ∈ matrixIds st.W ∧ q.1.2 ∈ matrixIds st.W := by
  have w := (sqtnl_weights hi hP.seq (sqtnlDicts_forM h) (by simp) (by simp) fun _ => 0).2.2
  have hm : q ∈ flatD gd := by rw [hP.flat]; exact Multiset.mem_add.mpr (.inl (by simpa using hq))
  exact ⟨(w _).mpr (.inr ⟨q, hm, .inl rfl⟩), (w _).mpr (.inr ⟨q, hm, .inr rfl⟩)⟩

/-- The mean change of a function of the state, element by element. -/
theorem paired_rate (X p : ℕ → ℝ) : ∑ a ∈ Finset.range (matrixIds st.W).length, X a * ∑ b ∈ Finset.range (matrixIds st.W).length, dictToMatrix st.W a b * p b =
    (L.map fun q => ((ratePart beta mu A 0 q.2 + ratePart beta mu A 1 q.2) * p ((matrixIds st.W).idxOf q.1.2) -
      (ratePart beta mu A 0 (reverseEl q).2 + ratePart beta mu A 1 (reverseEl q).2) * p ((matrixIds st.W).idxOf q.1.1)) *
        (X ((matrixIds st.W).idxOf q.1.1) - X ((matrixIds st.W).idxOf q.1.2))).sum := by
  have h1 : ∑ a ∈ Finset.range (matrixIds st.W).length, X a * ∑ b ∈ Finset.range (matrixIds st.W).length, dictToMatrix st.W a b * p b =
      ∑ a ∈ Finset.range (matrixIds st.W).length, ∑ b ∈ Finset.range (matrixIds st.W).length, dictToMatrix st.W a b * (X a * p b) := by
    refine Finset.sum_congr rfl fun a _ => ?_
    rw [Finset.mul_sum]
    exact Finset.sum_congr rfl fun b _ => by ring
  rw [h1, wsum_matrix rfl fun a b => X a * p b, (sqtnl_weights hi hP.seq (sqtnlDicts_forM h) (by simp) (by simp) _).1, paired_sum hP]
  have z : ∀ w : NId × NId → ℝ, wsum w ([] : List ((NId × NId) × ℝ)) = 0 := fun w => rfl
  rw [z, zero_add]
  congr 1
  refine List.map_congr_left fun q _ => ?_
  simp only [reverseEl]
  ring

/-- The current, element by element. -/
theorem paired_current (p : ℕ → ℝ) : nCurrent st p = -(L.map fun q => ratePart beta mu A inject q.2 * p ((matrixIds st.W).idxOf q.1.2) -
      ratePart beta mu A inject (reverseEl q).2 * p ((matrixIds st.W).idxOf q.1.1)).sum := by
  unfold nCurrent
  rw [wsum_matrix rfl fun _ b => p b, (sqtnl_weights hi hP.seq (sqtnlDicts_forM h) (by simp) (by simp) _).2.1, paired_sum hP]
  have z : ∀ w : NId × NId → ℝ, wsum w ([] : List ((NId × NId) × ℝ)) = 0 := fun w => rfl
  rw [z, zero_add, paired_ids hP hi h]
  have hneg : ∀ (l : List ((NId × NId) × NGf)) (φ ψ : (NId × NId) × NGf → ℝ), (∀ q ∈ l, φ q = -ψ q) → (l.map φ).sum = -(l.map ψ).sum := by
    intro l φ ψ hφ
    induction l with
    | nil => simp
    | cons q l ih => rw [List.map_cons, List.map_cons, List.sum_cons, List.sum_cons, ih fun x hx => hφ x (by simp [hx]), hφ q (by simp)]; ring
  refine hneg _ _ _ fun q hq => ?_
  simp only [reverseEl, hP.el q hq, if_true]
  simp only [Bool.false_eq_true, if_false]
  ring

theorem paired_charge {q : (NId × NId) × NGf} (hq : q ∈ L) : rowCharge (matrixIds st.W) ((matrixIds st.W).idxOf q.1.1) -
    rowCharge (matrixIds st.W) ((matrixIds st.W).idxOf q.1.2) = 1 := by
  obtain ⟨m1, m2⟩ := paired_mem hP hi h hq
  unfold rowCharge
  rw [List.getElem?_idxOf m1, List.getElem?_idxOf m2, Option.getD_some, Option.getD_some, hP.charge q hq]
  push_cast; ring

end

theorem list_sum_sub (l : List ((NId × NId) × NGf)) (φ ψ : (NId × NId) × NGf → ℝ) : (l.map fun q => φ q - ψ q).sum = (l.map φ).sum - (l.map ψ).sum := by
  induction l with
  | nil => simp
  | cons q l ih => simp only [List.map_cons, List.sum_cons, ih]; ring

theorem paired_W {gd : List ((NId × NId) × List NGf)} {En : NId → ℝ} {L : List ((NId × NId) × NGf)} (hP : Paired gd En L)
    {beta : ℝ} {mu : List ℝ} {A : List (List ℝ)} {st0 st1 : NState} (h0 : sqtnlDicts gd beta mu A 0 = .ok st0) (h1 : sqtnlDicts gd beta mu A 1 = .ok st1) :
    matrixIds st0.W = matrixIds st1.W ∧ ∀ a b, dictToMatrix st0.W a b = dictToMatrix st1.W a b := by
  have w0 := sqtnl_weights (inject := 0) (by norm_num) hP.seq (sqtnlDicts_forM h0) (by simp) (by simp)
  have w1 := sqtnl_weights (inject := 1) (by norm_num) hP.seq (sqtnlDicts_forM h1) (by simp) (by simp)
  have hids : matrixIds st0.W = matrixIds st1.W := matrixIds_ext fun x => by rw [(w0 fun _ => 0).2.2, (w1 fun _ => 0).2.2]
  exact ⟨hids, fun a b => by rw [dictToMatrix_wsum, dictToMatrix_wsum, hids, (w0 _).1, (w1 _).1]⟩

theorem paired_continuity {gd : List ((NId × NId) × List NGf)} {En : NId → ℝ} {L : List ((NId × NId) × NGf)} (hP : Paired gd En L)
    {beta : ℝ} {mu : List ℝ} {A : List (List ℝ)} {st0 st1 : NState} (h0 : sqtnlDicts gd beta mu A 0 = .ok st0) (h1 : sqtnlDicts gd beta mu A 1 = .ok st1) (p : ℕ → ℝ) :
    nCurrent st0 p + nCurrent st1 p = -∑ a ∈ Finset.range (matrixIds st0.W).length, rowCharge (matrixIds st0.W) a *
      ∑ b ∈ Finset.range (matrixIds st0.W).length, dictToMatrix st0.W a b * p b := by
  have h0' : sqtnlDicts gd beta mu A (0 : ℕ) = .ok st0 := h0
  have h1' : sqtnlDicts gd beta mu A (1 : ℕ) = .ok st1 := h1
  rw [paired_current hP (inject := 0) (by norm_num) h0', paired_current hP (inject := 1) (by norm_num) h1', (paired_W hP h0 h1).1.symm,
    paired_rate hP (inject := 0) (by norm_num) h0', ← neg_add, ← List.sum_map_add]
  congr 2
  refine List.map_congr_left fun q hq => ?_
  rw [paired_charge hP (inject := 0) (by norm_num) h0' hq]
  ring

/-! ### Entropy production -/

theorem ratePart_balance {g : NGf} (he : g.el = true) {beta : ℝ} {mu : List ℝ} {A : List (List ℝ)} {lead : ℕ} {m : ℝ} (hm : getItem mu lead = .ok m)
    (hb : |beta * (g.E - m)| ≤ 100) :
    ratePart beta mu A lead g = ratePart beta mu A lead { g with el := false } * Real.exp (-(beta * (g.E - m))) := by
  have hc : ∀ g : NGf, sqtnlGamma [g] beta mu A lead = (do let a ← getItem A lead; let x ← g.call a beta m; pure (0 + x)) := by
    intro g
    unfold sqtnlGamma
    simp only [forM', hm, bind, Except.bind]
    cases getItem A lead with
    | error e => rfl
    | ok a =>
      simp only
      cases g.call a beta m <;> rfl
  unfold ratePart
  rw [hc, hc]
  cases hA : getItem A lead with
  | error e => simp [bind, Except.bind]
  | ok a =>
    simp only [bind, Except.bind]
    cases h1 : g.call a beta m with
    | error e =>
      unfold NGf.call at h1 ⊢
      cases h2 : dotArr g.v a with
      | error e => simp [h2, bind, Except.bind]
      | ok y => simp [h2, bind, Except.bind, pure, Except.pure] at h1
    | ok x =>
      cases h2 : NGf.call { g with el := false } a beta m with
      | error e =>
        unfold NGf.call at h1 h2
        cases h3 : dotArr g.v a with
        | error e => simp [h3, bind, Except.bind] at h1
        | ok y => simp [h3, bind, Except.bind, pure, Except.pure] at h2
      | ok y =>
        simp only [pure, Except.pure, zero_add]
        exact call_balance he h1 h2 hb

theorem pair_zero {x y : ℝ} (hx : 0 < x) (hy : 0 < y) (h : (x - y) * (Real.log x - Real.log y) ≤ 0) : x = y := by
  by_contra hne
  rcases lt_or_gt_of_ne hne with h1 | h1
  · have := Real.log_lt_log hx h1
    nlinarith [mul_pos (sub_pos.mpr h1) (sub_pos.mpr this)]
  · have := Real.log_lt_log hy h1
    nlinarith [mul_pos (sub_pos.mpr h1) (sub_pos.mpr this)]

/-- Entropy production of an element at a lead. -/
theorem entropy_pair {r p p' e : ℝ} (hr : 0 ≤ r) (hp : 0 < p) (hp' : 0 < p') :
    0 ≤ (r * Real.exp (-e) * p - r * p') * (Real.log p - Real.log p' - e) ∧
      ((r * Real.exp (-e) * p - r * p') * (Real.log p - Real.log p' - e) ≤ 0 → r * Real.exp (-e) * p - r * p' = 0) := by
  rcases hr.lt_or_eq with hr | rfl
  · have hx : 0 < r * Real.exp (-e) * p := by positivity
    have hy : 0 < r * p' := by positivity
    have hl : Real.log (r * Real.exp (-e) * p) - Real.log (r * p') = Real.log p - Real.log p' - e := by
      rw [Real.log_mul (by positivity) hp.ne', Real.log_mul hr.ne' (Real.exp_pos _).ne', Real.log_exp, Real.log_mul hr.ne' hp'.ne']
      ring
    rw [← hl]
    exact ⟨pair_nonneg hx hy, fun h => sub_eq_zero.mpr (pair_zero hx hy h)⟩
  · simp

theorem list_sum_nonneg (l : List ((NId × NId) × NGf)) (φ : (NId × NId) × NGf → ℝ) (h : ∀ q ∈ l, 0 ≤ φ q) : 0 ≤ (l.map φ).sum :=
  List.sum_nonneg fun x hx => by obtain ⟨q, hq, rfl⟩ := List.mem_map.mp hx; exact h q hq

theorem list_sum_zero (l : List ((NId × NId) × NGf)) (φ : (NId × NId) × NGf → ℝ) (h : ∀ q ∈ l, 0 ≤ φ q) (h0 : (l.map φ).sum ≤ 0) : ∀ q ∈ l, φ q ≤ 0 := by
  induction l with
  | nil => simp
  | cons q l ih =>
    rw [List.map_cons, List.sum_cons] at h0
    have h1 := h q (by simp)
    have h2 := list_sum_nonneg l φ fun x hx => h x (by simp [hx])
    intro x hx
    rcases List.mem_cons.mp hx with rfl | hx
    · linarith
    · exact ih (fun x hx => h x (by simp [hx])) (by linarith) x hx

section
variable {gd : List ((NId × NId) × List NGf)} {En : NId → ℝ} {L : List ((NId × NId) × NGf)} (hP : Paired gd En L)
    {beta m0 m1 : ℝ} (hb : 0 < beta) {A : List (List ℝ)} {st0 st1 : NState}
    (h0 : sqtnlDicts gd beta [m0, m1] A 0 = .ok st0) (h1 : sqtnlDicts gd beta [m0, m1] A 1 = .ok st1) {p : ℕ → ℝ}
    (hs : IsStationary (matrixIds st0.W).length (dictToMatrix st0.W) p) (hpos : ∀ a, a < (matrixIds st0.W).length → 0 < p a)
    (hcut : ∀ q ∈ L, |beta * (q.2.E - m0)| ≤ 100 ∧ |beta * (q.2.E - m1)| ≤ 100)

include hP hb h0 h1 hs hpos hcut in
theorem paired_second : 0 ≤ (m0 - m1) * -nCurrent st0 p ∧ (m0 = m1 → nCurrent st0 p = 0 ∧ nCurrent st1 p = 0) := by
  set ids := matrixIds st0.W with hids
  have h0' : sqtnlDicts gd beta [m0, m1] A (0 : ℕ) = .ok st0 := h0
  have h1' : sqtnlDicts gd beta [m0, m1] A (1 : ℕ) = .ok st1 := h1
  set J : ℕ → (NId × NId) × NGf → ℝ := fun lead q => ratePart beta [m0, m1] A lead q.2 * p (ids.idxOf q.1.2) -
      ratePart beta [m0, m1] A lead (reverseEl q).2 * p (ids.idxOf q.1.1) with hJ
  have c0 : nCurrent st0 p = -(L.map (J 0)).sum := paired_current hP (inject := 0) (by norm_num) h0' p
  have c1 : nCurrent st1 p = -(L.map (J 1)).sum := by
    have := paired_current hP (inject := 1) (by norm_num) h1' p
    rw [← (paired_W hP h0 h1).1] at this
    exact this
  have hst : ∀ X : ℕ → ℝ, (L.map fun q => (J 0 q + J 1 q) * (X (ids.idxOf q.1.1) - X (ids.idxOf q.1.2))).sum = 0 := by
    intro X
    have := paired_rate hP (inject := 0) (by norm_num) h0' X p
    rw [Finset.sum_eq_zero fun a ha => by rw [hs a (Finset.mem_range.mp ha), mul_zero]] at this
    rw [this]
    congr 1
    refine List.map_congr_left fun q _ => ?_
    simp only [hJ]
    ring
  have hcons : (L.map (J 0)).sum + (L.map (J 1)).sum = 0 := by
    have := paired_continuity hP h0 h1 p
    rw [Finset.sum_eq_zero fun a ha => by rw [hs a (Finset.mem_range.mp ha), mul_zero], c0, c1] at this
    linarith
  -- energies of the rows
  set X : ℕ → ℝ := fun a => Real.log (p a) + beta * En (ids[a]?.getD (0, 0)) with hX
  have hpair : ∀ q ∈ L, ∀ lead m, getItem [m0, m1] (lead : ℕ) = .ok m → |beta * (q.2.E - m)| ≤ 100 →
      0 ≤ J lead q * (X (ids.idxOf q.1.2) - X (ids.idxOf q.1.1) + beta * m) ∧
      (J lead q * (X (ids.idxOf q.1.2) - X (ids.idxOf q.1.1) + beta * m) ≤ 0 → J lead q = 0) := by
    intro q hq lead m hm hc
    obtain ⟨k1, k2⟩ := paired_mem hP (inject := 0) (by norm_num) h0' hq
    have l1 := List.idxOf_lt_length_iff.mpr k1
    have l2 := List.idxOf_lt_length_iff.mpr k2
    have key := entropy_pair (ratePart_nonneg beta [m0, m1] A lead (reverseEl q).2) (hpos _ l2) (hpos _ l1) (e := beta * (q.2.E - m))
    have hbal := ratePart_balance (A := A) (hP.el q hq) hm hc
    have hJe : J lead q = ratePart beta [m0, m1] A lead (reverseEl q).2 * Real.exp (-(beta * (q.2.E - m))) * p (ids.idxOf q.1.2) -
      ratePart beta [m0, m1] A lead (reverseEl q).2 * p (ids.idxOf q.1.1) := by
      simp only [hJ, reverseEl]
      rw [hbal]
    have hXe : X (ids.idxOf q.1.2) - X (ids.idxOf q.1.1) + beta * m = Real.log (p (ids.idxOf q.1.2)) - Real.log (p (ids.idxOf q.1.1)) - beta * (q.2.E - m) := by
      simp only [hX]
      rw [List.getElem?_idxOf k1, List.getElem?_idxOf k2, Option.getD_some, Option.getD_some, hP.energy q hq]
      ring
    rw [hJe, hXe]
    exact key
  have g0 : getItem [m0, m1] ((0 : ℕ) : ℤ) = .ok m0 := by simp [getItem, pyIndex]
  have g1 : getItem [m0, m1] ((1 : ℕ) : ℤ) = .ok m1 := by simp [getItem, pyIndex]
  set S : (NId × NId) × NGf → ℝ := fun q => J 0 q * (X (ids.idxOf q.1.2) - X (ids.idxOf q.1.1) + beta * m0) +
    J 1 q * (X (ids.idxOf q.1.2) - X (ids.idxOf q.1.1) + beta * m1) with hS
  have hS0 : ∀ q ∈ L, 0 ≤ S q := fun q hq => add_nonneg (hpair q hq 0 m0 g0 (hcut q hq).1).1 (hpair q hq 1 m1 g1 (hcut q hq).2).1
  have htot : (L.map S).sum = beta * (m0 * (L.map (J 0)).sum + m1 * (L.map (J 1)).sum) := by
    have e : (L.map S).sum = -(L.map fun q => (J 0 q + J 1 q) * (X (ids.idxOf q.1.1) - X (ids.idxOf q.1.2))).sum + beta * (m0 * (L.map (J 0)).sum + m1 * (L.map (J 1)).sum) := by
      clear hst hcons hS0 hpair c0 c1 hcut
      clear hP
      induction L with
      | nil => simp
      | cons q L ih => simp only [List.map_cons, List.sum_cons]; rw [ih]; simp only [hS]; ring
    rw [e, hst X, neg_zero, zero_add]
  have hnn := list_sum_nonneg L S hS0
  rw [htot] at hnn
  have hnn' := (mul_nonneg_iff_of_pos_left hb).mp hnn
  refine ⟨?_, fun hm => ?_⟩
  · rw [c0, neg_neg]
    have : (L.map (J 1)).sum = -(L.map (J 0)).sum := by linarith
    rw [this] at hnn'
    linarith
  · have hz : (L.map S).sum ≤ 0 := by rw [htot, hm, ← mul_add, hcons]; simp
    have hz' := list_sum_zero L S hS0 hz
    have j0 : ∀ q ∈ L, J 0 q = 0 := by
      intro q hq
      have a0 := hpair q hq 0 m0 g0 (hcut q hq).1
      have a1 := hpair q hq 1 m1 g1 (hcut q hq).2
      exact a0.2 (by have := hz' q hq; simp only [hS] at this; linarith [a1.1])
    have hzero : (L.map (J 0)).sum = 0 := by
      rw [List.map_congr_left (g := fun _ => 0) j0]; simp
    exact ⟨by rw [c0, hzero, neg_zero], by rw [c1]; linarith⟩

end

/-! ### The elements of a spectrum come in pairs -/

/-- The elements which add an electron to a state of sector `N`. -/
noncomputable def upList (n : ℕ) (sI sJ : List ℕ) (I J : Sct) (N : ℤ) (s : ℕ) : List ((NId × NId) × NGf) :=
  (ndindex2 J.eigvals.length I.eigvals.length).map fun ji => (((N + 1, ji.1), (N, ji.2)), element n sI sJ I J ji.1 ji.2 true s)

noncomputable def allUps (n : ℕ) (sK sI sJ : List ℕ) (K I J : Sct) (N : ℕ) : List ((NId × NId) × NGf) :=
  (List.range 2).flatMap fun s => (if (N : ℤ) + 1 < 2 * n then upList n sI sJ I J N s else []) ++
    if (N : ℤ) - 1 > 0 then upList n sK sI K I (N - 1 : ℤ) s else []

theorem down_eq (n : ℕ) (sI sJ : List ℕ) (I J : Sct) (N : ℤ) (s : ℕ) :
    (↑((ndindex2 I.eigvals.length J.eigvals.length).map fun ij => (((N, ij.1), (N + 1, ij.2)), element n sI sJ I J ij.2 ij.1 false s)) : Multiset ((NId × NId) × NGf)) =
      ↑((upList n sI sJ I J N s).map reverseEl) := by
  unfold upList
  rw [List.map_map, coe_ndindex2, coe_ndindex2, Finset.sum_comm]
  rfl

theorem pairList_up_rev (n : ℕ) (sI sJ : List ℕ) (I J : Sct) (N : ℤ) (s : ℕ) :
    (↑(pairList n sI sJ I J N s) : Multiset ((NId × NId) × NGf)) = ↑(upList n sI sJ I J N s) + ↑((upList n sI sJ I J N s).map reverseEl) := by
  rw [← down_eq]; rfl

theorem pairList'_up_rev (n : ℕ) (sI sJ : List ℕ) (I J : Sct) (N : ℤ) (s : ℕ) :
    (↑(pairList' n sI sJ I J N s) : Multiset ((NId × NId) × NGf)) = ↑(upList n sI sJ I J N s) + ↑((upList n sI sJ I J N s).map reverseEl) := by
  rw [← down_eq, add_comm]; rfl

theorem allPairs_up_rev (n : ℕ) (sK sI sJ : List ℕ) (K I J : Sct) (N : ℕ) :
    (↑(allPairs n sK sI sJ K I J N) : Multiset ((NId × NId) × NGf)) = ↑(allUps n sK sI sJ K I J N) + ↑((allUps n sK sI sJ K I J N).map reverseEl) := by
  have h2 : List.range 2 = [0, 1] := rfl
  unfold allPairs allUps
  rw [h2]
  simp only [List.flatMap_cons, List.flatMap_nil, List.append_nil, List.map_append, ← Multiset.coe_add]
  by_cases c1 : (N : ℤ) + 1 < 2 * n <;> by_cases c2 : (N : ℤ) - 1 > 0 <;>
    simp only [c1, c2, if_true, if_false, pairList_up_rev, pairList'_up_rev, List.map_nil, Multiset.coe_nil, add_zero, zero_add] <;> abel

theorem ups_mem {n N : ℕ} {sK sI sJ : List ℕ} {K I J : Sct} {q : (NId × NId) × NGf} (h : q ∈ allUps n sK sI sJ K I J N) :
    ((N : ℤ) + 1 < 2 * n ∧ ∃ j i s, q = (((((N : ℤ) + 1), j), ((N : ℤ), i)), element n sI sJ I J j i true s)) ∨
    ((N : ℤ) - 1 > 0 ∧ ∃ j i s, q = ((((N : ℤ) - 1 + 1, j), ((N : ℤ) - 1, i)), element n sK sI K I j i true s)) := by
  unfold allUps at h
  obtain ⟨s, -, h⟩ := List.mem_flatMap.mp h
  rcases List.mem_append.mp h with h | h
  · split at h
    · rename_i hc
      obtain ⟨x, -, rfl⟩ := List.mem_map.mp h
      exact .inl ⟨hc, x.1, x.2, s, rfl⟩
    · simp at h
  · split at h
    · rename_i hc
      obtain ⟨x, -, rfl⟩ := List.mem_map.mp h
      exact .inr ⟨hc, x.1, x.2, s, rfl⟩
    · simp at h

theorem nidEnergy_of {es : Espace ℕ} {N : ℤ} {M : ℕ} (hNM : N = M) {s : Sct} (h : dictGet es M = .ok s) (k : ℕ) : nidEnergy es (N, k) = s.eigvals[k]?.getD 0 := by
  unfold nidEnergy
  subst hNM
  simp [h]

theorem build_paired_ups {junk n N : ℕ} (hn : 2 * n ≤ 32) {es : Espace ℕ} (hes : NEspaceOk n es) (hN : N ≤ 2 * n) {egs : Option ℝ} {gd : List ((NId × NId) × List NGf)}
    (hgd : sqtnlBuild junk n es (some (N : ℤ)) egs = .ok gd) {K I J : Sct} {sK sI sJ : List ℕ} (hI : dictGet es N = .ok I ∧ NSctOk n N I sI)
    (hJ : (N : ℤ) + 1 < 2 * n → dictGet es (N + 1) = .ok J ∧ NSctOk n (N + 1) J sJ) (hK : (N : ℤ) - 1 > 0 → dictGet es (N - 1) = .ok K ∧ NSctOk n (N - 1) K sK) :
    Paired gd (nidEnergy es) (allUps n sK sI sJ K I J N) := by
  have hseq := seq_build hn hes hN hgd
  have hb := sqtnlBuild_eq (junk := junk) hn hI hJ hK egs
  rw [hgd, Except.ok.injEq] at hb
  refine ⟨hseq, ?_, ?_, ?_, ?_⟩
  · rw [hb, flatD_perm (List.mergeSort_perm _ _), flatD_foldl_appendN _ [] (by simp), flatD_nil, zero_add, allPairs_up_rev]
  · intro q hq
    rcases ups_mem hq with ⟨-, j, i, s, rfl⟩ | ⟨-, j, i, s, rfl⟩ <;> rfl
  · intro q hq
    rcases ups_mem hq with ⟨-, j, i, s, rfl⟩ | ⟨-, j, i, s, rfl⟩ <;> rfl
  · intro q hq
    rcases ups_mem hq with ⟨hc, j, i, s, rfl⟩ | ⟨hc, j, i, s, rfl⟩
    · rw [nidEnergy_of (M := N + 1) (by push_cast; rfl) (hJ hc).1, nidEnergy_of (M := N) rfl hI.1]; rfl
    · rw [nidEnergy_of (M := N) (by ring) hI.1, nidEnergy_of (M := N - 1) (by omega) (hK hc).1]; rfl

theorem build_paired {junk n N : ℕ} (hn : 2 * n ≤ 32) {es : Espace ℕ} (hes : NEspaceOk n es) (hN : N ≤ 2 * n) {egs : Option ℝ} {gd : List ((NId × NId) × List NGf)}
    (hgd : sqtnlBuild junk n es (some (N : ℤ)) egs = .ok gd) : ∃ L, Paired gd (nidEnergy es) L := by
  obtain ⟨K, I, J, sK, sI, sJ, hI, hJ, hK⟩ := sectors_of hes hN
  exact ⟨_, build_paired_ups hn hes hN hgd hI hJ hK⟩

/-! ### Properties -/

/-- **C166** continuity: for every complete spectrum, number of electrons, temperature, chemical potentials, couplings and distribution
`p` over the states, the rate matrix does not depend on the lead whose current is asked for, and the currents of the two leads add up to
the rate at which the mean number of electrons on the dot falls. -/
theorem C166_continuity {junk n N : ℕ} (hn : 2 * n ≤ 32) {es : Espace ℕ} (hes : NEspaceOk n es) (hN : N ≤ 2 * n) {egs : Option ℝ} {gd : List ((NId × NId) × List NGf)}
    (hgd : sqtnlBuild junk n es (some (N : ℤ)) egs = .ok gd) {beta : ℝ} {mu : List ℝ} {A : List (List ℝ)} {st0 st1 : NState}
    (h0 : sqtnlDicts gd beta mu A 0 = .ok st0) (h1 : sqtnlDicts gd beta mu A 1 = .ok st1) (p : ℕ → ℝ) :
    matrixIds st0.T = matrixIds st0.W ∧ matrixIds st1.T = matrixIds st0.W ∧ matrixIds st1.W = matrixIds st0.W ∧
      (∀ a b, dictToMatrix st1.W a b = dictToMatrix st0.W a b) ∧
      nCurrent st0 p + nCurrent st1 p = -∑ a ∈ Finset.range (matrixIds st0.W).length, rowCharge (matrixIds st0.W) a *
        ∑ b ∈ Finset.range (matrixIds st0.W).length, dictToMatrix st0.W a b * p b := by
  obtain ⟨L, hP⟩ := build_paired hn hes hN hgd
  have hW := paired_W hP h0 h1
  exact ⟨paired_ids hP (inject := 0) (by norm_num) h0, (paired_ids hP (inject := 1) (by norm_num) h1).trans hW.1.symm, hW.1.symm, fun a b => (hW.2 a b).symm, paired_continuity hP h0 h1 p⟩

/-- **C166** conservation: in a stationary state what one lead gives the other receives. -/
theorem C166_conservation {junk n N : ℕ} (hn : 2 * n ≤ 32) {es : Espace ℕ} (hes : NEspaceOk n es) (hN : N ≤ 2 * n) {egs : Option ℝ} {gd : List ((NId × NId) × List NGf)}
    (hgd : sqtnlBuild junk n es (some (N : ℤ)) egs = .ok gd) {beta : ℝ} {mu : List ℝ} {A : List (List ℝ)} {st0 st1 : NState}
    (h0 : sqtnlDicts gd beta mu A 0 = .ok st0) (h1 : sqtnlDicts gd beta mu A 1 = .ok st1) {p : ℕ → ℝ}
    (hs : IsStationary (matrixIds st0.W).length (dictToMatrix st0.W) p) : nCurrent st1 p = -nCurrent st0 p := by
  have := (C166_continuity hn hes hN hgd h0 h1 p).2.2.2.2
  rw [Finset.sum_eq_zero fun a ha => by rw [hs a (Finset.mem_range.mp ha), mul_zero]] at this
  linarith

/-- All energies for adding an electron lie within a hundred temperatures of the chemical potential `m`. -/
def Spec.FermiUncut (es : Espace ℕ) (ids : List NId) (beta m : ℝ) : Prop :=
  ∀ x ∈ ids, ∀ y ∈ ids, x.1 = y.1 + 1 → |beta * (nidEnergy es x - nidEnergy es y - m)| ≤ 100

/-- **C166** second law: in a stationary state in which every state is occupied electrons flow out of the lead with the higher chemical
potential, and no current flows without a bias, for every spectrum and couplings, as long as the energies lie within a hundred
temperatures of both chemical potentials, where the code does not cut the Fermi function. -/
theorem C166_second_law {junk n N : ℕ} (hn : 2 * n ≤ 32) {es : Espace ℕ} (hes : NEspaceOk n es) (hN : N ≤ 2 * n) {egs : Option ℝ} {gd : List ((NId × NId) × List NGf)}
    (hgd : sqtnlBuild junk n es (some (N : ℤ)) egs = .ok gd) {beta m0 m1 : ℝ} (hb : 0 < beta) {A : List (List ℝ)} {st0 st1 : NState}
    (h0 : sqtnlDicts gd beta [m0, m1] A 0 = .ok st0) (h1 : sqtnlDicts gd beta [m0, m1] A 1 = .ok st1) {p : ℕ → ℝ}
    (hs : IsStationary (matrixIds st0.W).length (dictToMatrix st0.W) p) (hpos : ∀ a, a < (matrixIds st0.W).length → 0 < p a)
    (hc0 : FermiUncut es (matrixIds st0.W) beta m0) (hc1 : FermiUncut es (matrixIds st0.W) beta m1) :
    0 ≤ (m0 - m1) * -nCurrent st0 p ∧ (m0 = m1 → nCurrent st0 p = 0 ∧ nCurrent st1 p = 0) := by
  obtain ⟨L, hP⟩ := build_paired hn hes hN hgd
  refine paired_second hP hb h0 h1 hs hpos fun q hq => ?_
  obtain ⟨k1, k2⟩ := paired_mem hP (inject := 0) (by norm_num) h0 hq
  rw [hP.energy q hq]
  exact ⟨hc0 _ k1 _ k2 (hP.charge q hq), hc1 _ k1 _ k2 (hP.charge q hq)⟩

/-! ### A biased dot -/

theorem gs41 : gs 32 4 1 = [1, 2, 4, 8] := by decide

theorem oneSct_amp1 : amplitude 2 (gs 32 4 1) (gs 32 4 2) (oneSct 2 1) (oneSct 2 2) 0 0 0 1 ^ 2 = 1 := by
  have hI : NSctOk 2 1 (oneSct 2 1) (gs 32 4 1) := oneSct_ok (n := 2) (by norm_num) (by norm_num)
  have hJ : NSctOk 2 2 (oneSct 2 2) (gs 32 4 2) := oneSct_ok (n := 2) (by norm_num) (by norm_num)
  have h := amp_cdg (junk := 0) (spin := 0) (x := 1) (by norm_num) (by norm_num) (by norm_num) hI hJ
  have e : ∃ M, nProject 0 0 1 .cdg 2 (oneSct 2 1) (oneSct 2 2) = .ok M ∧ M 0 0 ^ 2 = 1 := by
    unfold nProject
    have e1 : totalStates (oneSct 2 1).states = .ok [1, 2, 4, 8] := by
      rw [← gs41]; rfl
    have e2 : totalStates (oneSct 2 2).states = .ok [3, 5, 6, 9, 10, 12] := by
      rw [← gs42]; rfl
    have e3 : (oneSct 2 2).d = 6 := by
      change (gs 32 4 2).length = 6
      rw [gs42]; rfl
    rw [e1, e2]
    have a1 : Ladder.cdg.apply 1 (1 + 0 * 2) (2 * 2) = .ok (1, 3) := by decide
    have a2 : Ladder.cdg.apply 2 (1 + 0 * 2) (2 * 2) = .error .assertionError := by decide
    have a3 : Ladder.cdg.apply 4 (1 + 0 * 2) (2 * 2) = .ok (-1, 6) := by decide
    have a4 : Ladder.cdg.apply 8 (1 + 0 * 2) (2 * 2) = .ok (-1, 10) := by decide
    have b1 : pyIndex 6 (binsearch 0 [3, 5, 6, 9, 10, 12] 3) = .ok 0 := by decide +kernel
    have b2 : pyIndex 6 (binsearch 0 [3, 5, 6, 9, 10, 12] 6) = .ok 2 := by decide +kernel
    have b3 : pyIndex 6 (binsearch 0 [3, 5, 6, 9, 10, 12] 10) = .ok 4 := by decide +kernel
    have r4 : List.range [1, 2, 4, 8].length = [0, 1, 2, 3] := rfl
    have g : ∀ i : ℕ, i < 4 → getItem [1, 2, 4, 8] (i : ℤ) = .ok ([1, 2, 4, 8][i]!) := by decide
    have g0 := g 0 (by norm_num)
    have g1 := g 1 (by norm_num)
    have g2 := g 2 (by norm_num)
    have g3 := g 3 (by norm_num)
    simp only [bind, Except.bind, r4, forM', nProjectStep, g0, g1, g2, g3, List.getElem!_cons_zero, List.getElem!_cons_succ, a1, a2, a3, a4, e3, b1, b2, b3, pure, Except.pure]
    refine ⟨_, rfl, ?_⟩
    simp [oneSct]
  obtain ⟨M, h1, h2⟩ := e
  rw [h1, Except.ok.injEq] at h
  rw [h] at h2
  exact h2

/-- Two states joined by positive rates in both directions have a positive stationary state. -/
theorem twoState_stationary {W : ℕ → ℕ → ℝ} (hW : IsRateMatrix 2 W) (h01 : 0 < W 0 1) (h10 : 0 < W 1 0) :
    ∃ p : ℕ → ℝ, IsStationary 2 W p ∧ ∀ a, a < 2 → 0 < p a := by
  have c0 := hW.conserve 0 (by norm_num)
  have c1 := hW.conserve 1 (by norm_num)
  rw [Finset.sum_range_succ, Finset.sum_range_succ, Finset.sum_range_zero] at c0 c1
  refine ⟨fun a => if a = 0 then W 0 1 else W 1 0, fun f hf => ?_, fun a _ => ?_⟩
  · rw [Finset.sum_range_succ, Finset.sum_range_succ, Finset.sum_range_zero]
    simp only [if_true, one_ne_zero, if_false]
    interval_cases f
    · rw [show W 0 0 = -W 1 0 by linarith]; ring
    · rw [show W 1 1 = -W 0 1 by linarith]; ring
  · dsimp only
    split_ifs <;> assumption

/-- The hypotheses of C166 are met by two sites with one or two electrons, both leads coupled to the second site and a bias of two:
there is a stationary state in which both states are occupied. -/
example : ∃ gd st0 st1 p, sqtnlBuild 0 2 (oneState 2) (some 1) none = .ok gd ∧ sqtnlDicts gd 1 [1, -1] [[0, 1], [0, 1]] 0 = .ok st0 ∧
    sqtnlDicts gd 1 [1, -1] [[0, 1], [0, 1]] 1 = .ok st1 ∧ (matrixIds st0.W).length = 2 ∧
    IsStationary (matrixIds st0.W).length (dictToMatrix st0.W) p ∧ (∀ a, a < (matrixIds st0.W).length → 0 < p a) ∧
    FermiUncut (oneState 2) (matrixIds st0.W) 1 1 ∧ FermiUncut (oneState 2) (matrixIds st0.W) 1 (-1) ∧
    nCurrent st1 p = -nCurrent st0 p ∧ 0 ≤ -nCurrent st0 p := by
  have hes := (oneState_ok (n := 2) (by norm_num)).1
  obtain ⟨gd, st0, hgd, h0, hW⟩ := C55_sqtnl_from_spectrum (junk := 0) (n := 2) (N := 1) (by norm_num) hes (by norm_num) none 1
    (mu := [1, -1]) (A := [[0, 1], [0, 1]]) rfl rfl (by simp) (inject := 0) (by norm_num)
  obtain ⟨gd', st1, hgd', h1, -⟩ := C55_sqtnl_from_spectrum (junk := 0) (n := 2) (N := 1) (by norm_num) hes (by norm_num) none 1
    (mu := [1, -1]) (A := [[0, 1], [0, 1]]) rfl rfl (by simp) (inject := 1) (by norm_num)
  rw [hgd, Except.ok.injEq] at hgd'
  subst hgd'
  have gI : dictGet (oneState 2) 1 = .ok (oneSct 2 1) := oneState_get (by norm_num)
  have gJ : dictGet (oneState 2) 2 = .ok (oneSct 2 2) := oneState_get (by norm_num)
  have hI : NSctOk 2 1 (oneSct 2 1) (gs 32 4 1) := oneSct_ok (n := 2) (by norm_num) (by norm_num)
  have hJ : NSctOk 2 2 (oneSct 2 2) (gs 32 4 2) := oneSct_ok (n := 2) (by norm_num) (by norm_num)
  obtain ⟨gd2, hgd2, hel⟩ := C77_elements_up (junk := 0) (n := 2) (N := 1) (by norm_num) hes (by norm_num) none gI gJ hI hJ
  rw [hgd, Except.ok.injEq] at hgd2
  subst hgd2
  obtain ⟨hq, hq'⟩ := hel 0 0 (by simp [oneSct]) (by simp [oneSct])
  have hrate : ∀ b, 0 < ratePart 1 [1, -1] [[0, 1], [0, 1]] 0 (element 2 (gs 32 4 1) (gs 32 4 2) (oneSct 2 1) (oneSct 2 2) 0 0 b 0) := by
    intro b
    set E := element 2 (gs 32 4 1) (gs 32 4 2) (oneSct 2 1) (oneSct 2 2) 0 0 b 0 with hE
    have hv : E.v = [amplitude 2 (gs 32 4 1) (gs 32 4 2) (oneSct 2 1) (oneSct 2 2) 0 0 0 0, amplitude 2 (gs 32 4 1) (gs 32 4 2) (oneSct 2 1) (oneSct 2 2) 0 0 0 1] := rfl
    have hEe : E.E = 1 := by
      rw [hE]
      simp [element, oneSct]
      norm_num
    have hel : E.el = b := rfl
    have : sqtnlGamma [E] 1 [1, -1] [[0, 1], [0, 1]] 0 = .ok (nFcut 0) := by
      simp [sqtnlGamma, forM', NGf.call, dotArr, hv, hEe, hel, getItem, pyIndex, bind, Except.bind, pure, Except.pure, oneSct_amp1]
    unfold ratePart
    rw [this]
    simp only
    unfold nFcut
    rw [if_neg (by norm_num)]
    positivity
  have hseq := seq_build (N := 1) (by norm_num) hes (by norm_num) hgd
  have r1 := rate_pos hseq (inject := 0) (by norm_num) h0
    (mem_flatD.mpr ⟨_, dictGet_mem_of_ok hq, rfl, by simp⟩ : (((((1 : ℕ) : ℤ) + 1, 0), (((1 : ℕ) : ℤ), 0)), element 2 (gs 32 4 1) (gs 32 4 2) (oneSct 2 1) (oneSct 2 2) 0 0 true 0) ∈ flatD gd) (hrate _)
  have r2 := rate_pos hseq (inject := 0) (by norm_num) h0
    (mem_flatD.mpr ⟨_, dictGet_mem_of_ok hq', rfl, by simp⟩ : (((((1 : ℕ) : ℤ), 0), (((1 : ℕ) : ℤ) + 1, 0)), element 2 (gs 32 4 1) (gs 32 4 2) (oneSct 2 1) (oneSct 2 2) 0 0 false 0) ∈ flatD gd) (hrate _)
  -- the states
  have m0 : (((((1 : ℕ) : ℤ) + 1, 0), (((1 : ℕ) : ℤ), 0)), element 2 (gs 32 4 1) (gs 32 4 2) (oneSct 2 1) (oneSct 2 2) 0 0 true 0) ∈ flatD gd :=
    mem_flatD.mpr ⟨_, dictGet_mem_of_ok hq, rfl, by simp⟩
  have hmem : ∀ x, x ∈ matrixIds st0.W ↔ x = ((1 : ℤ), 0) ∨ x = ((2 : ℤ), 0) := by
    have w := (sqtnl_weights (inject := 0) (by norm_num) hseq (sqtnlDicts_forM h0) (by simp) (by simp) fun _ => 0).2.2
    obtain ⟨K, I, J, sK, sI, sJ, kI, kJ, kK⟩ := sectors_of (N := 1) hes (by norm_num)
    have hb := sqtnlBuild_eq (junk := 0) (N := 1) (by norm_num) kI kJ kK none
    have hb' := hgd.symm.trans hb
    rw [Except.ok.injEq] at hb'
    have hfl : flatD gd = ↑(allPairs 2 sK sI sJ K I J 1) := by
      rw [hb', flatD_perm (List.mergeSort_perm _ _), flatD_foldl_appendN _ [] (by simp), flatD_nil, zero_add]
    have eI : I = oneSct 2 1 := by have := kI.1.symm.trans gI; rwa [Except.ok.injEq] at this
    have eJ : J = oneSct 2 2 := by have := (kJ (by norm_num)).1.symm.trans gJ; rwa [Except.ok.injEq] at this
    intro x
    rw [w]
    have n1 : x ∉ matrixIds ([] : List ((NId × NId) × ℝ)) := by rw [mem_matrixIds]; simp
    constructor
    · rintro (h | ⟨q, hq, h⟩)
      · exact absurd h n1
      · rw [hfl, Multiset.mem_coe] at hq
        have hl1 : I.eigvals.length = 1 := by rw [eI]; rfl
        have hl2 : J.eigvals.length = 1 := by rw [eJ]; rfl
        have nd : ndindex2 1 1 = [(0, 0)] := by decide
        simp [allPairs, pairList, hl1, hl2, nd] at hq
        obtain ⟨s, -, rfl | rfl⟩ := hq <;> rcases h with h | h <;> simp only at h <;> rw [← h] <;> simp
    · rintro (rfl | rfl)
      · exact .inr ⟨_, m0, .inr rfl⟩
      · exact .inr ⟨_, m0, .inl rfl⟩
  have hnd := matrixIds_nodup st0.W
  have hperm : (matrixIds st0.W).Perm [((1 : ℤ), 0), ((2 : ℤ), 0)] :=
    (List.perm_ext_iff_of_nodup hnd (by simp)).mpr fun x => by rw [hmem]; simp
  have hlen : (matrixIds st0.W).length = 2 := hperm.length_eq
  have i1 := List.idxOf_lt_length_iff.mpr ((hmem ((1 : ℤ), 0)).mpr (.inl rfl))
  have i2 := List.idxOf_lt_length_iff.mpr ((hmem ((2 : ℤ), 0)).mpr (.inr rfl))
  have i12 : (matrixIds st0.W).idxOf ((1 : ℤ), 0) ≠ (matrixIds st0.W).idxOf ((2 : ℤ), 0) := fun h => by
    have := (List.idxOf_inj ((hmem ((1 : ℤ), 0)).mpr (.inl rfl))).mp h
    simp at this
  rw [hlen] at i1 i2
  have r1' : 0 < dictToMatrix st0.W ((matrixIds st0.W).idxOf ((2 : ℤ), 0)) ((matrixIds st0.W).idxOf ((1 : ℤ), 0)) := r1
  have r2' : 0 < dictToMatrix st0.W ((matrixIds st0.W).idxOf ((1 : ℤ), 0)) ((matrixIds st0.W).idxOf ((2 : ℤ), 0)) := r2
  have hst : ∃ p : ℕ → ℝ, IsStationary 2 (dictToMatrix st0.W) p ∧ ∀ a, a < 2 → 0 < p a := by
    rw [hlen] at hW
    generalize (matrixIds st0.W).idxOf ((1 : ℤ), 0) = a at *
    generalize (matrixIds st0.W).idxOf ((2 : ℤ), 0) = b at *
    interval_cases a <;> interval_cases b
    · exact absurd rfl i12
    · exact twoState_stationary hW r2' r1'
    · exact twoState_stationary hW r1' r2'
    · exact absurd rfl i12
  obtain ⟨p, hs, hpos⟩ := hst
  rw [← hlen] at hs hpos
  have hcut : ∀ m : ℝ, |m| ≤ 1 → FermiUncut (oneState 2) (matrixIds st0.W) 1 m := by
    intro m hm x hx y hy hxy
    have e1 : nidEnergy (oneState 2) ((1 : ℤ), 0) = 1 := (nidEnergy_of (N := 1) (M := 1) rfl gI 0).trans (by simp [oneSct])
    have e2 : nidEnergy (oneState 2) ((2 : ℤ), 0) = 2 := (nidEnergy_of (N := 2) (M := 2) rfl gJ 0).trans (by simp [oneSct])
    rw [abs_le] at hm
    rcases (hmem x).mp hx with rfl | rfl <;> rcases (hmem y).mp hy with rfl | rfl <;> simp only at hxy
    · norm_num at hxy
    · norm_num at hxy
    · rw [e1, e2, abs_le]; constructor <;> linarith [hm.1, hm.2]
    · norm_num at hxy
  have hc0 := hcut 1 (by norm_num)
  have hc1 := hcut (-1) (by norm_num)
  have law := C166_second_law (N := 1) (by norm_num) hes (by norm_num) hgd one_pos h0 h1 hs hpos hc0 hc1
  refine ⟨gd, st0, st1, p, hgd, h0, h1, hlen, hs, hpos, hc0, hc1, C166_conservation (N := 1) (by norm_num) hes (by norm_num) hgd h0 h1 hs, ?_⟩
  have := law.1
  linarith

end Edpyt
