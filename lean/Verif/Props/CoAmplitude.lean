import Verif.Proof.Amplitude
import Verif.Props.ThermalGf
/-!
Property C96: the cotunnelling elements are the second-order amplitudes of the many-body Hamiltonian.
-/
namespace Edpyt
open Spec Matrix
variable {n : ℕ} {es : Espace (ℕ × ℕ)}

theorem mapM_ok_of {α β : Type} (f : α → Except PyErr β) (g : α → β) (l : List α) (h : ∀ x ∈ l, f x = .ok (g x)) : l.mapM f = .ok (l.map g) := by
  induction l with
  | nil => rfl
  | cons x l ih =>
    rw [List.mapM_cons, h x (by simp), ih fun y hy => h y (by simp [hy])]
    rfl

theorem zipWith_map_same {α β γ δ : Type} (c : β → γ → δ) (f : α → β) (g : α → γ) (l : List α) :
    List.zipWith c (l.map f) (l.map g) = l.map fun x => c (f x) (g x) := by
  induction l with
  | nil => rfl
  | cons x l ih => simp [ih]

/-- What the loop over final and initial states stores for one pair of states. -/
theorem coGf2List_call (hole : Bool) (qF qI : ℤ × ℤ) (sgnI sgnJ : ℝ) {vFJ vJI : List (ℕ → ℕ → ℝ)} {F J I : Sct} (hF : vFJ.length = n) (hI : vJI.length = n)
    {g : CoGf2} (hg : g ∈ coGf2List hole qF qI sgnI sgnJ vFJ vJI F J I) :
    ∃ f i, f < F.eigvals.length ∧ i < I.eigvals.length ∧ g.idF = (qF.1, qF.2, f) ∧ g.idI = (qI.1, qI.2, i) ∧
      g.dE = F.eigvals[f]?.getD 0 - I.eigvals[i]?.getD 0 ∧
      ∀ (z : ℝ) (aF aI : List ℝ), aF.length = n → aI.length = n → g.call z aF aI = .ok (∑ j ∈ Finset.range J.eigvals.length,
        (List.zipWith (· * ·) (vFJ.map fun M => sgnJ * M f j) aF).sum * (List.zipWith (· * ·) (vJI.map fun M => sgnI * M j i) aI).sum *
          (z - if hole then -(J.eigvals[j]?.getD 0) + I.eigvals[i]?.getD 0 else J.eigvals[j]?.getD 0 - I.eigvals[i]?.getD 0)⁻¹) := by
  unfold coGf2List at hg
  obtain ⟨⟨f, i⟩, hfi, rfl⟩ := List.mem_map.mp hg
  obtain ⟨b1, b2⟩ := mem_ndindex2.mp hfi
  refine ⟨f, i, b1, b2, rfl, rfl, rfl, fun z aF aI h1 h2 => ?_⟩
  have e1 : ∀ (h : ℝ → ℝ), J.eigvals.map h = (List.range J.eigvals.length).map fun j => h (J.eigvals[j]?.getD 0) := by
    intro h
    apply List.ext_getElem (by simp)
    intro j h3 h4
    simp only [List.length_map] at h3
    simp [List.getElem?_eq_getElem h3]
  unfold CoGf2.call dotRows
  simp only
  rw [mapM_ok_of (g := fun r => (List.zipWith (· * ·) r aF).sum), mapM_ok_of (g := fun r => (List.zipWith (· * ·) r aI).sum)]
  · simp only [bind, Except.bind, pure, Except.pure, List.map_map]
    congr 1
    rw [e1, zipWith_map_same, zipWith_map_same, sum_map_range]
    rfl
  · intro r hr
    obtain ⟨j, -, rfl⟩ := List.mem_map.mp hr
    rw [dotArr, if_pos (by simp [hI, h2])]
  · intro r hr
    obtain ⟨j, -, rfl⟩ := List.mem_map.mp hr
    rw [dotArr, if_pos (by simp [hF, h1])]

/-- The amplitude through one intermediate sector of a complete espace. -/
theorem amplitude_sector {H : Matrix (Finset (Fin (n + n))) (Finset (Fin (n + n))) ℝ} (h : EigenEspace n H es) {op op' : Ladder} {sI sJ : Bool} {q qJ qF : ℕ × ℕ}
    (hq : q.1 ≤ n ∧ q.2 ≤ n) (hqJ : qJ.1 ≤ n ∧ qJ.2 ≤ n)
    (hJ : (qJ.1 : ℤ) = q.1 + (if false = sJ then op.delta else 0) ∧ (qJ.2 : ℤ) = q.2 + (if true = sJ then op.delta else 0))
    (hF : (qF.1 : ℤ) = qJ.1 + (if false = sI then op'.delta else 0) ∧ (qF.2 : ℤ) = qJ.2 + (if true = sI then op'.delta else 0)) (hqF : qF.1 ≤ n ∧ qF.2 ≤ n)
    (aF aI : Fin n → ℝ) (f i : ℕ) (a b : ℝ) (h0 : ∀ j, j < (sctAt es qJ).eigvals.length → a + b * (sctAt es qJ).eigvals[j]?.getD 0 ≠ 0) :
    IsAmplitude (a • (1 : Matrix _ _ ℝ) + b • H) ((sctAt es qF).ket n f) (ladSum n op' sI aF) (ladSum n op sJ aI) ((sctAt es q).ket n i)
      (∑ j ∈ Finset.range (sctAt es qJ).eigvals.length, ((sctAt es qF).ket n f ⬝ᵥ (ladSum n op' sI aF *ᵥ (sctAt es qJ).ket n j)) *
        ((sctAt es qJ).ket n j ⬝ᵥ (ladSum n op sJ aI *ᵥ (sctAt es q).ket n i)) * (a + b * (sctAt es qJ).eigvals[j]?.getD 0)⁻¹) := by
  obtain ⟨up, dw, -, -, hok, -⟩ := h.toCompleteEspace.at hq.1 hq.2
  obtain ⟨upJ, dwJ, -, -, hokJ, -, -, hlJ⟩ := h.toCompleteEspace.at hqJ.1 hqJ.2
  obtain ⟨upF, dwF, -, -, hokF, -⟩ := h.toCompleteEspace.at hqF.1 hqF.2
  have z1 : ∀ y : ℕ × ℕ, y.1 ≤ n → y.2 ≤ n → y ≠ qJ → ∀ k, (sctAt es y).ket n k ⬝ᵥ (ladSum n op sJ aI *ᵥ (sctAt es q).ket n i) = 0 := by
    intro y hy1 hy2 hne k
    obtain ⟨upy, dwy, -, -, hoky, -⟩ := h.toCompleteEspace.at hy1 hy2
    rw [show q = (q.1, q.2) from rfl, show y = (y.1, y.2) from rfl, hok.ket_eq, hoky.ket_eq]
    apply (grade_ladSum op sJ aI).elem_zero hok.hup hok.hdw hoky.hup hoky.hdw
    rintro ⟨e1, e2⟩
    exact hne (Prod.ext (by omega) (by omega))
  have z2 : ∀ y : ℕ × ℕ, y.1 ≤ n → y.2 ≤ n → y ≠ qJ → ∀ k, (sctAt es qF).ket n f ⬝ᵥ (ladSum n op' sI aF *ᵥ (sctAt es y).ket n k) = 0 := by
    intro y hy1 hy2 hne k
    obtain ⟨upy, dwy, -, -, hoky, -⟩ := h.toCompleteEspace.at hy1 hy2
    rw [show qF = (qF.1, qF.2) from rfl, show y = (y.1, y.2) from rfl, hokF.ket_eq, hoky.ket_eq]
    apply (grade_ladSum op' sI aF).elem_zero hoky.hup hoky.hdw hokF.hup hokF.hdw
    rintro ⟨e1, e2⟩
    exact hne (Prod.ext (by omega) (by omega))
  have hb := (h.basis.shift a b).amplitude ((sctAt es qF).ket n f) (ladSum n op' sI aF) (ladSum n op sJ aI) ((sctAt es q).ket n i) (by
    rintro ⟨⟨y1, y2⟩, k⟩ hk
    have l1 : (y1 : ℕ) ≤ n := by have := y1.2; omega
    have l2 : (y2 : ℕ) ≤ n := by have := y2.2; omega
    by_cases hy : ((y1 : ℕ), (y2 : ℕ)) = qJ
    · exfalso
      simp only [esVal, hy] at hk
      refine h0 k ?_ hk
      have := k.2
      simp only at this
      rw [show qJ = (qJ.1, qJ.2) from rfl, hlJ, ← hy]
      exact this
    · exact ⟨z1 _ l1 l2 hy k, z2 _ l1 l2 hy k⟩)
  have hs := sum_one_sector (n := n) (fun y k => ((sctAt es qF).ket n f ⬝ᵥ (ladSum n op' sI aF *ᵥ (sctAt es y).ket n k)) *
        ((sctAt es y).ket n k ⬝ᵥ (ladSum n op sJ aI *ᵥ (sctAt es q).ket n i)) * (a + b * (sctAt es y).eigvals[k]?.getD 0)⁻¹) hqJ
    (fun y hy1 hy2 hne k => by rw [z1 y hy1 hy2 hne k]; ring)
  rw [show (sctAt es qJ).eigvals.length = n.choose qJ.1 * n.choose qJ.2 from hlJ, ← hs]
  exact hb

theorem getCdgSector_zp (σ : Bool) {q : ℕ × ℕ} (h : (shiftUp σ q).1 ≤ n ∧ (shiftUp σ q).2 ≤ n) :
    getCdgSector n (zp q).1 (zp q).2 (ispinOf σ) = .ok (zp (shiftUp σ q)) := by
  cases σ
  · simp only [shiftUp, Bool.false_eq_true, if_false] at h
    have : ¬ ((q.1 : ℤ) + 1 > n) := by omega
    simp [getCdgSector, zp, ispinOf, shiftUp, this]
  · simp only [shiftUp, if_true] at h
    have : ¬ ((q.2 : ℤ) + 1 > n) := by omega
    simp [getCdgSector, zp, ispinOf, shiftUp, this]

theorem getCSector_zp (σ : Bool) (q : ℕ × ℕ) : getCSector (zp (shiftUp σ q)).1 (zp (shiftUp σ q)).2 (ispinOf σ) = .ok (zp q) := by
  cases σ
  · have : ¬ ((q.1 : ℤ) < 0) := by omega
    simp [getCSector, zp, ispinOf, shiftUp, this]
  · have : ¬ ((q.2 : ℤ) < 0) := by omega
    simp [getCSector, zp, ispinOf, shiftUp, this]

theorem shift_cdg (σ : Bool) (q : ℕ × ℕ) : if σ then (shiftUp σ q).1 = q.1 ∧ Ladder.cdg.Shift q.2 (shiftUp σ q).2 else
    Ladder.cdg.Shift q.1 (shiftUp σ q).1 ∧ (shiftUp σ q).2 = q.2 := by cases σ <;> simp [shiftUp, Ladder.Shift]

theorem shift_c (σ : Bool) (q : ℕ × ℕ) : if σ then q.1 = (shiftUp σ q).1 ∧ Ladder.c.Shift (shiftUp σ q).2 q.2 else
    Ladder.c.Shift (shiftUp σ q).1 q.1 ∧ q.2 = (shiftUp σ q).2 := by cases σ <;> simp [shiftUp, Ladder.Shift]

/-- The state with index `k` in the sector `q`. -/
def stateKet (n : ℕ) (es : Espace (ℕ × ℕ)) (q : ℕ × ℕ) (k : ℕ) : Finset (Fin (n + n)) → ℝ := (sctAt es q).ket n k
/-- Its energy. -/
def stateEnergy (es : Espace (ℕ × ℕ)) (q : ℕ × ℕ) (k : ℕ) : ℝ := (sctAt es q).eigvals[k]?.getD 0

/-- **C96**, electron processes. The elements `project_add(ispinI, ispinJ, ...)` makes of a complete espace are one for each pair of an
initial state `i` and a final state `f`; called at `z` with the couplings of two leads, an element gives the amplitude
`⟨f| (∑ aF c_{sI}) (z + E_i - H)⁻¹ (∑ aI c†_{sJ}) |i⟩`. -/
theorem C96_electron (hn : n ≤ 32) {H : Matrix (Finset (Fin (n + n))) (Finset (Fin (n + n))) ℝ} (h : EigenEspace n H es) (junk : ℕ) (sI sJ : Bool) {q qF : ℕ × ℕ}
    (hq : q.1 ≤ n ∧ q.2 ≤ n) (hqJ : (shiftUp sJ q).1 ≤ n ∧ (shiftUp sJ q).2 ≤ n) (hqF : shiftUp sI qF = shiftUp sJ q) :
    ∃ l, coProjectAdd junk (ispinOf sI) (ispinOf sJ) n (zp q) es = .ok l ∧
      l.map (fun g => (g.idF, g.idI)) = (ndindex2 (n.choose qF.1 * n.choose qF.2) (n.choose q.1 * n.choose q.2)).map
        (fun fi => (((qF.1 : ℤ), (qF.2 : ℤ), fi.1), ((q.1 : ℤ), (q.2 : ℤ), fi.2))) ∧
      ∀ g ∈ l, ∃ f i, f < n.choose qF.1 * n.choose qF.2 ∧ i < n.choose q.1 * n.choose q.2 ∧
        g.idF = ((qF.1 : ℤ), (qF.2 : ℤ), f) ∧ g.idI = ((q.1 : ℤ), (q.2 : ℤ), i) ∧ g.dE = stateEnergy es qF f - stateEnergy es q i ∧
        ∀ (z : ℝ) (aF aI : List ℝ), aF.length = n → aI.length = n →
          (∀ j, j < n.choose (shiftUp sJ q).1 * n.choose (shiftUp sJ q).2 → z + stateEnergy es q i ≠ stateEnergy es (shiftUp sJ q) j) →
          ∃ v, g.call z aF aI = .ok v ∧
            IsAmplitude ((z + stateEnergy es q i) • (1 : Matrix _ _ ℝ) - H) (stateKet n es qF f) (annSum sI fun m => aF[(m : ℕ)]?.getD 0)
              (creSum sJ fun m => aI[(m : ℕ)]?.getD 0) (stateKet n es q i) v := by
  have hF : qF.1 ≤ n ∧ qF.2 ≤ n := by
    have : qF.1 ≤ (shiftUp sI qF).1 ∧ qF.2 ≤ (shiftUp sI qF).2 := by cases sI <;> simp [shiftUp]
    rw [hqF] at this; omega
  obtain ⟨up, dw, -, hget, hok, -, -, hl⟩ := h.toCompleteEspace.at hq.1 hq.2
  obtain ⟨upJ, dwJ, -, hgetJ, hokJ, -, -, hlJ⟩ := h.toCompleteEspace.at hqJ.1 hqJ.2
  obtain ⟨upF, dwF, -, hgetF, hokF, -, -, hlF⟩ := h.toCompleteEspace.at hF.1 hF.2
  obtain ⟨vJI, e1, l1, p1⟩ := projectAll_elem hn junk .cdg sJ (p := q) (q := shiftUp sJ q) hok hokJ (shift_cdg sJ q)
  obtain ⟨vFJ, e2, l2, p2⟩ := projectAll_elem hn junk .c sI (p := shiftUp sJ q) (q := qF) hokJ hokF (by rw [← hqF]; exact shift_c sI qF)
  have hc1 := getCdgSector_zp sJ hqJ
  have hc2 := getCSector_zp sI qF
  rw [hqF] at hc2
  refine ⟨_, by
    simp only [coProjectAdd, hc1, hc2, espaceGet_zp, bind, Except.bind, pure, Except.pure]
    rw [show q = (q.1, q.2) from rfl, hget]
    simp only
    rw [show shiftUp sJ (q.1, q.2) = ((shiftUp sJ q).1, (shiftUp sJ q).2) from rfl, hgetJ]
    simp only
    rw [show qF = (qF.1, qF.2) from rfl, hgetF]
    simp only
    rw [e1, e2], ?_, fun g hg => ?_⟩
  · simp only [coGf2List, List.map_map, hlF, hl]
    rfl
  · obtain ⟨f, i, b1, b2, i1, i2, i3, hcall⟩ := coGf2List_call (n := n) _ _ _ _ _ l2 l1 hg
    have b1' := b1; have b2' := b2
    rw [hlF] at b1'
    rw [hl] at b2'
    refine ⟨f, i, b1', b2', i1, i2, i3, fun z aF aI ha1 ha2 hz => ⟨_, hcall z aF aI ha1 ha2, ?_⟩⟩
    have key := amplitude_sector h (op := .cdg) (op' := .c) (sI := sI) (sJ := sJ) (q := q) (qJ := shiftUp sJ q) (qF := qF) hq hqJ
      (by cases sJ <;> simp [shiftUp, Ladder.delta]) (by rw [← hqF]; cases sI <;> simp [shiftUp, Ladder.delta]) hF
      (fun m => aF[(m : ℕ)]?.getD 0) (fun m => aI[(m : ℕ)]?.getD 0) f i (z + stateEnergy es q i) (-1) (fun j hj => by
        have := hz j (by rw [← hlJ]; exact hj)
        unfold stateEnergy at this ⊢
        intro h0; apply this; linarith)
    rw [neg_one_smul, ← sub_eq_add_neg] at key
    refine Eq.mp (congrArg (IsAmplitude _ _ _ _ _) (Eq.symm ?_)) key
    apply Finset.sum_congr rfl; intro j hj
    have hj' := Finset.mem_range.mp hj
    rw [← p1 j i hj' b2 aI ha2, ← p2 f j b1 hj' aF ha1]
    simp only [Bool.false_eq_true, if_false]
    congr 2
    simp only [stateEnergy]
    ring

/-- **C96**, hole processes: the elements of `project_sub(ispinI, ispinJ, ...)` give
`⟨f| (∑ aF c†_{sI}) (z - E_i + H)⁻¹ (∑ aI c_{sJ}) |i⟩`. -/
theorem C96_hole (hn : n ≤ 32) {H : Matrix (Finset (Fin (n + n))) (Finset (Fin (n + n))) ℝ} (h : EigenEspace n H es) (junk : ℕ) (sI sJ : Bool) {qJ : ℕ × ℕ}
    (hq : (shiftUp sJ qJ).1 ≤ n ∧ (shiftUp sJ qJ).2 ≤ n) (hF : (shiftUp sI qJ).1 ≤ n ∧ (shiftUp sI qJ).2 ≤ n) {q qF : ℕ × ℕ}
    (eq : q = shiftUp sJ qJ) (eqF : qF = shiftUp sI qJ) :
    ∃ l, coProjectSub junk (ispinOf sI) (ispinOf sJ) n (zp q) es = .ok l ∧
      l.map (fun g => (g.idF, g.idI)) = (ndindex2 (n.choose qF.1 * n.choose qF.2) (n.choose q.1 * n.choose q.2)).map
        (fun fi => (((qF.1 : ℤ), (qF.2 : ℤ), fi.1), ((q.1 : ℤ), (q.2 : ℤ), fi.2))) ∧
      ∀ g ∈ l, ∃ f i, f < n.choose qF.1 * n.choose qF.2 ∧ i < n.choose q.1 * n.choose q.2 ∧
        g.idF = ((qF.1 : ℤ), (qF.2 : ℤ), f) ∧ g.idI = ((q.1 : ℤ), (q.2 : ℤ), i) ∧ g.dE = stateEnergy es qF f - stateEnergy es q i ∧
        ∀ (z : ℝ) (aF aI : List ℝ), aF.length = n → aI.length = n →
          (∀ j, j < n.choose qJ.1 * n.choose qJ.2 → stateEnergy es q i - z ≠ stateEnergy es qJ j) →
          ∃ v, g.call z aF aI = .ok v ∧
            IsAmplitude ((z - stateEnergy es q i) • (1 : Matrix _ _ ℝ) + H) (stateKet n es qF f) (creSum sI fun m => aF[(m : ℕ)]?.getD 0)
              (annSum sJ fun m => aI[(m : ℕ)]?.getD 0) (stateKet n es q i) v := by
  have hqJ : qJ.1 ≤ n ∧ qJ.2 ≤ n := by
    have : qJ.1 ≤ (shiftUp sJ qJ).1 ∧ qJ.2 ≤ (shiftUp sJ qJ).2 := by cases sJ <;> simp [shiftUp]
    omega
  rw [← eq] at hq
  rw [← eqF] at hF
  obtain ⟨up, dw, -, hget, hok, -, -, hl⟩ := h.toCompleteEspace.at hq.1 hq.2
  obtain ⟨upJ, dwJ, -, hgetJ, hokJ, -, -, hlJ⟩ := h.toCompleteEspace.at hqJ.1 hqJ.2
  obtain ⟨upF, dwF, -, hgetF, hokF, -, -, hlF⟩ := h.toCompleteEspace.at hF.1 hF.2
  obtain ⟨vJI, e1, l1, p1⟩ := projectAll_elem hn junk .c sJ (p := q) (q := qJ) hok hokJ (by rw [eq]; exact shift_c sJ qJ)
  obtain ⟨vFJ, e2, l2, p2⟩ := projectAll_elem hn junk .cdg sI (p := qJ) (q := qF) hokJ hokF (by rw [eqF]; exact shift_cdg sI qJ)
  have hc1 := getCSector_zp sJ qJ
  have hc2 := getCdgSector_zp (n := n) sI (q := qJ) (by rw [← eqF]; exact hF)
  rw [← eq] at hc1
  rw [← eqF] at hc2
  refine ⟨_, by
    simp only [coProjectSub, hc1, hc2, espaceGet_zp, bind, Except.bind, pure, Except.pure]
    rw [show q = (q.1, q.2) from rfl, hget]
    simp only
    rw [show qJ = (qJ.1, qJ.2) from rfl, hgetJ]
    simp only
    rw [show qF = (qF.1, qF.2) from rfl, hgetF]
    simp only
    rw [e1, e2], ?_, fun g hg => ?_⟩
  · simp only [coGf2List, List.map_map, hlF, hl]
    rfl
  · obtain ⟨f, i, b1, b2, i1, i2, i3, hcall⟩ := coGf2List_call (n := n) _ _ _ _ _ l2 l1 hg
    have b1' := b1; have b2' := b2
    rw [hlF] at b1'
    rw [hl] at b2'
    refine ⟨f, i, b1', b2', i1, i2, i3, fun z aF aI ha1 ha2 hz => ⟨_, hcall z aF aI ha1 ha2, ?_⟩⟩
    have key := amplitude_sector h (op := .c) (op' := .cdg) (sI := sI) (sJ := sJ) (q := q) (qJ := qJ) (qF := qF) hq hqJ
      (by rw [eq]; cases sJ <;> simp [shiftUp, Ladder.delta]) (by rw [eqF]; cases sI <;> simp [shiftUp, Ladder.delta]) hF
      (fun m => aF[(m : ℕ)]?.getD 0) (fun m => aI[(m : ℕ)]?.getD 0) f i (z - stateEnergy es q i) 1 (fun j hj => by
        have := hz j (by rw [← hlJ]; exact hj)
        unfold stateEnergy at this ⊢
        intro h0; apply this; linarith)
    rw [one_smul] at key
    refine Eq.mp (congrArg (IsAmplitude _ _ _ _ _) (Eq.symm ?_)) key
    apply Finset.sum_congr rfl; intro j hj
    have hj' := Finset.mem_range.mp hj
    rw [← p1 j i hj' b2 aI ha2, ← p2 f j b1 hj' aF ha1]
    simp only [if_true]
    congr 2
    simp only [stateEnergy]
    ring

/-! ### The sum of the two orders -/

/-- The labels of an element. -/
def CoGf2.ids (g : CoGf2) : TId × TId := (g.idF, g.idI)

theorem zipLongest_nil_right {α : Type} (l : List (Option α)) : zipLongest l [] = l.map fun a => (a, none) := by
  cases l <;> rfl

theorem zip_eh (le lh : List CoGf2) (h : le.map CoGf2.ids = lh.map CoGf2.ids) :
    ∃ l, ((zipLongest (le.map some) (lh.map some)).mapM fun p => mkSigma p.1 p.2) = .ok l ∧ l.map (fun s => s.gf2.ids) = le.map CoGf2.ids ∧
      ∀ s ∈ l, ∃ ge ∈ le, ∃ gh ∈ lh, s = .eh ge gh ∧ ge.ids = gh.ids := by
  induction le generalizing lh with
  | nil =>
    cases lh with
    | nil => exact ⟨[], rfl, rfl, by simp⟩
    | cons _ _ => simp at h
  | cons a le ih =>
    cases lh with
    | nil => simp at h
    | cons b lh =>
      simp only [List.map_cons, List.cons.injEq] at h
      obtain ⟨l, h1, h2, h3⟩ := ih lh h.2
      have hab := Prod.ext_iff.mp h.1
      refine ⟨.eh a b :: l, ?_, ?_, ?_⟩
      · simp only [List.map_cons, zipLongest, List.mapM_cons]
        rw [h1]
        simp only [mkSigma]
        rw [if_pos (by exact hab)]
        rfl
      · rw [List.map_cons, h2]; rfl
      · intro s hs
        rcases List.mem_cons.mp hs with rfl | hs
        · exact ⟨a, by simp, b, by simp, rfl, h.1⟩
        · obtain ⟨ge, m1, gh, m2, e⟩ := h3 s hs
          exact ⟨ge, by simp [m1], gh, by simp [m2], e⟩

theorem zip_e (le : List CoGf2) (h : le ≠ []) :
    ((zipLongest (le.map some) [none]).mapM fun p => mkSigma p.1 p.2) = .ok (le.map .e) := by
  cases le with
  | nil => simp at h
  | cons a le =>
    simp only [List.map_cons, zipLongest, zipLongest_nil_right, List.map_map, List.mapM_cons]
    rw [mapM_ok_of (g := fun p : Option CoGf2 × Option CoGf2 => CoSigma.e (p.1.getD a))]
    · simp [mkSigma, bind, Except.bind, pure, Except.pure, Function.comp_def]
    · intro p hp
      obtain ⟨g, -, rfl⟩ := List.mem_map.mp hp
      rfl

theorem zip_h (lh : List CoGf2) (h : lh ≠ []) :
    ((zipLongest [none] (lh.map some)).mapM fun p => mkSigma p.1 p.2) = .ok (lh.map .h) := by
  cases lh with
  | nil => simp at h
  | cons a lh =>
    simp only [List.map_cons, zipLongest, List.map_map, List.mapM_cons]
    rw [mapM_ok_of (g := fun p : Option CoGf2 × Option CoGf2 => CoSigma.h (p.2.getD a))]
    · simp [mkSigma, bind, Except.bind, pure, Except.pure, Function.comp_def]
    · intro p hp
      obtain ⟨g, -, rfl⟩ := List.mem_map.mp hp
      rfl

/-- Without a sector for the intermediate states the amplitude is zero. -/
theorem amplitude_none {H : Matrix (Finset (Fin (n + n))) (Finset (Fin (n + n))) ℝ} (h : EigenEspace n H es) {op op' : Ladder} {sI sJ : Bool} {q qF : ℕ × ℕ}
    (hq : q.1 ≤ n ∧ q.2 ≤ n) (hqF : qF.1 ≤ n ∧ qF.2 ≤ n)
    (hJ : ∀ y : ℕ × ℕ, y.1 ≤ n → y.2 ≤ n → ¬ ((y.1 : ℤ) = q.1 + (if false = sJ then op.delta else 0) ∧ (y.2 : ℤ) = q.2 + (if true = sJ then op.delta else 0)))
    (hF : ∀ y : ℕ × ℕ, y.1 ≤ n → y.2 ≤ n → ¬ ((qF.1 : ℤ) = y.1 + (if false = sI then op'.delta else 0) ∧ (qF.2 : ℤ) = y.2 + (if true = sI then op'.delta else 0)))
    (aF aI : Fin n → ℝ) (f i : ℕ) (a b : ℝ) :
    IsAmplitude (a • (1 : Matrix _ _ ℝ) + b • H) (stateKet n es qF f) (ladSum n op' sI aF) (ladSum n op sJ aI) (stateKet n es q i) 0 := by
  obtain ⟨up, dw, -, -, hok, -⟩ := h.toCompleteEspace.at hq.1 hq.2
  obtain ⟨upF, dwF, -, -, hokF, -⟩ := h.toCompleteEspace.at hqF.1 hqF.2
  have z1 : ∀ y : ℕ × ℕ, y.1 ≤ n → y.2 ≤ n → ∀ k, (sctAt es y).ket n k ⬝ᵥ (ladSum n op sJ aI *ᵥ stateKet n es q i) = 0 := by
    intro y hy1 hy2 k
    obtain ⟨upy, dwy, -, -, hoky, -⟩ := h.toCompleteEspace.at hy1 hy2
    unfold stateKet
    rw [show q = (q.1, q.2) from rfl, show y = (y.1, y.2) from rfl, hok.ket_eq, hoky.ket_eq]
    exact (grade_ladSum op sJ aI).elem_zero hok.hup hok.hdw hoky.hup hoky.hdw _ _ (hJ y hy1 hy2)
  have z2 : ∀ y : ℕ × ℕ, y.1 ≤ n → y.2 ≤ n → ∀ k, stateKet n es qF f ⬝ᵥ (ladSum n op' sI aF *ᵥ (sctAt es y).ket n k) = 0 := by
    intro y hy1 hy2 k
    obtain ⟨upy, dwy, -, -, hoky, -⟩ := h.toCompleteEspace.at hy1 hy2
    unfold stateKet
    rw [show qF = (qF.1, qF.2) from rfl, show y = (y.1, y.2) from rfl, hokF.ket_eq, hoky.ket_eq]
    exact (grade_ladSum op' sI aF).elem_zero hoky.hup hoky.hdw hokF.hup hokF.hdw _ _ (hF y hy1 hy2)
  have hb := (h.basis.shift a b).amplitude (stateKet n es qF f) (ladSum n op' sI aF) (ladSum n op sJ aI) (stateKet n es q i) (by
    rintro ⟨⟨y1, y2⟩, k⟩ -
    have l1 : (y1 : ℕ) ≤ n := by have := y1.2; omega
    have l2 : (y2 : ℕ) ≤ n := by have := y2.2; omega
    exact ⟨z1 _ l1 l2 k, z2 _ l1 l2 k⟩)
  rw [Finset.sum_eq_zero (fun x _ => by
    obtain ⟨⟨y1, y2⟩, k⟩ := x
    have := z1 ((y1 : ℕ), (y2 : ℕ)) (by have := y1.2; simp only; omega) (by have := y2.2; simp only; omega) k
    unfold esKet; rw [this]; ring)] at hb
  exact hb

theorem coProjectAdd_out (junk : ℕ) (i j : Bool) {q : ℕ × ℕ} (h : ¬ ((shiftUp j q).1 ≤ n ∧ (shiftUp j q).2 ≤ n)) (hq : q.1 ≤ n ∧ q.2 ≤ n) :
    coProjectAdd junk (ispinOf i) (ispinOf j) n (zp q) es = .error .outOfHilbert := by
  have : getCdgSector n (zp q).1 (zp q).2 (ispinOf j) = .error .outOfHilbert := by
    cases j
    · simp only [shiftUp, Bool.false_eq_true, if_false] at h
      have : ((q.1 : ℤ) + 1 > n) := by omega
      simp [getCdgSector, zp, ispinOf, this]
    · simp only [shiftUp, if_true] at h
      have : ((q.2 : ℤ) + 1 > n) := by omega
      simp [getCdgSector, zp, ispinOf, this]
  simp [coProjectAdd, this, bind, Except.bind]

theorem coProjectSub_out (junk : ℕ) (i j : Bool) {q : ℕ × ℕ} (h : ∀ qJ, shiftUp i qJ ≠ q) :
    coProjectSub junk (ispinOf j) (ispinOf i) n (zp q) es = .error .outOfHilbert := by
  have : getCSector (zp q).1 (zp q).2 (ispinOf i) = .error .outOfHilbert := by
    obtain ⟨u, d⟩ := q
    cases i
    · have hu : u = 0 := by
        by_contra h0
        exact h (u - 1, d) (by simp [shiftUp]; omega)
      subst hu
      simp [getCSector, zp, ispinOf]
    · have hd : d = 0 := by
        by_contra h0
        exact h (u, d - 1) (by simp [shiftUp]; omega)
      subst hd
      simp [getCSector, zp, ispinOf]
  simp [coProjectSub, this, bind, Except.bind]

/-- The sum of the amplitudes of the two orders in which an electron of spin `j` can come from lead `a` and one of spin `i` leave to lead `b`. -/
def IsSecondOrder (n : ℕ) (H : Matrix (Finset (Fin (n + n))) (Finset (Fin (n + n))) ℝ) (i j : Bool) (b a : List ℝ) (EI z : ℝ) (F I : Finset (Fin (n + n)) → ℝ) (v : ℝ) : Prop :=
  ∃ ve vh, v = ve + vh ∧
    IsAmplitude ((z + EI) • (1 : Matrix _ _ ℝ) - H) F (annSum (n := n) i fun m => b[(m : ℕ)]?.getD 0) (creSum j fun m => a[(m : ℕ)]?.getD 0) I ve ∧
    IsAmplitude ((z - EI) • (1 : Matrix _ _ ℝ) + H) F (creSum (n := n) j fun m => a[(m : ℕ)]?.getD 0) (annSum i fun m => b[(m : ℕ)]?.getD 0) I vh

/-- **C96**. For a complete espace the elements for one pair of spins `(i, j)` and one initial sector are one for each pair of an initial and a
final state, and calling an element is the square of the sum of the second-order amplitudes of both orders; an order that leaves the
Hilbert space contributes nothing. -/
theorem C96_sigma (hn : n ≤ 32) (hn0 : 0 < n) {H : Matrix (Finset (Fin (n + n))) (Finset (Fin (n + n))) ℝ} (h : EigenEspace n H es) (junk : ℕ) (i j : Bool) {q qF : ℕ × ℕ}
    (hq : q.1 ≤ n ∧ q.2 ≤ n) (hF : qF.1 ≤ n ∧ qF.2 ≤ n) (hqF : shiftUp i qF = shiftUp j q) :
    ∃ l, coSigmaList junk n (zp q) es (ispinOf i, ispinOf j) = .ok l ∧
      l.map (fun s => s.gf2.ids) = (ndindex2 (n.choose qF.1 * n.choose qF.2) (n.choose q.1 * n.choose q.2)).map
        (fun fi => (((qF.1 : ℤ), (qF.2 : ℤ), fi.1), ((q.1 : ℤ), (q.2 : ℤ), fi.2))) ∧
      ∀ s ∈ l, ∃ f k, f < n.choose qF.1 * n.choose qF.2 ∧ k < n.choose q.1 * n.choose q.2 ∧
        s.gf2.ids = (((qF.1 : ℤ), (qF.2 : ℤ), f), ((q.1 : ℤ), (q.2 : ℤ), k)) ∧ s.gf2.dE = stateEnergy es qF f - stateEnergy es q k ∧
        ∀ (z : ℝ) (A : List (List ℝ)) (extract inject : ℕ) (a b : List ℝ), A[extract]? = some a → A[inject]? = some b → a.length = n → b.length = n →
          (∀ m, m < n.choose (shiftUp j q).1 * n.choose (shiftUp j q).2 → z + stateEnergy es q k ≠ stateEnergy es (shiftUp j q) m) →
          (∀ qJ, shiftUp i qJ = q → ∀ m, m < n.choose qJ.1 * n.choose qJ.2 → stateEnergy es q k - z ≠ stateEnergy es qJ m) →
          ∃ v, s.call z A extract inject = .ok (v ^ 2) ∧
            IsSecondOrder n H i j b a (stateEnergy es q k) z (stateKet n es qF f) (stateKet n es q k) v := by
  have hne : ndindex2 (n.choose qF.1 * n.choose qF.2) (n.choose q.1 * n.choose q.2) ≠ [] := by
    apply List.ne_nil_of_mem (a := (0, 0))
    exact mem_ndindex2.mpr ⟨Nat.mul_pos (Nat.choose_pos hF.1) (Nat.choose_pos hF.2), Nat.mul_pos (Nat.choose_pos hq.1) (Nat.choose_pos hq.2)⟩
  have hget : ∀ {A : List (List ℝ)} {m : ℕ} {x : List ℝ}, A[m]? = some x → getItem A (m : ℤ) = .ok x := by
    intro A m x hx
    obtain ⟨h1, h2⟩ := List.getElem?_eq_some_iff.mp hx
    rw [getItem_natCast _ _ h1, h2]
  by_cases he : (shiftUp j q).1 ≤ n ∧ (shiftUp j q).2 ≤ n
  · obtain ⟨le, e1, e2, e3⟩ := C96_electron hn h junk i j hq he hqF
    have e2' : le.map CoGf2.ids = _ := e2
    by_cases hh : ∃ qJ, shiftUp i qJ = q
    · obtain ⟨qJ, hqJ⟩ := hh
      have hqF' : qF = shiftUp j qJ := by
        subst hqJ
        have h1 := congrArg Prod.fst hqF
        have h2 := congrArg Prod.snd hqF
        apply Prod.ext <;> cases i <;> cases j <;> simp [shiftUp] at h1 h2 ⊢ <;> omega
      obtain ⟨lh, d1, d2, d3⟩ := C96_hole hn h junk j i (qJ := qJ) (by rw [hqJ]; exact hq) (by rw [← hqF']; exact hF) hqJ.symm hqF'
      have d2' : lh.map CoGf2.ids = _ := d2
      obtain ⟨l, z1, z2, z3⟩ := zip_eh le lh (e2'.trans d2'.symm)
      refine ⟨l, by simp only [coSigmaList, e1, d1, orNone, bind, Except.bind]; exact z1, z2.trans e2', fun s hs => ?_⟩
      obtain ⟨ge, m1, gh, m2, rfl, hid⟩ := z3 s hs
      obtain ⟨f, k, b1, b2, i1, i2, i3, i4⟩ := e3 ge m1
      obtain ⟨f', k', b1', b2', i1', i2', i3', i4'⟩ := d3 gh m2
      have hf : f = f' := by
        have := congrArg (fun x => x.1.2.2) hid
        simpa [CoGf2.ids, i1, i1'] using this
      have hk : k = k' := by
        have := congrArg (fun x => x.2.2.2) hid
        simpa [CoGf2.ids, i2, i2'] using this
      subst hf hk
      refine ⟨f, k, b1, b2, by simp [CoSigma.gf2, CoGf2.ids, i1, i2], i3, fun z A ex inj a b ha hb la lb r1 r2 => ?_⟩
      obtain ⟨ve, c1, c2⟩ := i4 z b a lb la r1
      obtain ⟨vh, c1', c2'⟩ := i4' z a b la lb (r2 qJ hqJ)
      refine ⟨ve + vh, ?_, ve, vh, rfl, c2, c2'⟩
      simp only [CoSigma.call, hget ha, hget hb, c1, c1', bind, Except.bind, pure, Except.pure]
    · have hh' : ∀ qJ, shiftUp i qJ ≠ q := fun qJ hc => hh ⟨qJ, hc⟩
      have hle : le ≠ [] := by
        rintro rfl
        rw [List.map_nil] at e2'
        exact hne (List.map_eq_nil_iff.mp e2'.symm)
      refine ⟨le.map .e, by simp only [coSigmaList, e1, coProjectSub_out junk i j hh', orNone, bind, Except.bind]; exact zip_e le hle,
        by rw [List.map_map]; exact e2', fun s hs => ?_⟩
      obtain ⟨ge, m1, rfl⟩ := List.mem_map.mp hs
      obtain ⟨f, k, b1, b2, i1, i2, i3, i4⟩ := e3 ge m1
      refine ⟨f, k, b1, b2, by simp [CoSigma.gf2, CoGf2.ids, i1, i2], i3, fun z A ex inj a b ha hb la lb r1 r2 => ?_⟩
      obtain ⟨ve, c1, c2⟩ := i4 z b a lb la r1
      refine ⟨ve + 0, ?_, ve, 0, rfl, c2, ?_⟩
      · simp only [CoSigma.call, hget ha, hget hb, c1, bind, Except.bind, pure, Except.pure, add_zero]
      · have := amplitude_none h (op := .c) (op' := .cdg) (sI := j) (sJ := i) hq hF
          (fun y hy1 hy2 hc => by
            apply hh' y
            apply Prod.ext <;> cases i <;> simp [shiftUp, Ladder.delta] at hc ⊢ <;> omega)
          (fun y hy1 hy2 hc => by
            have g1 := congrArg Prod.fst hqF
            have g2 := congrArg Prod.snd hqF
            apply hh' y
            apply Prod.ext <;> cases i <;> cases j <;> simp [shiftUp, Ladder.delta] at hc g1 g2 ⊢ <;> omega)
          (fun m => a[(m : ℕ)]?.getD 0) (fun m => b[(m : ℕ)]?.getD 0) f k (z - stateEnergy es q k) 1
        rw [one_smul] at this
        exact this
  · have hij : i = j := by
      by_contra hij
      have g1 := congrArg Prod.fst hqF
      have g2 := congrArg Prod.snd hqF
      apply he
      rw [← hqF]
      cases i <;> cases j <;> simp [shiftUp] at g1 g2 hij ⊢ <;> omega
    subst hij
    have hqq : qF = q := by
      have g1 := congrArg Prod.fst hqF
      have g2 := congrArg Prod.snd hqF
      apply Prod.ext <;> cases i <;> simp [shiftUp] at g1 g2 ⊢ <;> omega
    subst hqq
    obtain ⟨qJ, hqJ⟩ : ∃ qJ, shiftUp i qJ = qF := by
      cases i
      · simp only [shiftUp, Bool.false_eq_true, if_false] at he ⊢
        exact ⟨(qF.1 - 1, qF.2), Prod.ext (by simp; omega) rfl⟩
      · simp only [shiftUp, if_true] at he ⊢
        exact ⟨(qF.1, qF.2 - 1), Prod.ext rfl (by simp; omega)⟩
    obtain ⟨lh, d1, d2, d3⟩ := C96_hole hn h junk i i (qJ := qJ) (by rw [hqJ]; exact hq) (by rw [hqJ]; exact hF) hqJ.symm hqJ.symm
    have d2' : lh.map CoGf2.ids = _ := d2
    have hlh : lh ≠ [] := by
      rintro rfl
      rw [List.map_nil] at d2'
      exact hne (List.map_eq_nil_iff.mp d2'.symm)
    refine ⟨lh.map .h, by simp only [coSigmaList, d1, coProjectAdd_out junk i i he hq, orNone, bind, Except.bind]; exact zip_h lh hlh,
      by rw [List.map_map]; exact d2', fun s hs => ?_⟩
    obtain ⟨gh, m1, rfl⟩ := List.mem_map.mp hs
    obtain ⟨f, k, b1, b2, i1, i2, i3, i4⟩ := d3 gh m1
    refine ⟨f, k, b1, b2, by simp [CoSigma.gf2, CoGf2.ids, i1, i2], i3, fun z A ex inj a b ha hb la lb r1 r2 => ?_⟩
    obtain ⟨vh, c1, c2⟩ := i4 z a b la lb (r2 qJ hqJ)
    refine ⟨0 + vh, ?_, 0, vh, rfl, ?_, c2⟩
    · simp only [CoSigma.call, hget ha, hget hb, c1, bind, Except.bind, pure, Except.pure, zero_add]
    · have := amplitude_none h (op := .cdg) (op' := .c) (sI := i) (sJ := i) hq hF
        (fun y hy1 hy2 hc => by
          apply he
          cases i <;> simp [shiftUp, Ladder.delta] at hc ⊢ <;> omega)
        (fun y hy1 hy2 hc => by
          apply he
          cases i <;> simp [shiftUp, Ladder.delta] at hc ⊢ <;> omega)
        (fun m => b[(m : ℕ)]?.getD 0) (fun m => a[(m : ℕ)]?.getD 0) f k (z + stateEnergy es qF k) (-1)
      rw [neg_one_smul, ← sub_eq_add_neg] at this
      exact this

/-- C96 for what `build_espace` returns. -/
theorem C96_from_build_espace {a : HamArgs} (ha : a.Valid) (hn0 : 0 < a.n) {w : ℕ} (hw : a.n ≤ w) {e0 : WithTop ℝ}
    (h : BuildEspace w a none (.ok (es, e0))) (junk : ℕ) (i j : Bool) {q qF : ℕ × ℕ} (hq : q.1 ≤ a.n ∧ q.2 ≤ a.n) (hF : qF.1 ≤ a.n ∧ qF.2 ≤ a.n)
    (hqF : shiftUp i qF = shiftUp j q) :
    ∃ l, coSigmaList junk a.n (zp q) es (ispinOf i, ispinOf j) = .ok l ∧
      ∀ s ∈ l, ∃ f k, s.gf2.ids = (((qF.1 : ℤ), (qF.2 : ℤ), f), ((q.1 : ℤ), (q.2 : ℤ), k)) ∧
        ∀ (z : ℝ) (b c : List ℝ), b.length = a.n → c.length = a.n →
          (∀ m, m < a.n.choose (shiftUp j q).1 * a.n.choose (shiftUp j q).2 → z + stateEnergy es q k ≠ stateEnergy es (shiftUp j q) m) →
          (∀ qJ, shiftUp i qJ = q → ∀ m, m < a.n.choose qJ.1 * a.n.choose qJ.2 → stateEnergy es q k - z ≠ stateEnergy es qJ m) →
          ∃ v, s.call z [b, c] 0 1 = .ok (v ^ 2) ∧
            IsSecondOrder a.n a.ham i j c b (stateEnergy es q k) z (stateKet a.n es qF f) (stateKet a.n es q k) v := by
  obtain ⟨l, h1, -, h3⟩ := C96_sigma ha.le hn0 (buildEspace_eigen ha hw h) junk i j hq hF hqF
  refine ⟨l, h1, fun s hs => ?_⟩
  obtain ⟨f, k, -, -, e1, -, e2⟩ := h3 s hs
  exact ⟨f, k, e1, fun z b c hb hc r1 r2 => e2 z [b, c] 0 1 b c rfl rfl hb hc r1 r2⟩

/-- C96 is not vacuous: two coupled sites, one electron of each spin, a process that flips the spins, at an energy away from resonance. -/
example : ∃ es l, coSigmaList 0 2 (1, 1) es (0, 1) = .ok l ∧ l.length = 4 ∧ ∀ s ∈ l, ∃ z v f k, s.call z [[1, 2], [3, 4]] 0 1 = .ok (v ^ 2) ∧
    IsSecondOrder 2 exampleArgs.ham false true [3, 4] [1, 2] (stateEnergy es (1, 1) k) z (stateKet 2 es (0, 2) f) (stateKet 2 es (1, 1) k) v := by
  obtain ⟨es, h⟩ := exampleArgs_eigenEspace
  obtain ⟨l, h1, h2, h3⟩ := C96_sigma (n := 2) (by norm_num) (by norm_num) h 0 false true (q := (1, 1)) (qF := (0, 2)) (by norm_num) (by norm_num) rfl
  refine ⟨es, l, h1, ?_, fun s hs => ?_⟩
  · have := congrArg List.length h2
    rw [List.length_map, List.length_map, length_ndindex2] at this
    simpa using this
  · obtain ⟨f, k, -, -, -, -, e⟩ := h3 s hs
    obtain ⟨z, hz⟩ := Set.Infinite.exists_notMem_finset (s := (Set.univ : Set ℝ)) Set.infinite_univ
      (((Finset.range 2).image fun m => stateEnergy es (1, 2) m - stateEnergy es (1, 1) k) ∪ ((Finset.range 2).image fun m => stateEnergy es (1, 1) k - stateEnergy es (0, 1) m))
    have hz' := hz.2
    simp only [Finset.mem_union, Finset.mem_image, Finset.mem_range, not_or, not_exists, not_and] at hz'
    obtain ⟨v, e1, e2⟩ := e z [[1, 2], [3, 4]] 0 1 [1, 2] [3, 4] rfl rfl rfl rfl
      (fun m hm hc => hz'.1 m (by simpa [shiftUp] using hm) (by simp only [shiftUp, if_true] at hc; linarith))
      (fun qJ hJ m hm hc => by
        have : qJ = (0, 1) := by
          have g1 := congrArg Prod.fst hJ
          have g2 := congrArg Prod.snd hJ
          apply Prod.ext <;> simp [shiftUp] at g1 g2 ⊢ <;> omega
        subst this
        exact hz'.2 m (by simpa using hm) (by linarith))
    exact ⟨z, v, f, k, e1, e2⟩

end Edpyt
