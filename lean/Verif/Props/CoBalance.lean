import Verif.Props.CotunnelingExact
import Verif.Props.CoAmplitude
/-!
C147: detailed balance of the cotunnelling rates.
-/
namespace Edpyt
open Spec Matrix

/-! ### Specification -/

/-- A way from a state to another through intermediate states: their energies, and the matrix elements of the second (`vF`) and first (`vI`) electron operator, one row per intermediate state. -/
structure CoPath where
  vF : List (List ℝ)
  vI : List (List ℝ)
  eJ : List ℝ

/-- The same way walked backwards. -/
def CoPath.rev (p : CoPath) : CoPath := ⟨p.vI, p.vF, p.eJ⟩

/-- The element of a way through states with one electron more, as `project_add` builds it, `edpyt/cotunneling.py:73-77`. -/
def elemE (idF idI : TId) (eF eI : ℝ) (p : CoPath) : CoGf2 := ⟨idF, idI, p.vF, p.vI, p.eJ.map fun e => e - eI, eF - eI⟩

/-- The element of a way through states with one electron less, as `project_sub` builds it, `edpyt/cotunneling.py:109-113`. -/
def elemH (idF idI : TId) (eF eI : ℝ) (p : CoPath) : CoGf2 := ⟨idF, idI, p.vF, p.vI, p.eJ.map fun e => -e + eI, eF - eI⟩

/-- The ways between two states: through states with one electron more, less, or both. -/
inductive CoWays where
  | more (p : CoPath)
  | less (p : CoPath)
  | both (p q : CoPath)

/-- All ways backwards. -/
def CoWays.rev : CoWays → CoWays
  | .more p => .more p.rev
  | .less p => .less p.rev
  | .both p q => .both p.rev q.rev

/-- The element for the ways from a state of energy `eI` to one of energy `eF`. -/
def CoWays.elem (idF idI : TId) (eF eI : ℝ) : CoWays → CoSigma
  | .more p => .e (elemE idF idI eF eI p)
  | .less p => .h (elemH idF idI eF eI p)
  | .both p q => .eh (elemE idF idI eF eI p) (elemH idF idI eF eI q)

/-- Detailed balance for one transition: the rate back, with the two leads exchanged, is the rate forth times the Boltzmann factor of the energy that the transition takes. -/
def Balanced (rate : ℕ → ℕ → CoSigma → Except PyErr ℝ) (beta : ℝ) (mu : List ℝ) (extract inject : ℕ) (idF idI : TId) (eF eI : ℝ) (w : CoWays) : Prop :=
  ∀ r me mi, getItem mu (extract : ℤ) = .ok me → getItem mu (inject : ℤ) = .ok mi → rate extract inject (w.elem idF idI eF eI) = .ok r →
    rate inject extract (w.rev.elem idI idF eI eF) = .ok (Real.exp (beta * (eF - eI - me + mi)) * r)

/-! ### Helpers -/

theorem eb {α β : Type} {x : Except PyErr α} {f : α → Except PyErr β} {y : β} (h : (x >>= f) = .ok y) : ∃ a, x = .ok a ∧ f a = .ok y := by
  cases x with
  | error e => cases h
  | ok a => exact ⟨a, rfl, h⟩

theorem zipWith_mul_comm (x y : List ℝ) : List.zipWith (· * ·) x y = List.zipWith (· * ·) y x := by
  rw [List.zipWith_comm]
  congr 1
  funext a b
  exact mul_comm _ _

theorem CoGf2.call_swap {g g' : CoGf2} {z z' : ℝ} {a b : List ℝ} {r : ℝ} (h1 : g'.vF = g.vI) (h2 : g'.vI = g.vF) (hE : (g'.E.map fun e => (z' - e)⁻¹) = g.E.map fun e => (z - e)⁻¹)
    (h : g.call z a b = .ok r) : g'.call z' b a = .ok r := by
  unfold CoGf2.call at h ⊢
  obtain ⟨x, hx, h⟩ := eb h
  obtain ⟨y, hy, h⟩ := eb h
  rw [h1, h2, hx, hy, hE]
  rw [← h]
  simp only [bind, Except.bind]
  rw [zipWith_mul_comm y x]

theorem elemE_denoms (idF idI : TId) (eF eI M : ℝ) (p : CoPath) :
    ((elemE idI idF eI eF p.rev).E.map fun e => (0.5 * (eI - eF + M) - e)⁻¹) = (elemE idF idI eF eI p).E.map fun e => (0.5 * (eF - eI + M) - e)⁻¹ := by
  simp only [elemE, CoPath.rev, List.map_map]
  congr 1
  funext e
  simp only [Function.comp]
  congr 1
  ring

theorem elemH_denoms (idF idI : TId) (eF M : ℝ) (p : CoPath) :
    ((elemH idI idF eF eF p.rev).E.map fun e => (0.5 * (eF - eF + M) - e)⁻¹) = (elemH idF idI eF eF p).E.map fun e => (0.5 * (eF - eF + M) - e)⁻¹ := rfl

theorem coG_rev {beta w : ℝ} (h0 : 1e-18 ≤ beta * |w|) (h1 : |beta * w| ≤ 1000) : coG beta (-w) = Real.exp (beta * w) * coG beta w := by
  rw [C62_balance h0 h1, ← mul_assoc, ← Real.exp_add]
  simp

theorem balanced_approx_of {beta eF eI : ℝ} {A : List (List ℝ)} {mu : List ℝ} {extract inject : ℕ} {idF idI : TId} {w : CoWays}
    (hw : ∀ me mi, getItem mu (extract : ℤ) = .ok me → getItem mu (inject : ℤ) = .ok mi → 1e-18 ≤ beta * |eF - eI - me + mi| ∧ |beta * (eF - eI - me + mi)| ≤ 1000)
    (hc : ∀ r, (w.elem idF idI eF eI).call (0.5 * (eF - eI + mu.sum)) A extract inject = .ok r → (w.rev.elem idI idF eI eF).call (0.5 * (eI - eF + mu.sum)) A inject extract = .ok r) :
    Balanced (CoSigma.approximate A beta mu) beta mu extract inject idF idI eF eI w := by
  intro r me mi hme hmi h
  have d1 : (w.elem idF idI eF eI).gf2.dE = eF - eI := by cases w <;> rfl
  have d2 : (w.rev.elem idI idF eI eF).gf2.dE = eI - eF := by cases w <;> rfl
  unfold CoSigma.approximate at h ⊢
  rw [hme, hmi] at h ⊢
  simp only [bind, Except.bind, d1, d2] at h ⊢
  cases hr : (w.elem idF idI eF eI).call (0.5 * (eF - eI + mu.sum)) A extract inject with
  | error e => rw [hr] at h; cases h
  | ok x =>
    rw [hr] at h
    rw [hc x hr]
    simp only [pure, Except.pure, Except.ok.injEq] at h ⊢
    obtain ⟨h0, h1⟩ := hw me mi hme hmi
    have e : eI - eF - mi + me = -(eF - eI - me + mi) := by ring
    rw [e, coG_rev h0 h1, ← h]
    ring

/-! ### The elements of the code come in such pairs -/

theorem list_eq_of_dot {n : ℕ} {x y : List ℝ} (hx : x.length = n) (hy : y.length = n)
    (h : ∀ a : List ℝ, a.length = n → (List.zipWith (· * ·) x a).sum = (List.zipWith (· * ·) y a).sum) : x = y := by
  induction n generalizing x y with
  | zero => rw [List.length_eq_zero_iff.mp hx, List.length_eq_zero_iff.mp hy]
  | succ n ih =>
    match x, hx, y, hy with
    | a :: x, hx, b :: y, hy =>
      have e1 := h (1 :: List.replicate n 0) (by simp)
      have z : ∀ (l : List ℝ) (m : ℕ), (List.zipWith (· * ·) l (List.replicate m 0)).sum = 0 := by
        intro l
        induction l with
        | nil => simp
        | cons c l ih => intro m; cases m <;> simp [List.replicate_succ, ih]
      simp only [List.zipWith_cons_cons, List.sum_cons, z, mul_one, add_zero] at e1
      refine List.cons_eq_cons.mpr ⟨e1, ih (by simpa using hx) (by simpa using hy) fun l hl => ?_⟩
      have e2 := h (0 :: l) (by simp [hl])
      simpa using e2

theorem ladSum_transpose (n : ℕ) (s : Bool) (a : Fin n → ℝ) : (ladSum n .cdg s a)ᵀ = ladSum n .c s a := by
  unfold ladSum
  rw [Matrix.transpose_sum]
  refine Finset.sum_congr rfl fun i _ => ?_
  rw [Matrix.transpose_smul]
  rfl

/-- The matrix elements of an electron operator, forth and back. -/
theorem proj_transpose {n : ℕ} (hn : n ≤ 32) (junk : ℕ) (σ : Bool) {p : ℕ × ℕ} {I J : Sct} {upI dwI upJ dwJ : List ℕ} (hI : SctOk n p.1 p.2 I upI dwI)
    (hJ : SctOk n (shiftUp σ p).1 (shiftUp σ p).2 J upJ dwJ) :
    ∃ vs ws, projectAll junk (ispinOf σ) n .cdg I J = .ok vs ∧ projectAll junk (ispinOf σ) n .c J I = .ok ws ∧ vs.length = n ∧ ws.length = n ∧
      ∀ j k, j < J.eigvals.length → k < I.eigvals.length →
        (vs.map fun M => coSgn (ispinOf σ) (p.2 : ℤ) * M j k) = ws.map fun M => coSgn (ispinOf σ) ((shiftUp σ p).2 : ℤ) * M k j := by
  obtain ⟨vs, e1, l1, p1⟩ := projectAll_elem hn junk .cdg σ hI hJ (shift_cdg σ p)
  obtain ⟨ws, e2, l2, p2⟩ := projectAll_elem hn junk .c σ hJ hI (shift_c σ p)
  refine ⟨vs, ws, e1, e2, l1, l2, fun j k hj hk => list_eq_of_dot (n := n) (by simp [l1]) (by simp [l2]) fun a ha => ?_⟩
  rw [p1 j k hj hk a ha, p2 k j hk hj a ha, ← ladSum_transpose, Matrix.dotProduct_mulVec, Matrix.mulVec_transpose, dotProduct_comm]

variable {n : ℕ} {es : Espace (ℕ × ℕ)}

/-- The states of a sector are indexed by the eigenvalues. -/
def stateId (q : ℕ × ℕ) (k : ℕ) : TId := ((q.1 : ℤ), (q.2 : ℤ), k)

/-- **C147** (pairs) On a complete espace every element that `project_add` makes from a sector `q` is the element of some way, and `project_add` from the final sector, with the spins exchanged,
makes the element of the reverse way. -/
theorem C147_pairs_electron (hn : n ≤ 32) {H : Matrix (Finset (Fin (n + n))) (Finset (Fin (n + n))) ℝ} (h : EigenEspace n H es) (junk : ℕ) (sI sJ : Bool) {q qF : ℕ × ℕ}
    (hq : q.1 ≤ n ∧ q.2 ≤ n) (hqJ : (shiftUp sJ q).1 ≤ n ∧ (shiftUp sJ q).2 ≤ n) (hqF : shiftUp sI qF = shiftUp sJ q) :
    ∃ l l', coProjectAdd junk (ispinOf sI) (ispinOf sJ) n (zp q) es = .ok l ∧ coProjectAdd junk (ispinOf sJ) (ispinOf sI) n (zp qF) es = .ok l' ∧
      ∀ g ∈ l, ∃ f i p, g = elemE (stateId qF f) (stateId q i) (stateEnergy es qF f) (stateEnergy es q i) p ∧
        elemE (stateId q i) (stateId qF f) (stateEnergy es q i) (stateEnergy es qF f) p.rev ∈ l' := by
  have hF : qF.1 ≤ n ∧ qF.2 ≤ n := by
    have : qF.1 ≤ (shiftUp sI qF).1 ∧ qF.2 ≤ (shiftUp sI qF).2 := by cases sI <;> simp [shiftUp]
    rw [hqF] at this; omega
  obtain ⟨up, dw, -, hget, hok, -, -, hl⟩ := h.toCompleteEspace.at hq.1 hq.2
  obtain ⟨upJ, dwJ, -, hgetJ, hokJ, -, -, hlJ⟩ := h.toCompleteEspace.at hqJ.1 hqJ.2
  obtain ⟨upF, dwF, -, hgetF, hokF, -, -, hlF⟩ := h.toCompleteEspace.at hF.1 hF.2
  obtain ⟨v1, w1, e1, e1', l1, l1', t1⟩ := proj_transpose hn junk sJ (p := q) hok hokJ
  obtain ⟨v2, w2, e2, e2', l2, l2', t2⟩ := proj_transpose hn junk sI (p := qF) hokF (J := sctAt es ((shiftUp sJ q).1, (shiftUp sJ q).2)) (upJ := upJ) (dwJ := dwJ) (by rw [hqF]; exact hokJ)
  have hc1 := getCdgSector_zp sJ hqJ
  have hc2 := getCSector_zp sI qF
  have hc3 := getCdgSector_zp (n := n) sI (q := qF) (by rw [hqF]; exact hqJ)
  have hc4 := getCSector_zp sJ q
  rw [hqF] at hc2 hc3
  refine ⟨_, _, by
    simp only [coProjectAdd, hc1, hc2, espaceGet_zp, bind, Except.bind, pure, Except.pure]
    rw [show q = (q.1, q.2) from rfl, hget]
    simp only
    rw [show shiftUp sJ (q.1, q.2) = ((shiftUp sJ q).1, (shiftUp sJ q).2) from rfl, hgetJ]
    simp only
    rw [show qF = (qF.1, qF.2) from rfl, hgetF]
    simp only
    rw [e1, e2'], by
    simp only [coProjectAdd, hc3, hc4, espaceGet_zp, bind, Except.bind, pure, Except.pure]
    rw [show qF = (qF.1, qF.2) from rfl, hgetF]
    simp only
    rw [show shiftUp sJ q = ((shiftUp sJ q).1, (shiftUp sJ q).2) from rfl, hgetJ]
    simp only
    rw [show q = (q.1, q.2) from rfl, hget]
    simp only
    rw [e2, e1'], fun g hg => ?_⟩
  unfold coGf2List at hg
  obtain ⟨⟨f, i⟩, hfi, rfl⟩ := List.mem_map.mp hg
  obtain ⟨b1, b2⟩ := mem_ndindex2.mp hfi
  refine ⟨f, i, ⟨_, _, (sctAt es ((shiftUp sJ q).1, (shiftUp sJ q).2)).eigvals⟩, by simp only [elemE, Bool.false_eq_true, if_false]; rfl, ?_⟩
  unfold coGf2List
  refine List.mem_map.mpr ⟨(i, f), mem_ndindex2.mpr ⟨b2, b1⟩, ?_⟩
  simp only [elemE, CoPath.rev, Bool.false_eq_true, if_false, CoGf2.mk.injEq]
  refine ⟨rfl, rfl, ?_, ?_, rfl, rfl⟩
  · refine List.map_congr_left fun j hj => ?_
    rw [List.mem_range] at hj
    exact (t1 j i hj b2).symm
  · refine List.map_congr_left fun j hj => ?_
    rw [List.mem_range] at hj
    have := t2 j f hj b1
    rw [hqF] at this
    exact this

/-- **C147** (pairs) The same for `project_sub`. -/
theorem C147_pairs_hole (hn : n ≤ 32) {H : Matrix (Finset (Fin (n + n))) (Finset (Fin (n + n))) ℝ} (h : EigenEspace n H es) (junk : ℕ) (sI sJ : Bool) {qJ : ℕ × ℕ}
    (hq : (shiftUp sJ qJ).1 ≤ n ∧ (shiftUp sJ qJ).2 ≤ n) (hF : (shiftUp sI qJ).1 ≤ n ∧ (shiftUp sI qJ).2 ≤ n) {q qF : ℕ × ℕ} (eq : q = shiftUp sJ qJ) (eqF : qF = shiftUp sI qJ) :
    ∃ l l', coProjectSub junk (ispinOf sI) (ispinOf sJ) n (zp q) es = .ok l ∧ coProjectSub junk (ispinOf sJ) (ispinOf sI) n (zp qF) es = .ok l' ∧
      ∀ g ∈ l, ∃ f i p, g = elemH (stateId qF f) (stateId q i) (stateEnergy es qF f) (stateEnergy es q i) p ∧
        elemH (stateId q i) (stateId qF f) (stateEnergy es q i) (stateEnergy es qF f) p.rev ∈ l' := by
  have hqJ : qJ.1 ≤ n ∧ qJ.2 ≤ n := by
    have : qJ.1 ≤ (shiftUp sJ qJ).1 ∧ qJ.2 ≤ (shiftUp sJ qJ).2 := by cases sJ <;> simp [shiftUp]
    omega
  have hcI := getCdgSector_zp (n := n) sI hF
  have hcJ := getCdgSector_zp (n := n) sJ hq
  rw [← eq] at hq hcJ
  rw [← eqF] at hF hcI
  obtain ⟨up, dw, -, hget, hok, -, -, hl⟩ := h.toCompleteEspace.at hq.1 hq.2
  obtain ⟨upJ, dwJ, -, hgetJ, hokJ, -, -, hlJ⟩ := h.toCompleteEspace.at hqJ.1 hqJ.2
  obtain ⟨upF, dwF, -, hgetF, hokF, -, -, hlF⟩ := h.toCompleteEspace.at hF.1 hF.2
  obtain ⟨v1, w1, e1, e1', l1, l1', t1⟩ := proj_transpose hn junk sJ (p := qJ) hokJ (J := sctAt es (q.1, q.2)) (upJ := up) (dwJ := dw) (by rw [← eq]; exact hok)
  obtain ⟨v2, w2, e2, e2', l2, l2', t2⟩ := proj_transpose hn junk sI (p := qJ) hokJ (J := sctAt es (qF.1, qF.2)) (upJ := upF) (dwJ := dwF) (by rw [← eqF]; exact hokF)
  have hc1 := getCSector_zp sJ qJ
  have hc4 := getCSector_zp sI qJ
  rw [← eq] at hc1 t1
  rw [← eqF] at hc4 t2
  refine ⟨_, _, by
    simp only [coProjectSub, hc1, hcI, espaceGet_zp, bind, Except.bind, pure, Except.pure]
    rw [show q = (q.1, q.2) from rfl, hget]
    simp only
    rw [show qJ = (qJ.1, qJ.2) from rfl, hgetJ]
    simp only
    rw [show qF = (qF.1, qF.2) from rfl, hgetF]
    simp only
    rw [e1', e2], by
    simp only [coProjectSub, hc4, hcJ, espaceGet_zp, bind, Except.bind, pure, Except.pure]
    rw [show qF = (qF.1, qF.2) from rfl, hgetF]
    simp only
    rw [show qJ = (qJ.1, qJ.2) from rfl, hgetJ]
    simp only
    rw [show q = (q.1, q.2) from rfl, hget]
    simp only
    rw [e2', e1], fun g hg => ?_⟩
  unfold coGf2List at hg
  obtain ⟨⟨f, i⟩, hfi, rfl⟩ := List.mem_map.mp hg
  obtain ⟨b1, b2⟩ := mem_ndindex2.mp hfi
  refine ⟨f, i, ⟨_, _, (sctAt es (qJ.1, qJ.2)).eigvals⟩, by simp only [elemH, if_true]; rfl, ?_⟩
  unfold coGf2List
  refine List.mem_map.mpr ⟨(i, f), mem_ndindex2.mpr ⟨b2, b1⟩, ?_⟩
  simp only [elemH, CoPath.rev, if_true, CoGf2.mk.injEq]
  refine ⟨rfl, rfl, ?_, ?_, rfl, rfl⟩
  · refine List.map_congr_left fun j hj => ?_
    rw [List.mem_range] at hj
    exact t1 i j b2 hj
  · refine List.map_congr_left fun j hj => ?_
    rw [List.mem_range] at hj
    exact (t2 f j b1 hj).symm

/-! ### The approximate rate -/

/-- **C147** (approximate rate, partial: ways through states with one electron more). -/
theorem C147_approximate_partial {beta eF eI : ℝ} (A : List (List ℝ)) (mu : List ℝ) (extract inject : ℕ) (idF idI : TId) (p : CoPath)
    (hw : ∀ me mi, getItem mu (extract : ℤ) = .ok me → getItem mu (inject : ℤ) = .ok mi → 1e-18 ≤ beta * |eF - eI - me + mi| ∧ |beta * (eF - eI - me + mi)| ≤ 1000) :
    Balanced (CoSigma.approximate A beta mu) beta mu extract inject idF idI eF eI (.more p) := by
  refine balanced_approx_of hw fun r h => ?_
  unfold CoSigma.call at h ⊢
  obtain ⟨aI, h1, h⟩ := eb h
  obtain ⟨aE, h2, h⟩ := eb h
  rw [h1, h2]
  simp only [bind, Except.bind]
  obtain ⟨x, h3, h⟩ := eb h
  have := CoGf2.call_swap (g' := elemE idI idF eI eF p.rev) rfl rfl (elemE_denoms idF idI eF eI mu.sum p) h3
  simp only [CoWays.rev, CoWays.elem, this]
  exact h

/-- **C147** (approximate rate, partial: elastic transitions) All ways, if the states have equal energies. -/
theorem C147_approximate_elastic_partial {beta eF : ℝ} (A : List (List ℝ)) (mu : List ℝ) (extract inject : ℕ) (idF idI : TId) (w : CoWays)
    (hw : ∀ me mi, getItem mu (extract : ℤ) = .ok me → getItem mu (inject : ℤ) = .ok mi → 1e-18 ≤ beta * |eF - eF - me + mi| ∧ |beta * (eF - eF - me + mi)| ≤ 1000) :
    Balanced (CoSigma.approximate A beta mu) beta mu extract inject idF idI eF eF w := by
  refine balanced_approx_of hw fun r h => ?_
  unfold CoSigma.call at h ⊢
  obtain ⟨aI, h1, h⟩ := eb h
  obtain ⟨aE, h2, h⟩ := eb h
  rw [h1, h2]
  simp only [bind, Except.bind]
  cases w with
  | more p =>
    obtain ⟨x, h3, h⟩ := eb h
    have := CoGf2.call_swap (g' := elemE idI idF eF eF p.rev) rfl rfl (elemE_denoms idF idI eF eF mu.sum p) h3
    simp only [CoWays.rev, CoWays.elem, this]
    exact h
  | less p =>
    obtain ⟨x, h3, h⟩ := eb h
    have := CoGf2.call_swap (g' := elemH idI idF eF eF p.rev) rfl rfl (elemH_denoms idF idI eF mu.sum p) h3
    simp only [CoWays.rev, CoWays.elem, this]
    exact h
  | both p q =>
    obtain ⟨x, h3, h⟩ := eb h
    obtain ⟨y, h4, h⟩ := eb h
    have t1 := CoGf2.call_swap (g' := elemE idI idF eF eF p.rev) rfl rfl (elemE_denoms idF idI eF eF mu.sum p) h3
    have t2 := CoGf2.call_swap (g' := elemH idI idF eF eF q.rev) rfl rfl (elemH_denoms idF idI eF mu.sum q) h4
    simp only [CoWays.rev, CoWays.elem, t1, t2]
    exact h

/-- One site, one intermediate state. -/
def onePath (e : ℝ) : CoPath := ⟨[[1]], [[1]], [e]⟩

theorem getItem_two (a : ℝ) (k : ℕ) (hk : k < 2) : getItem [a, a] (k : ℤ) = .ok a := by
  rw [getItem_natCast _ _ hk]
  interval_cases k <;> rfl

theorem getItem_two' (k : ℕ) (hk : k < 2) : getItem [[(1 : ℝ)], [1]] (k : ℤ) = .ok [1] := by
  rw [getItem_natCast _ _ hk]
  interval_cases k <;> rfl

/-- **C147 is false for the approximate rate**: a transition through a state with one electron less, at zero bias. -/
theorem C147_approximate_refuted (idF idI : TId) :
    ¬ Balanced (CoSigma.approximate [[1], [1]] 1 [0, 0]) 1 [0, 0] 0 1 idF idI 1 0 (.less (onePath 5)) := by
  intro h
  have hm : ∀ k : ℕ, k < 2 → getItem [(0 : ℝ), 0] (k : ℤ) = .ok 0 := getItem_two 0
  have e1 : CoSigma.approximate [[1], [1]] 1 [0, 0] 0 1 ((CoWays.less (onePath 5)).elem idF idI 1 0) = .ok (coG 1 1 * ((11 / 2)⁻¹) ^ 2) := by
    unfold CoSigma.approximate CoSigma.call
    rw [hm 0 (by norm_num), hm 1 (by norm_num), getItem_two' 0 (by norm_num), getItem_two' 1 (by norm_num)]
    simp only [bind, Except.bind, pure, Except.pure, CoWays.elem, CoSigma.gf2, elemH, onePath, CoGf2.call, dotRows, dotArr, List.mapM_cons, List.mapM_nil]
    norm_num
  have e2 : CoSigma.approximate [[1], [1]] 1 [0, 0] 1 0 ((CoWays.less (onePath 5)).rev.elem idI idF 0 1) = .ok (coG 1 (-1) * ((7 / 2)⁻¹) ^ 2) := by
    unfold CoSigma.approximate CoSigma.call
    rw [hm 0 (by norm_num), hm 1 (by norm_num), getItem_two' 0 (by norm_num), getItem_two' 1 (by norm_num)]
    simp only [bind, Except.bind, pure, Except.pure, CoWays.rev, CoPath.rev, CoWays.elem, CoSigma.gf2, elemH, onePath, CoGf2.call, dotRows, dotArr, List.mapM_cons, List.mapM_nil]
    norm_num
  have := h _ 0 0 (hm 0 (by norm_num)) (hm 1 (by norm_num)) e1
  rw [e2] at this
  injection this with this
  have hb : coG 1 (-1) = Real.exp (1 * 1) * coG 1 1 := coG_rev (by norm_num) (by norm_num)
  have hp : 0 < coG 1 1 := C62_positive one_pos (by norm_num)
  have hx := Real.exp_pos (1 * 1)
  rw [hb] at this
  have h3 : Real.exp (1 * 1) * coG 1 1 * ((7 / 2)⁻¹ ^ 2 - (11 / 2)⁻¹ ^ 2) = 0 := by
    have e : (1 : ℝ) * (1 - 0 - 0 + 0) = 1 * 1 := by norm_num
    rw [e] at this
    linear_combination this
  rcases mul_eq_zero.mp h3 with h4 | h4
  · exact absurd h4 (mul_pos hx hp).ne'
  · norm_num at h4

/-! ### The exact rate -/

theorem nB_neg {x : ℝ} (hx : x ≠ 0) : nB (-x) = -(Real.exp x * nB x) := by
  unfold nB
  have h1 : Real.exp x - 1 ≠ 0 := fun h => hx ((Real.exp_eq_one_iff x).mp (by linarith))
  have h2 := Real.exp_pos x
  rw [Real.exp_neg]
  generalize Real.exp x = y at h1 h2 ⊢
  have h3 : y⁻¹ - 1 = -(y - 1) / y := by field_simp; ring
  rw [h3]
  field_simp

theorem Psi_shift (psi : ℕ → ℂ → ℂ) (n : ℕ) (a b s beta : ℝ) : Psi psi n (a + s) (b + s) beta = Psi psi n a b beta := by
  unfold Psi
  congr 2
  push_cast
  ring

theorem integralI1_swap (psi : ℕ → ℂ → ℂ) (C eps mu0 mu1 beta s : ℝ) (hx : 1e-15 ≤ |(mu1 - mu0) * beta|) :
    integralI1 psi C (eps + s) (mu1 + s) (mu0 + s) beta = Real.exp ((mu1 - mu0) * beta) * integralI1 psi C eps mu0 mu1 beta := by
  have hne : (mu1 - mu0) * beta ≠ 0 := by intro h; rw [h] at hx; norm_num at hx
  have e : (mu0 + s - (mu1 + s)) * beta = -((mu1 - mu0) * beta) := by ring
  have h16 : ¬ |(mu1 - mu0) * beta| < 1e-16 := by rw [not_lt]; exact le_trans (by norm_num) hx
  unfold integralI1
  simp only [e, abs_neg]
  rw [if_neg h16, if_neg (not_lt.mpr hx), if_neg h16, if_neg (not_lt.mpr hx), Psi_shift, Psi_shift, nB_neg hne]
  simp only [Complex.sub_im]
  ring

theorem integralI2_swap (psi : ℕ → ℂ → ℂ) (A B epsA epsB mu0 mu1 beta s : ℝ) {r : ℝ} (hx : 1e-15 ≤ |(mu1 - mu0) * beta|) (h : integralI2 psi A B epsA epsB mu0 mu1 beta = .ok r) :
    integralI2 psi A B (epsA + s) (epsB + s) (mu1 + s) (mu0 + s) beta = .ok (Real.exp ((mu1 - mu0) * beta) * r) := by
  have hne : (mu1 - mu0) * beta ≠ 0 := by intro h; rw [h] at hx; norm_num at hx
  have e : (mu0 + s - (mu1 + s)) * beta = -((mu1 - mu0) * beta) := by ring
  have h16 : ¬ |(mu1 - mu0) * beta| < 1e-16 := by rw [not_lt]; exact le_trans (by norm_num) hx
  unfold integralI2 at h ⊢
  simp only [e, abs_neg] at h ⊢
  rw [if_neg h16, if_neg (not_lt.mpr hx)] at h ⊢
  injection h with h
  rw [Psi_shift, Psi_shift, Psi_shift, Psi_shift, nB_neg hne, ← h]
  congr 1
  have : epsA + s - (epsB + s) = epsA - epsB := by ring
  rw [this]
  simp only [Complex.sub_re, Complex.add_re]
  ring

/-- **C147** (exact integration, partial: ways through states with one electron less). -/
theorem C147_exact_partial (psi : ℕ → ℂ → ℂ) {beta eF eI : ℝ} (A : List (List ℝ)) (mu : List ℝ) (extract inject : ℕ) (idF idI : TId) (p : CoPath)
    (hw : ∀ me mi, getItem mu (extract : ℤ) = .ok me → getItem mu (inject : ℤ) = .ok mi → 1e-15 ≤ |beta * (eF - eI - me + mi)|) :
    Balanced (CoSigma.integrate psi A beta mu) beta mu extract inject idF idI eF eI (.less p) := by
  intro r me mi hme hmi h
  have hx := hw me mi hme hmi
  unfold CoSigma.integrate at h ⊢
  obtain ⟨aI, h1, h⟩ := eb h
  obtain ⟨aE, h2, h⟩ := eb h
  rw [hme, hmi] at h
  rw [h1, h2, hme, hmi]
  simp only [CoWays.elem, CoWays.rev, elemH, CoPath.rev, bind, Except.bind] at h ⊢
  obtain ⟨x, h3, h⟩ := eb h
  obtain ⟨y, h4, h⟩ := eb h
  obtain ⟨e, h5, h⟩ := eb h
  rw [h4]
  simp only
  rw [h3]
  simp only
  have hE : ∃ e0, getItem p.eJ 0 = .ok e0 ∧ e = -e0 + eI ∧ getItem (p.eJ.map fun e => -e + eF) 0 = .ok (e + (eF - eI)) := by
    cases hj : p.eJ with
    | nil => rw [hj] at h5; simp [getItem, pyIndex] at h5
    | cons e0 l =>
      rw [hj] at h5
      simp [getItem, pyIndex] at h5
      refine ⟨e0, by simp [getItem, pyIndex], h5.symm, ?_⟩
      simp [getItem, pyIndex, ← h5]
  obtain ⟨e0, -, -, hE⟩ := hE
  rw [hE]
  simp only [pure, Except.pure, Except.ok.injEq] at h ⊢
  have hsw := integralI1_swap psi (x * y) e (me - (eF - eI)) mi beta (eF - eI) (by
    have : (mi - (me - (eF - eI))) * beta = beta * (eF - eI - me + mi) := by ring
    rw [this]; exact hx)
  have a1 : mi - (eI - eF) = mi + (eF - eI) := by ring
  have a2 : me = me - (eF - eI) + (eF - eI) := by ring
  have a3 : (mi - (me - (eF - eI))) * beta = beta * (eF - eI - me + mi) := by ring
  rw [a1, mul_comm y x, ← h, ← a3, ← hsw]
  congr 1

/-- **C147** (exact integration, partial: elastic transitions) All ways, if the states have equal energies. -/
theorem C147_exact_elastic_partial (psi : ℕ → ℂ → ℂ) {beta eF : ℝ} (A : List (List ℝ)) (mu : List ℝ) (extract inject : ℕ) (idF idI : TId) (w : CoWays)
    (hw : ∀ me mi, getItem mu (extract : ℤ) = .ok me → getItem mu (inject : ℤ) = .ok mi → 1e-15 ≤ |beta * (eF - eF - me + mi)|) :
    Balanced (CoSigma.integrate psi A beta mu) beta mu extract inject idF idI eF eF w := by
  intro r me mi hme hmi h
  have hx := hw me mi hme hmi
  have hx' : 1e-15 ≤ |(mi - me) * beta| := by
    have : beta * (eF - eF - me + mi) = (mi - me) * beta := by ring
    rw [← this]; exact hx
  have hexp : beta * (eF - eF - me + mi) = (mi - me) * beta := by ring
  rw [hexp]
  have I1 : ∀ C eps, integralI1 psi C eps mi me beta = Real.exp ((mi - me) * beta) * integralI1 psi C eps me mi beta := by
    intro C eps
    have := integralI1_swap psi C eps me mi beta 0 hx'
    simpa only [add_zero] using this
  unfold CoSigma.integrate at h ⊢
  obtain ⟨aI, h1, h⟩ := eb h
  obtain ⟨aE, h2, h⟩ := eb h
  rw [hme, hmi] at h
  rw [h1, h2, hme, hmi]
  cases w with
  | more p =>
    simp only [CoWays.elem, CoWays.rev, elemE, CoPath.rev, bind, Except.bind, sub_self, sub_zero] at h ⊢
    obtain ⟨x, h3, h⟩ := eb h
    obtain ⟨y, h4, h⟩ := eb h
    obtain ⟨e, h5, h⟩ := eb h
    simp only [h3, h4, h5]
    simp only [pure, Except.pure, Except.ok.injEq] at h ⊢
    rw [mul_comm y x, I1, h]
  | less p =>
    simp only [CoWays.elem, CoWays.rev, elemH, CoPath.rev, bind, Except.bind, sub_self, sub_zero] at h ⊢
    obtain ⟨x, h3, h⟩ := eb h
    obtain ⟨y, h4, h⟩ := eb h
    obtain ⟨e, h5, h⟩ := eb h
    simp only [h3, h4, h5]
    simp only [pure, Except.pure, Except.ok.injEq] at h ⊢
    rw [mul_comm y x, I1, h]
  | both p q =>
    simp only [CoWays.elem, CoWays.rev, elemE, elemH, CoPath.rev, bind, Except.bind, sub_self, sub_zero] at h ⊢
    obtain ⟨x, h3, h⟩ := eb h
    obtain ⟨y, h4, h⟩ := eb h
    obtain ⟨x', h5, h⟩ := eb h
    obtain ⟨y', h6, h⟩ := eb h
    obtain ⟨e, h7, h⟩ := eb h
    obtain ⟨e', h8, h⟩ := eb h
    simp only [h3, h4, h5, h6, h7, h8]
    unfold gamma2 at h ⊢
    obtain ⟨v, h9, h⟩ := eb h
    have := integralI2_swap psi _ _ _ _ _ _ _ 0 hx' h9
    simp only [add_zero] at this
    rw [mul_comm y x, mul_comm y' x', this]
    simp only [bind, Except.bind, pure, Except.pure, Except.ok.injEq] at h ⊢
    rw [I1, I1, ← h]
    ring

/-! ### Where the exact integration is not balanced -/

theorem trigamma_im_bound {psi : ℕ → ℂ → ℂ} (h : IsTrigamma psi) : ∃ B : ℝ, ∀ y : ℝ, |(psi 1 (0.5 + y * Complex.I)).im| ≤ B := by
  have hs : Summable fun k : ℕ => 1 / (0.5 + (k : ℝ)) ^ 2 := by
    have h1 := (h 0.5 (by norm_num)).summable.norm
    refine h1.congr fun k => ?_
    rw [norm_div, norm_one, norm_pow]
    congr 2
    have : ((0.5 : ℂ) + k) = (((0.5 : ℝ) + k : ℝ) : ℂ) := by push_cast; norm_num
    rw [this, Complex.norm_real, Real.norm_eq_abs, abs_of_pos (by positivity)]
  refine ⟨∑' k : ℕ, 1 / (0.5 + (k : ℝ)) ^ 2, fun y => ?_⟩
  have h1 := trigamma_im h y
  rw [← h1.tsum_eq, ← Real.norm_eq_abs]
  refine tsum_of_norm_bounded hs.hasSum fun k => ?_
  rw [Real.norm_eq_abs, abs_div, abs_neg]
  have p1 : (0 : ℝ) < 0.5 + k := by positivity
  have hd : 0 < (0.5 + (k : ℝ)) ^ 2 + y ^ 2 := by positivity
  rw [abs_of_pos (show 0 < ((0.5 + (k : ℝ)) ^ 2 + y ^ 2) ^ 2 by positivity), div_le_div_iff₀ (by positivity) (by positivity), one_mul]
  have h2 : |2 * (0.5 + (k : ℝ)) * y| ≤ (0.5 + (k : ℝ)) ^ 2 + y ^ 2 := by
    rw [abs_le]
    constructor <;> nlinarith [sq_nonneg (0.5 + (k : ℝ) - y), sq_nonneg (0.5 + (k : ℝ) + y)]
  calc |2 * (0.5 + (k : ℝ)) * y| * (0.5 + (k : ℝ)) ^ 2 ≤ ((0.5 + (k : ℝ)) ^ 2 + y ^ 2) * ((0.5 + (k : ℝ)) ^ 2 + y ^ 2) :=
        mul_le_mul h2 (by nlinarith [sq_nonneg y]) (by positivity) hd.le
    _ = _ := by ring

theorem trigamma_im_odd {psi : ℕ → ℂ → ℂ} (h : IsTrigamma psi) (y : ℝ) : (psi 1 (0.5 + (-y : ℝ) * Complex.I)).im = -(psi 1 (0.5 + y * Complex.I)).im := by
  refine (trigamma_im h (-y)).unique ?_
  have h1 := (trigamma_im h y).neg
  have e : (fun k : ℕ => -(2 * (0.5 + (k : ℝ)) * -y) / (((0.5 + k) ^ 2 + (-y) ^ 2) ^ 2)) = fun k : ℕ => -(-(2 * (0.5 + (k : ℝ)) * y) / (((0.5 + k) ^ 2 + y ^ 2) ^ 2)) := by
    funext k
    rw [neg_sq, ← neg_div]
    congr 1
    ring
  rw [e]
  exact h1

/-- **C147 is false for the exact integration**: a transition through a state with one electron more, at zero bias, for every implementation of the trigamma function. -/
theorem C147_exact_refuted {psi : ℕ → ℂ → ℂ} (h : IsTrigamma psi) (idF idI : TId) :
    ∃ eF : ℝ, 1 ≤ eF ∧ ¬ Balanced (CoSigma.integrate psi [[1], [1]] (2 * Real.pi) [0, 0]) (2 * Real.pi) [0, 0] 0 1 idF idI eF 0 (.more (onePath 0)) := by
  by_contra hall
  push Not at hall
  have hpi := Real.pi_pos
  let f : ℝ → ℝ := fun y => (psi 1 (0.5 + y * Complex.I)).im
  have hPsi : ∀ a b : ℝ, (Psi psi 1 a b (2 * Real.pi)).im = f (a - b) := by
    intro a b
    simp only [f, Psi]
    congr 3
    have : (Real.pi : ℂ) ≠ 0 := by exact_mod_cast hpi.ne'
    push_cast
    field_simp
  have hm : ∀ k : ℕ, k < 2 → getItem [(0 : ℝ), 0] (k : ℤ) = .ok 0 := getItem_two 0
  have hdot : dotFirst [[(1 : ℝ)]] [1] = .ok 1 := by simp [dotFirst, dotArr, getItem, pyIndex, bind, Except.bind]
  have hI : ∀ C eps mu0 mu1 : ℝ, 1e-15 ≤ |(mu1 - mu0) * (2 * Real.pi)| →
      integralI1 psi C eps mu0 mu1 (2 * Real.pi) = C ^ 2 * nB ((mu1 - mu0) * (2 * Real.pi)) * (f (mu1 - eps) - f (mu0 - eps)) := by
    intro C eps mu0 mu1 hx
    unfold integralI1
    simp only
    rw [if_neg (by rw [not_lt]; exact le_trans (by norm_num) hx), if_neg (not_lt.mpr hx), Complex.sub_im, hPsi, hPsi, mul_div_cancel_right₀ _ (by positivity)]
  have hf0 : f 0 = 0 := by
    have := trigamma_im_zero h
    simpa [f] using this
  have double : ∀ D : ℝ, 1 ≤ D → f (2 * D) = 2 * f D := by
    intro D hD
    have hodd : f (-D) = -f D := trigamma_im_odd h D
    have hx : 1e-15 ≤ |(0 - (0 - D)) * (2 * Real.pi)| := by
      rw [abs_of_pos (by nlinarith)]
      have : 2 ≤ Real.pi := Real.two_le_pi
      nlinarith
    have hx' : 1e-15 ≤ |(0 - D) * (2 * Real.pi)| := by
      have e : (0 - D) * (2 * Real.pi) = -((0 - (0 - D)) * (2 * Real.pi)) := by ring
      rw [e, abs_neg]
      exact hx
    have e1 : CoSigma.integrate psi [[1], [1]] (2 * Real.pi) [0, 0] 0 1 ((CoWays.more (onePath 0)).elem idF idI D 0) =
        .ok (integralI1 psi 1 0 (0 - D) 0 (2 * Real.pi)) := by
      unfold CoSigma.integrate
      rw [hm 0 (by norm_num), hm 1 (by norm_num), getItem_two' 0 (by norm_num), getItem_two' 1 (by norm_num)]
      simp only [bind, Except.bind, pure, Except.pure, CoWays.elem, elemE, onePath, hdot]
      simp [getItem, pyIndex]
    have e2 : CoSigma.integrate psi [[1], [1]] (2 * Real.pi) [0, 0] 1 0 ((CoWays.more (onePath 0)).rev.elem idI idF 0 D) =
        .ok (integralI1 psi 1 (-D) D 0 (2 * Real.pi)) := by
      unfold CoSigma.integrate
      rw [hm 0 (by norm_num), hm 1 (by norm_num), getItem_two' 0 (by norm_num), getItem_two' 1 (by norm_num)]
      simp only [bind, Except.bind, pure, Except.pure, CoWays.rev, CoPath.rev, CoWays.elem, elemE, onePath, hdot]
      simp [getItem, pyIndex]
    have key := hall D hD _ 0 0 (hm 0 (by norm_num)) (hm 1 (by norm_num)) e1
    rw [e2] at key
    injection key with key
    rw [hI _ _ _ _ hx, hI _ _ _ _ hx'] at key
    have a1 : (0 - (0 - D)) * (2 * Real.pi) = D * (2 * Real.pi) := by ring
    have a2 : (0 - D) * (2 * Real.pi) = -(D * (2 * Real.pi)) := by ring
    have a3 : 2 * Real.pi * (D - 0 - 0 + 0) = D * (2 * Real.pi) := by ring
    have hne : D * (2 * Real.pi) ≠ 0 := by positivity
    have a4 : (0 : ℝ) - -D = D := by ring
    have a5 : D - -D = 2 * D := by ring
    have a6 : (0 : ℝ) - D - 0 = -D := by ring
    rw [a1, a2, a3, nB_neg hne, a4, a5, a6, sub_zero, hf0, hodd] at key
    have hn : nB (D * (2 * Real.pi)) ≠ 0 := by
      unfold nB
      have : 1 < Real.exp (D * (2 * Real.pi)) := Real.one_lt_exp_iff.mpr (by positivity)
      exact (one_div_pos.mpr (by linarith)).ne'
    have hE := (Real.exp_pos (D * (2 * Real.pi))).ne'
    have : Real.exp (D * (2 * Real.pi)) * nB (D * (2 * Real.pi)) * (f (2 * D) - 2 * f D) = 0 := by linear_combination key
    rcases mul_eq_zero.mp this with h0 | h0
    · exact absurd h0 (mul_ne_zero hE hn)
    · linarith
  have pow : ∀ n : ℕ, f (2 ^ n) = 2 ^ n * f 1 := by
    intro n
    induction n with
    | zero => simp
    | succ n ih => rw [pow_succ, mul_comm, double _ (one_le_pow₀ (by norm_num)), ih]; ring
  obtain ⟨B, hB⟩ := trigamma_im_bound h
  have hneg : f 1 < 0 := trigamma_im_neg h one_pos
  obtain ⟨n, hn⟩ := pow_unbounded_of_one_lt (B / -f 1) (show (1 : ℝ) < 2 by norm_num)
  have h1 := (abs_le.mp (hB (2 ^ n))).1
  have h2 : -B ≤ 2 ^ n * f 1 := by rw [← pow]; exact h1
  rw [div_lt_iff₀ (by linarith)] at hn
  linarith

/-- The hypotheses of the partial theorems are met, and the rates are not zero: an excitation by 1 at zero bias. -/
example : ∃ r, CoSigma.approximate [[1], [1]] 1 [0, 0] 0 1 ((CoWays.more (onePath 5)).elem (1, 0, 0) (0, 1, 0) 1 0) = .ok r ∧ 0 < r ∧
    ∀ me mi, getItem [(0 : ℝ), 0] ((0 : ℕ) : ℤ) = .ok me → getItem [(0 : ℝ), 0] ((1 : ℕ) : ℤ) = .ok mi → (1e-18 : ℝ) ≤ 1 * |1 - 0 - me + mi| ∧ |1 * (1 - 0 - me + mi)| ≤ 1000 := by
  have hm : ∀ k : ℕ, k < 2 → getItem [(0 : ℝ), 0] (k : ℤ) = .ok 0 := getItem_two 0
  refine ⟨coG 1 1 * ((-9 / 2)⁻¹) ^ 2, ?_, mul_pos (C62_positive one_pos (by norm_num)) (by norm_num), ?_⟩
  · unfold CoSigma.approximate CoSigma.call
    rw [hm 0 (by norm_num), hm 1 (by norm_num), getItem_two' 0 (by norm_num), getItem_two' 1 (by norm_num)]
    simp only [bind, Except.bind, pure, Except.pure, CoWays.elem, CoSigma.gf2, elemE, onePath, CoGf2.call, dotRows, dotArr, List.mapM_cons, List.mapM_nil]
    norm_num
  · intro me mi h1 h2
    rw [hm 0 (by norm_num)] at h1
    rw [hm 1 (by norm_num)] at h2
    injection h1 with h1
    injection h2 with h2
    subst h1 h2
    norm_num

end Edpyt
