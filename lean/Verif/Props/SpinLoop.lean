import Verif.Model.SpinLoop
import Verif.Props.SpinImp
import Mathlib.LinearAlgebra.Span.Basic
/-!
Properties C138 (the spin-dependent loop without a field) and C139 (`distance`).
-/
namespace Edpyt
open Spec Matrix

variable {N nb : ℕ}

/-- Both spins of the impurity object hold the same numbers. -/
structure SpinImp.Sym (p : SpinImp) : Prop where
  H : p.H 1 = p.H 0
  ek : p.ek true = p.ek false
  vk : p.vk true = p.vk false

/-- The Green function of the lattice at `z` depends on the self-energy at `z` only, as it does for `Gfhybrid` and `Gfhilbert`. -/
def LocalInv (inv : ℂ → (ℂ → ℂ) → ℂ → ℂ) : Prop := ∀ mu sig sig' z, sig z = sig' z → inv mu sig z = inv mu sig' z

/-- `solve` computes the exact Green functions of the impurity site. -/
def ExactSolve (P : SpinPar N) (nb : ℕ) (U : ℝ) : Prop := ∀ p gf, P.solve p = .ok gf → ∀ (s : Bool) (z : ℂ), z.im ≠ 0 →
  IsGreen P.beta (p.args (nb + 1) U).ham (ann ℝ (orb s (0 : Fin (nb + 1)))) (cre ℝ (orb s (0 : Fin (nb + 1)))) z (gf s z)

/-- A driver that calls the object with linear combinations of the arguments and results so far, as linear mixing and the Broyden methods do. `vs` are the arrays it knows. -/
inductive SpinDrive (P : SpinPar N) : SpinState → Set (SpinRows N) → SpinState → Set (SpinRows N) → Prop
  | nil (s vs) : SpinDrive P s vs s vs
  | call {s s' s'' vs vs'' d r} : d ∈ Submodule.span ℂ vs → s.call P d = .ok (s', .value r) → SpinDrive P s' (vs ∪ {d, r}) s'' vs'' → SpinDrive P s vs s'' vs''

theorem matsZ_im {beta : ℝ} (hb : 0 < beta) (k : ℕ) : (matsZ beta k).im ≠ 0 := by
  have : (matsZ beta k).im = matsFreq beta k := by simp [matsZ]
  rw [this]
  unfold matsFreq
  have := Real.pi_pos
  positivity

theorem SpinImp.step_ok' {n : ℕ} {p : SpinImp} {f : Bool → Bool} (h : p.Ok nb f) (hn : n = nb + 1) (op : SpinOp) : (p.step n op).Ok nb (op.fresh f) := by
  subst hn; exact SpinImp.step_ok h op

theorem SpinImp.Sym.step {p : SpinImp} (h : p.Sym) (n : ℕ) (ek vk : ℕ → ℝ) (m : ℝ) :
    ((p.step n (.fit (fun _ => ek) (fun _ => vk))).step n (.update m)).Sym := by
  have hg : p.get true = p.get false := by
    simp only [SpinImp.get, spinIdx, h.ek, h.vk]
    simp [h.H]
  refine ⟨?_, ?_, ?_⟩
  · simp [SpinImp.step, SpinImp.each, SpinImp.put, SpinImp.get, Imp.run, Imp.step, spinIdx, h.H]
  · simp [SpinImp.step, SpinImp.each, SpinImp.put, Imp.run, Imp.step]
  · simp [SpinImp.step, SpinImp.each, SpinImp.put, Imp.run, Imp.step]

/-- Exact Green functions of a symmetric object. -/
theorem SpinImp.Sym.green {p : SpinImp} {f : Bool → Bool} (h : p.Sym) (hok : p.Ok nb f) (hn : 1 ≤ nb) (hn' : nb ≤ 31) {U beta : ℝ} {z g g' : ℂ} (hz : z.im ≠ 0)
    (hg : IsGreen beta (p.args (nb + 1) U).ham (ann ℝ (orb false (0 : Fin (nb + 1)))) (cre ℝ (orb false (0 : Fin (nb + 1)))) z g)
    (hg' : IsGreen beta (p.args (nb + 1) U).ham (ann ℝ (orb true (0 : Fin (nb + 1)))) (cre ℝ (orb true (0 : Fin (nb + 1)))) z g') : g' = g := by
  have ha := hok.valid hn hn' U
  obtain ⟨es, hes⟩ := eigenEspace_exists ha
  have hrel : (p.args (nb + 1) U).Relabel true (Equiv.refl _) (p.args (nb + 1) U).H (p.args (nb + 1) U).V none := by
    refine ⟨fun s i j => ?_, fun _ _ => rfl, Or.inl ⟨rfl, rfl⟩, Or.inl ⟨rfl, rfl⟩, Or.inl ⟨rfl, rfl⟩⟩
    cases s
    · exact congrFun (congrFun h.H i) j
    · exact (congrFun (congrFun h.H i) j).symm
  have k1 := hrel.green (beta := beta) hg
  exact ((hes.basis.green beta _ _ hz g').mp hg').trans ((hes.basis.green beta _ _ hz g).mp k1).symm

theorem SpinImp.Sym.sigma {p : SpinImp} {f : Bool → Bool} (h : p.Sym) (hok : p.Ok nb f) (hn : 1 ≤ nb) (hn' : nb ≤ 31) {U beta : ℝ} {gf : Bool → ℂ → ℂ}
    (hg : ∀ (s : Bool) (z : ℂ), z.im ≠ 0 → IsGreen beta (p.args (nb + 1) U).ham (ann ℝ (orb s (0 : Fin (nb + 1)))) (cre ℝ (orb s (0 : Fin (nb + 1)))) z (gf s z)) {z : ℂ} (hz : z.im ≠ 0) :
    p.sigma (nb + 1) gf true z = p.sigma (nb + 1) gf false z := by
  unfold SpinImp.sigma Imp.sigma Imp.freeInv
  rw [h.green hok hn hn' hz (hg false z hz) (hg true z hz)]
  simp only [SpinImp.get, h.ek, h.vk]
  simp [spinIdx, h.H]

/-- The state that the loop keeps: a reachable impurity object, both spins the same. -/
structure SpinState.Para (nb : ℕ) (s : SpinState) : Prop where
  ok : ∃ f, s.imp.Ok nb f
  sym : s.imp.Sym
  inv : LocalInv s.loc.inv

theorem SpinState.Para.dmftStep {P : SpinPar N} {U : ℝ} {s s' : SpinState} (h : s.Para nb) (hP : P.n = nb + 1) (hn : 1 ≤ nb) (hn' : nb ≤ 31) (hex : ExactSolve P nb U) {d : SpinRows N}
    (hd : d true = d false) (hr : s.dmftStep P d = .ok s') :
    s'.Para nb ∧ ∃ sig, s'.loc.sigma = some sig ∧ ∀ z : ℂ, z.im ≠ 0 → sig true z = sig false z := by
  obtain ⟨⟨f, hok⟩, hs, hinv⟩ := h
  unfold SpinState.dmftStep at hr
  have hg : s.imp.get true = s.imp.get false := by
    simp only [SpinImp.get, spinIdx, hs.ek, hs.vk]
    simp [hs.H]
  rw [hg, hd] at hr
  cases hf : P.fit (s.imp.get false) (d false) with
  | error e => rw [hf] at hr; cases hr
  | ok b =>
    rw [hf] at hr
    simp only [bind, Except.bind, ite_self] at hr
    cases hmu : s.loc.mu with
    | none => rw [hmu] at hr; cases hr
    | some mu =>
      cases hed : s.loc.ed with
      | none => rw [hmu, hed] at hr; cases hr
      | some ed =>
        rw [hmu, hed] at hr
        simp only at hr
        set p := (s.imp.step P.n (.fit (fun _ => b.1) (fun _ => b.2))).step P.n (.update (mu - ed)) with hp
        have hsym : p.Sym := hs.step P.n b.1 b.2 (mu - ed)
        have hpok : ∃ f, p.Ok nb f := by
          have h1 := SpinImp.step_ok' hok hP (.fit (fun _ => b.1) (fun _ => b.2))
          exact ⟨_, SpinImp.step_ok' h1 hP (.update (mu - ed))⟩
        cases hsv : P.solve p with
        | error e => rw [hsv] at hr; cases hr
        | ok gf =>
          rw [hsv] at hr
          simp only [pure, Except.pure, Except.ok.injEq] at hr
          subst hr
          refine ⟨⟨hpok, hsym, hinv⟩, _, rfl, fun z hz => ?_⟩
          obtain ⟨f', hf'⟩ := hpok
          rw [hP]
          exact hsym.sigma hf' hn hn' (hex p gf hsv) hz

theorem SpinState.Para.step {P : SpinPar N} {U : ℝ} {s s' : SpinState} (h : s.Para nb) (hP : P.n = nb + 1) (hb : 0 < P.beta) (hn : 1 ≤ nb) (hn' : nb ≤ 31) (hex : ExactSolve P nb U)
    {d r : SpinRows N} {o : Option ℝ} (hd : d true = d false) (hr : s.step P d = .ok (s', o, r)) :
    s'.Para nb ∧ (∃ sig, s'.loc.sigma = some sig ∧ ∀ z : ℂ, z.im ≠ 0 → sig true z = sig false z) ∧ r true = r false := by
  unfold SpinState.step at hr
  cases h1 : s.dmftStep P d with
  | error e => rw [h1] at hr; cases hr
  | ok s1 =>
    obtain ⟨k1, sig, k2, k3⟩ := h.dmftStep hP hn hn' hex hd h1
    rw [h1] at hr
    simp only [bind, Except.bind] at hr
    have fin : ∀ s2 : SpinState, s2.Para nb → s2.loc.sigma = some sig → ∀ x, s2.loc.delta N P.beta = .ok x → x true = x false := by
      intro s2 p2 e2 x hx
      unfold SpinLoc.delta at hx
      cases hm : s2.loc.mu with
      | none => rw [hm] at hx; cases hx
      | some mu =>
        rw [hm, e2] at hx
        simp only [Except.ok.injEq] at hx
        subst hx
        funext k
        have hz := k3 _ (matsZ_im hb (k : ℕ))
        simp only [spinDelta]
        rw [hz, p2.inv _ _ _ _ hz]
    cases ha : P.adjust with
    | none =>
      rw [ha] at hr
      simp only [pure, Except.pure] at hr
      cases hx : s1.loc.delta N P.beta with
      | error e => rw [hx] at hr; cases hr
      | ok x =>
        rw [hx] at hr
        simp only [Except.ok.injEq, Prod.mk.injEq] at hr
        obtain ⟨rfl, -, rfl⟩ := hr
        exact ⟨k1, ⟨sig, k2, k3⟩, fin _ k1 k2 _ hx⟩
    | some root =>
      rw [ha] at hr
      simp only at hr
      cases hroot : root s1.loc with
      | error e => rw [hroot] at hr; cases hr
      | ok mu =>
        rw [hroot] at hr
        simp only at hr
        cases ho : P.integrate { s1.loc with mu := some mu } with
        | error e => rw [ho] at hr; cases hr
        | ok o' =>
          rw [ho] at hr
          simp only [pure, Except.pure] at hr
          cases hx : SpinLoc.delta N P.beta { s1.loc with mu := some mu } with
          | error e => rw [hx] at hr; cases hr
          | ok x =>
            rw [hx] at hr
            simp only [Except.ok.injEq, Prod.mk.injEq] at hr
            obtain ⟨rfl, -, rfl⟩ := hr
            have k1' : SpinState.Para nb { s1 with loc := { s1.loc with mu := some mu } } := ⟨k1.ok, k1.sym, k1.inv⟩
            exact ⟨k1', ⟨sig, k2, k3⟩, fin _ k1' k2 _ hx⟩

/-- One call, whatever its outcome. -/
theorem SpinState.Para.call {P : SpinPar N} {U : ℝ} {s s' : SpinState} (h : s.Para nb) (hP : P.n = nb + 1) (hb : 0 < P.beta) (hn : 1 ≤ nb) (hn' : nb ≤ 31) (hex : ExactSolve P nb U)
    {d : SpinRows N} {out : SpinOut N} (hd : d true = d false) (hr : s.call P d = .ok (s', out)) :
    s'.Para nb ∧ (∃ sig, s'.loc.sigma = some sig ∧ ∀ z : ℂ, z.im ≠ 0 → sig true z = sig false z) ∧ ∀ r, out = .value r → r true = r false := by
  unfold SpinState.call at hr
  cases h1 : s.step P d with
  | error e => rw [h1] at hr; cases hr
  | ok x =>
    obtain ⟨s1, o, dn⟩ := x
    obtain ⟨k1, k2, k3⟩ := h.step hP hb hn hn' hex hd h1
    rw [h1] at hr
    simp only [bind, Except.bind] at hr
    cases o with
    | none =>
      simp only [pure, Except.pure, Except.ok.injEq, Prod.mk.injEq] at hr
      obtain ⟨rfl, rfl⟩ := hr
      exact ⟨k1, k2, fun r hr => by cases hr⟩
    | some o =>
      simp only [pure, Except.pure] at hr
      split at hr
      · simp only [Except.ok.injEq, Prod.mk.injEq] at hr
        obtain ⟨rfl, rfl⟩ := hr
        exact ⟨k1, k2, fun r hr => by cases hr⟩
      · split at hr
        · simp only [Except.ok.injEq, Prod.mk.injEq] at hr
          obtain ⟨rfl, rfl⟩ := hr
          exact ⟨⟨k1.ok, k1.sym, k1.inv⟩, k2, fun r hr => by cases hr⟩
        · simp only [Except.ok.injEq, Prod.mk.injEq] at hr
          obtain ⟨rfl, rfl⟩ := hr
          exact ⟨⟨k1.ok, k1.sym, k1.inv⟩, k2, fun r hr => by injection hr with hr; subst hr; exact k3⟩

/-- The arrays with equal rows. -/
def symRows (N : ℕ) : Submodule ℂ (SpinRows N) where
  carrier := {r | r true = r false}
  add_mem' {a b} ha hb := by simp only [Set.mem_setOf_eq, Pi.add_apply] at *; rw [ha, hb]
  zero_mem' := rfl
  smul_mem' c a ha := by simp only [Set.mem_setOf_eq, Pi.smul_apply] at *; rw [ha]

theorem SpinDrive.para {P : SpinPar N} {U : ℝ} (hP : P.n = nb + 1) (hb : 0 < P.beta) (hn : 1 ≤ nb) (hn' : nb ≤ 31) (hex : ExactSolve P nb U) {s s' : SpinState} {vs vs' : Set (SpinRows N)}
    (hr : SpinDrive P s vs s' vs') (h : s.Para nb) (hvs : ∀ v ∈ vs, v true = v false) : s'.Para nb ∧ ∀ v ∈ vs', v true = v false := by
  induction hr with
  | nil => exact ⟨h, hvs⟩
  | @call s1 s2 s3 vs vs3 d r hd hc _ ih =>
    have hd' : d true = d false := (Submodule.span_le.mpr (show vs ⊆ (symRows N : Set (SpinRows N)) from hvs)) hd
    obtain ⟨k1, -, k3⟩ := h.call hP hb hn hn' hex hd' hc
    refine ih k1 fun v hv => ?_
    rcases hv with hv | hv
    · exact hvs v hv
    · rcases hv with rfl | rfl
      · exact hd'
      · exact k3 _ rfl

/-- **C138** (no spontaneous magnetisation) A spin-dependent DMFT loop that starts with equal spins stays so: after any number of calls by a driver that uses linear combinations of earlier arguments
and results, with any deterministic fit and any choice of `mu`, all hybridisations have equal rows, both spins of the impurity hold the same Hamiltonian and bath, and after the next call — also the one
that raises `Converged` — both self-energies agree. -/
theorem C138_paramagnetic (P : SpinPar N) (U : ℝ) (hP : P.n = nb + 1) (hb : 0 < P.beta) (hn : 1 ≤ nb) (hn' : nb ≤ 31) (hex : ExactSolve P nb U) (ek0 vk0 : ℕ → ℝ) (hist : List SpinOp)
    (s s' : SpinState) (hs : s.imp = spinAfter nb ek0 vk0 hist) (hsym : s.imp.H 1 = s.imp.H 0 ∧ s.imp.ek true = s.imp.ek false ∧ s.imp.vk true = s.imp.vk false) (hinv : LocalInv s.loc.inv)
    (vs vs' : Set (SpinRows N)) (hvs : ∀ v ∈ vs, v true = v false) (hr : SpinDrive P s vs s' vs') :
    (∀ v ∈ vs', v true = v false) ∧ s'.imp.H 1 = s'.imp.H 0 ∧ s'.imp.ek true = s'.imp.ek false ∧ s'.imp.vk true = s'.imp.vk false ∧
      ∀ d ∈ Submodule.span ℂ vs', ∀ s'' out, s'.call P d = .ok (s'', out) →
        s''.imp.H 1 = s''.imp.H 0 ∧ ∃ sig, s''.loc.sigma = some sig ∧ ∀ z : ℂ, z.im ≠ 0 → sig true z = sig false z := by
  have h0 : s.Para nb := ⟨⟨_, hs ▸ spinAfter_ok nb ek0 vk0 hist⟩, ⟨hsym.1, hsym.2.1, hsym.2.2⟩, hinv⟩
  obtain ⟨k1, k2⟩ := hr.para hP hb hn hn' hex h0 hvs
  refine ⟨k2, k1.sym.H, k1.sym.ek, k1.sym.vk, fun d hd s'' out hc => ?_⟩
  have hd' : d true = d false := (Submodule.span_le.mpr (show vs' ⊆ (symRows N : Set (SpinRows N)) from k2)) hd
  obtain ⟨m1, m2, -⟩ := k1.call hP hb hn hn' hex hd' hc
  exact ⟨m1.sym.H, m2⟩

/-- **C138** (the two lattice objects) -/
theorem C138_local (f : ℂ → ℂ) : LocalInv (gfhybrid f).inv ∧ LocalInv (gfhilbert f).inv := by
  constructor
  · intro mu sig sig' z h
    simp only [gfhybrid, h]
  · intro mu sig sig' z h
    simp only [gfhilbert, h]

theorem Arms.ext_off {H H' : ℕ → ℕ → ℝ} {e v : ℕ → ℝ} (h : Arms nb H e v) (h' : Arms nb H' e v) {i j : ℕ} (hi : i < nb + 1) (hj : j < nb + 1) (hij : ¬ (i = 0 ∧ j = 0)) : H i j = H' i j := by
  rcases i with _ | i
  · rcases j with _ | j
    · exact absurd ⟨rfl, rfl⟩ hij
    · rw [(h.row j (by omega)).1, (h'.row j (by omega)).1]
  · rcases j with _ | j
    · rw [(h.row i (by omega)).2, (h'.row i (by omega)).2]
    · by_cases hk : i = j
      · subst hk
        rw [h.diag i (by omega), h'.diag i (by omega)]
      · rw [h.bath _ _ (by omega) hi (by omega) hj (by omega), h'.bath _ _ (by omega) hi (by omega) hj (by omega)]

/-- **C138** (the seed) `initialize_magnetic` returns with equal baths and with levels `-(mu ± sign field - ed)`: the spins differ exactly when `sign * field` is not zero. -/
theorem C138_seed (P : SpinPar N) (hP : P.n = nb + 1) (ek0 vk0 ek1 vk1 : ℕ → ℝ) (hist : List SpinOp) (s s' : SpinState) (hs : s.imp = spinAfter nb ek0 vk0 hist) (U : ℝ) (Sigma : ℂ → ℂ)
    (sign field : ℝ) (mu : Option ℝ) (d : SpinRows N) (hr : s.initializeMagnetic P U Sigma sign field mu ek1 vk1 = .ok (s', d)) :
    ∃ ed, s.loc.ed = some ed ∧ s'.imp.ek true = s'.imp.ek false ∧ s'.imp.vk true = s'.imp.vk false ∧
      (∀ k < nb, s'.imp.H 0 0 (k + 1) = s'.imp.vk false k ∧ s'.imp.H 0 (k + 1) (k + 1) = s'.imp.ek false k) ∧
      s'.imp.H 0 0 0 = -(mu.getD (U / 2) + sign * field - ed) ∧ s'.imp.H 1 0 0 = -(mu.getD (U / 2) - sign * field - ed) ∧
      (∀ i j : Fin (nb + 1), (i, j) ≠ (0, 0) → s'.imp.H 1 i j = s'.imp.H 0 i j) := by
  unfold SpinState.initializeMagnetic SpinState.initialize at hr
  cases hed : s.loc.ed with
  | none => rw [hed] at hr; cases hr
  | some ed =>
    rw [hed] at hr
    simp only [bind, Except.bind] at hr
    unfold SpinState.magneticStep at hr
    simp only [bind, Except.bind, hed] at hr
    cases hf : P.fit ((s.imp.run P.n [.update (mu.getD (U / 2) - ed), .resetBath ek1 vk1]).get false)
        (fun k => spinDelta s.loc.inv (mu.getD (U / 2)) (fun _ => Sigma) false (matsZ P.beta k)) with
    | error e => simp only [hf] at hr; cases hr
    | ok b =>
      simp only [hf] at hr
      cases hsv : P.solve ((s.imp.run P.n [.update (mu.getD (U / 2) - ed), .resetBath ek1 vk1]).run P.n (dmftStepMagnetic b.1 b.2 (mu.getD (U / 2)) ed sign field)) with
      | error e => simp only [hsv] at hr; cases hr
      | ok gf =>
        simp only [hsv, pure, Except.pure] at hr
        split at hr
        · cases hr
        · simp only [Except.ok.injEq, Prod.mk.injEq] at hr
          obtain ⟨rfl, -⟩ := hr
          refine ⟨ed, rfl, ?_⟩
          simp only
          have e : (s.imp.run P.n [.update (mu.getD (U / 2) - ed), .resetBath ek1 vk1]).run P.n (dmftStepMagnetic b.1 b.2 (mu.getD (U / 2)) ed sign field) =
              spinAfter nb ek0 vk0 ((hist ++ [.update (mu.getD (U / 2) - ed), .resetBath ek1 vk1]) ++ dmftStepMagnetic b.1 b.2 (mu.getD (U / 2)) ed sign field) := by
            rw [hs, hP]
            simp only [spinAfter, SpinImp.run, List.foldl_append]
          rw [e]
          obtain ⟨h1, h2, h3, h4, h5⟩ := spin_magnetic (nb := nb) (ek0 := ek0) (vk0 := vk0) (hist ++ [.update (mu.getD (U / 2) - ed), .resetBath ek1 vk1]) b.1 b.2 (mu.getD (U / 2)) ed sign field
          refine ⟨by rw [(h1 true).1, (h1 false).1], by rw [(h1 true).2, (h1 false).2], fun k hk => ⟨?_, ?_⟩, h4, h5, fun i j hij => ?_⟩
          · rw [(h1 false).2]; exact (h2.row k hk).1
          · rw [(h1 false).1]; exact h2.diag k hk
          · exact h3.ext_off h2 i.2 j.2 fun hh => hij (by ext <;> simp [hh.1, hh.2])

/-- **C138** (the field is forgotten) After the first ordinary step both levels are `-(mu - ed)` again, whatever field `initialize_magnetic` had. -/
theorem C138_forget (P : SpinPar N) (s s' : SpinState) (d : SpinRows N) (hr : s.dmftStep P d = .ok s') :
    ∃ mu ed, s.loc.mu = some mu ∧ s.loc.ed = some ed ∧ s'.imp.H 0 0 0 = -(mu - ed) ∧ s'.imp.H 1 0 0 = -(mu - ed) := by
  unfold SpinState.dmftStep at hr
  cases h1 : P.fit (s.imp.get false) (d false) with
  | error e => rw [h1] at hr; cases hr
  | ok up =>
    cases h2 : P.fit (s.imp.get true) (d true) with
    | error e => rw [h1, h2] at hr; cases hr
    | ok dw =>
      rw [h1, h2] at hr
      simp only [bind, Except.bind] at hr
      cases hmu : s.loc.mu with
      | none => rw [hmu] at hr; cases hr
      | some mu =>
        cases hed : s.loc.ed with
        | none => rw [hmu, hed] at hr; cases hr
        | some ed =>
          rw [hmu, hed] at hr
          simp only at hr
          split at hr
          · cases hr
          · simp only [pure, Except.pure, Except.ok.injEq] at hr
            subst hr
            exact ⟨mu, ed, rfl, rfl, by simp [SpinImp.step], by simp [SpinImp.step]⟩

open Classical in
/-- A loop with the exact solver. -/
noncomputable def exactPar (fit : Imp → (Fin N → ℂ) → Except PyErr ((ℕ → ℝ) × (ℕ → ℝ))) (nb : ℕ) (U : ℝ) : SpinPar N :=
  ⟨nb + 1, 1, 1 / 10 ^ 3, 20, some 1, fit,
    fun p => if h : ∃ gf : Bool → ℂ → ℂ, ∀ (s : Bool) (z : ℂ), z.im ≠ 0 →
        IsGreen 1 (p.args (nb + 1) U).ham (ann ℝ (orb s (0 : Fin (nb + 1)))) (cre ℝ (orb s (0 : Fin (nb + 1)))) z (gf s z) then .ok h.choose else .error .valueError,
    none, fun _ => .ok 1⟩

theorem exactPar_exact (fit : Imp → (Fin N → ℂ) → Except PyErr ((ℕ → ℝ) × (ℕ → ℝ))) (nb : ℕ) (U : ℝ) : ExactSolve (exactPar fit nb U) nb U := by
  intro p gf h
  simp only [exactPar] at h
  split at h
  · rename_i hx
    injection h with h
    subst h
    exact hx.choose_spec
  · cases h

/-- The hypotheses of C138 are met by a run that makes a call and returns. -/
example : ∃ (P : SpinPar 1) (s s' : SpinState) (vs' : Set (SpinRows 1)), P.n = 1 + 1 ∧ 0 < P.beta ∧ ExactSolve P 1 3 ∧ s.imp = spinAfter 1 (fun _ => 0) (fun _ => 1) [] ∧
    s.imp.H 1 = s.imp.H 0 ∧ s.imp.ek true = s.imp.ek false ∧ s.imp.vk true = s.imp.vk false ∧ LocalInv s.loc.inv ∧ SpinDrive P s {0} s' vs' ∧ vs' ≠ {0} := by
  let P : SpinPar 1 := exactPar (fun _ _ => .ok (fun _ => 0, fun _ => 1)) 1 3
  let s : SpinState := ⟨SpinImp.init (fun _ => 0) (fun _ => 1), fun _ _ => 0, ⟨(gfhybrid fun _ => 1).inv, some 0, none, some 0⟩, 0⟩
  let p1 : SpinImp := (s.imp.step 2 (.fit (fun _ _ => 0) (fun _ _ => 1))).step 2 (.update (0 - 0))
  have hok : p1.Ok 1 _ := SpinImp.step_ok (SpinImp.step_ok (spinAfter_ok 1 (fun _ => 0) (fun _ => 1) []) _) _
  obtain ⟨es, hes⟩ := eigenEspace_exists (hok.valid le_rfl (by norm_num) 3)
  have hgf : ∃ gf, P.solve p1 = .ok gf := by
    have hx : ∃ gf : Bool → ℂ → ℂ, ∀ (s : Bool) (z : ℂ), z.im ≠ 0 →
        IsGreen 1 (p1.args (1 + 1) 3).ham (ann ℝ (orb s (0 : Fin (1 + 1)))) (cre ℝ (orb s (0 : Fin (1 + 1)))) z (gf s z) :=
      ⟨fun s z => _, fun s z hz => (hes.basis.green 1 _ _ hz _).mpr rfl⟩
    exact ⟨_, dif_pos hx⟩
  obtain ⟨gf, hgf⟩ := hgf
  have hstep : ∃ s1, s.step P 0 = .ok (s1, some 1, fun _ _ => 1) ∧ s1.it = 0 := by
    have hd : s.dmftStep P 0 = .ok { s with imp := p1, gf := gf, loc := { s.loc with sigma := some (p1.sigma 2 gf) } } := by
      have e : s.dmftStep P 0 = (P.solve p1).bind fun gf => .ok { s with imp := p1, gf := gf, loc := { s.loc with sigma := some (p1.sigma 2 gf) } } := by
        simp only [SpinState.dmftStep, P, exactPar, bind, Except.bind, ite_self]
        rfl
      rw [e, hgf]
      rfl
    refine ⟨{ s with imp := p1, gf := gf, loc := { s.loc with sigma := some (p1.sigma 2 gf) } }, ?_, rfl⟩
    unfold SpinState.step
    rw [hd]
    simp only [bind, Except.bind, P, exactPar, pure, Except.pure, SpinLoc.delta, s, spinDelta, gfhybrid]
    congr 3
    funext b k
    ring
  obtain ⟨s1, h1, h2⟩ := hstep
  have hcall : s.call P 0 = .ok ({ s1 with it := s1.it + 1 }, .value fun _ _ => 1) := by
    unfold SpinState.call
    rw [h1]
    simp only [bind, Except.bind, pure, Except.pure]
    rw [if_neg, if_neg]
    · rw [h2]; simp [P, exactPar]
    · have : (∑ b : Bool, ∑ k : Fin 1, Complex.normSq ((1 : ℂ) - (0 : SpinRows 1) b k)) = 2 := by simp
      rw [this, not_lt]
      apply Real.le_sqrt_of_sq_le
      simp only [P, exactPar]
      norm_num
  refine ⟨P, s, _, _, rfl, one_pos, exactPar_exact _ _ _, rfl, rfl, rfl, rfl, (C138_local _).1, .call (Submodule.zero_mem _) hcall (.nil _ _), ?_⟩
  intro hh
  have : (fun _ _ => 1 : SpinRows 1) ∈ ({0} : Set (SpinRows 1)) := by rw [← hh]; simp
  have := congrFun (congrFun (Set.mem_singleton_iff.mp this) true) 0
  simp at this

/-! ### C139 -/

theorem distWeight_pos {beta : ℝ} (hb : 0 < beta) (alpha : ℝ) (k : ℕ) : 0 < distWeight beta alpha k := by
  unfold distWeight matsFreq
  have := Real.pi_pos
  exact Real.rpow_pos_of_pos (by positivity) _

/-- What a call that returns a value returns. -/
theorem DmftState.call_value {P : DmftPar} {s s' : DmftState} {delta dnew : List ℂ} (h : s.call P delta = .ok (s', .value dnew)) :
    P.tol ≤ deltaNorm dnew delta ∧ s'.it ≤ P.maxIter := by
  unfold DmftState.call at h
  cases h1 : s.step P (clampNonCausal delta).2 with
  | error e => rw [h1] at h; cases h
  | ok x =>
    obtain ⟨s1, o, dn⟩ := x
    rw [h1] at h
    simp only [bind, Except.bind, pure, Except.pure, Except.ok.injEq, Prod.mk.injEq, dmftCall] at h
    obtain ⟨rfl, h2⟩ := h
    cases o with
    | none => cases h2
    | some o =>
      simp only at h2 ⊢
      by_cases hlt : deltaNorm dn (clampNonCausal delta).2 < P.tol
      · simp only [if_pos hlt] at h2; cases h2
      · by_cases hit : s1.it + 1 > P.maxIter
        · simp only [if_neg hlt, if_pos hit] at h2; cases h2
        · simp only [if_neg hlt, if_neg hit] at h2 ⊢
          injection h2 with h2
          subst h2
          exact ⟨not_lt.mp hlt, not_lt.mp hit⟩

theorem exists_large (l : List ℝ) (hl : ∀ x ∈ l, 0 ≤ x) {t : ℝ} (ht : 0 < t) (h : t ≤ l.sum) : ∃ k, ∃ hk : k < l.length, t ≤ l[k] * l.length := by
  by_contra hc
  push Not at hc
  have hne : l ≠ [] := by rintro rfl; simp at h; linarith
  have hpos : (0 : ℝ) < l.length := by exact_mod_cast List.length_pos_iff.mpr hne
  have h1 : ∀ x ∈ l, x ≤ t / l.length := by
    intro x hx
    obtain ⟨k, hk, rfl⟩ := List.getElem_of_mem hx
    rw [le_div_iff₀ hpos]
    exact (hc k hk).le
  obtain ⟨x0, hx0⟩ := List.exists_mem_of_ne_nil l hne
  have h2 : l.sum < (l.map fun _ => t / (l.length : ℝ)).sum := by
    have := List.sum_lt_sum (l := l) (f := fun x => x) (g := fun _ => t / (l.length : ℝ)) (fun x hx => h1 x hx) ⟨x0, hx0, by
      obtain ⟨k, hk, rfl⟩ := List.getElem_of_mem hx0
      rw [lt_div_iff₀ hpos]
      exact hc k hk⟩
    simpa using this
  rw [List.map_const', List.sum_replicate, nsmul_eq_mul, mul_div_cancel₀ _ hpos.ne'] at h2
  linarith

/-- **C139** (the residual) When `distance(delta)` returns, element `k` is the weight `wn_k^-alpha > 0` times the change of the hybridisation, the change has norm at least `tol`, and some element has
modulus at least `m tol / √N` for every lower bound `m` of the weights: the vector is never zero. -/
theorem C139_residual (P : DmftPar) (beta alpha : ℝ) (hb : 0 < beta) (ht : 0 < P.tol) (s s' : DmftState) (delta eps : List ℂ) (h : s.distance P beta alpha delta = .ok (s', .value eps)) :
    ∃ dnew, s.call P delta = .ok (s', .value dnew) ∧ P.tol ≤ deltaNorm dnew delta ∧ eps.length = min dnew.length delta.length ∧
      (∀ k (hk : k < eps.length) (h1 : k < dnew.length) (h2 : k < delta.length), eps[k] = ((((2 * k + 1) * Real.pi / beta) ^ (-alpha) : ℝ) : ℂ) * (dnew[k] - delta[k])) ∧
      ∀ m : ℝ, 0 ≤ m → (∀ k < eps.length, m ≤ ((2 * k + 1) * Real.pi / beta) ^ (-alpha)) → ∃ k, ∃ hk : k < eps.length, m * P.tol ≤ ‖eps[k]‖ * Real.sqrt eps.length := by
  unfold DmftState.distance at h
  cases h1 : s.call P delta with
  | error e => rw [h1] at h; cases h
  | ok x =>
    obtain ⟨s1, out⟩ := x
    rw [h1] at h
    simp only [bind, Except.bind] at h
    cases out with
    | converged => simp [pure, Except.pure] at h
    | failed => simp [pure, Except.pure] at h
    | typeError => simp [pure, Except.pure] at h
    | value dnew =>
      simp only [pure, Except.pure, Except.ok.injEq, Prod.mk.injEq, CallOut.value.injEq] at h
      obtain ⟨rfl, rfl⟩ := h
      obtain ⟨hn, -⟩ := DmftState.call_value h1
      have hlen : (distVec beta alpha dnew delta).length = min dnew.length delta.length := by simp [distVec]
      have hval : ∀ k (hk : k < (distVec beta alpha dnew delta).length) (h1 : k < dnew.length) (h2 : k < delta.length),
          (distVec beta alpha dnew delta)[k] = ((((2 * k + 1) * Real.pi / beta) ^ (-alpha) : ℝ) : ℂ) * (dnew[k] - delta[k]) := by
        intro k hk h1 h2
        simp only [distVec, List.getElem_mapIdx, List.getElem_zipWith, distWeight, matsFreq]
      refine ⟨dnew, rfl, hn, hlen, hval, fun m hm hw => ?_⟩
      have hsq : P.tol ^ 2 ≤ (List.zipWith (fun a b => Complex.normSq (a - b)) dnew delta).sum := by
        have := hn
        unfold deltaNorm at this
        exact (Real.le_sqrt' ht).mp this
      obtain ⟨k, hk, hge⟩ := exists_large _ (fun x hx => by
        obtain ⟨k, hk, rfl⟩ := List.getElem_of_mem hx
        rw [List.getElem_zipWith]
        exact Complex.normSq_nonneg _) (pow_pos ht 2) hsq
      have hk2 : k < dnew.length ∧ k < delta.length := by simpa using hk
      have hk1 : k < (distVec beta alpha dnew delta).length := by rw [hlen]; exact lt_min hk2.1 hk2.2
      refine ⟨k, hk1, ?_⟩
      rw [hval k hk1 hk2.1 hk2.2, norm_mul]
      have hwk := hw k hk1
      rw [Complex.norm_real, Real.norm_eq_abs, abs_of_nonneg (hm.trans hwk)]
      rw [List.getElem_zipWith, Complex.normSq_eq_norm_sq] at hge
      have hl2 : (List.zipWith (fun a b => Complex.normSq (a - b)) dnew delta).length = (distVec beta alpha dnew delta).length := by rw [hlen]; simp
      rw [hl2] at hge
      have h3 : P.tol ≤ ‖dnew[k] - delta[k]‖ * Real.sqrt (distVec beta alpha dnew delta).length := by
        have := Real.le_sqrt_of_sq_le hge
        rwa [Real.sqrt_mul (by positivity), Real.sqrt_sq (norm_nonneg _)] at this
      calc m * P.tol ≤ (((2 * k + 1) * Real.pi / beta) ^ (-alpha)) * (‖dnew[k] - delta[k]‖ * Real.sqrt (distVec beta alpha dnew delta).length) := by
            apply mul_le_mul hwk h3 ht.le (hm.trans hwk)
        _ = _ := by ring

/-- **C139** (the default weights) With `alpha = 0` and `tol ≥ 1e-3` no vector of at most `10^100` elements that `distance` returns has all its elements below the `f_tol = 1e-99` of
`solve_with_broyden_mixing`: the run ends by an exception of the object, not by the criterion of the driver. -/
theorem C139_broyden_partial (P : DmftPar) (beta : ℝ) (hb : 0 < beta) (ht : 1 / 10 ^ 3 ≤ P.tol) (s s' : DmftState) (delta eps : List ℂ) (hN : delta.length ≤ 10 ^ 100)
    (h : s.distance P beta 0 delta = .ok (s', .value eps)) : ∃ e ∈ eps, 1 / 10 ^ 99 < ‖e‖ := by
  obtain ⟨dnew, -, -, hlen, -, hm⟩ := C139_residual P beta 0 hb (lt_of_lt_of_le (by norm_num) ht) s s' delta eps h
  obtain ⟨k, hk, hge⟩ := hm 1 zero_le_one fun k _ => by simp
  refine ⟨eps[k], List.getElem_mem hk, ?_⟩
  have hs : Real.sqrt eps.length ≤ 10 ^ 50 := by
    rw [Real.sqrt_le_left (by positivity)]
    have : eps.length ≤ 10 ^ 100 := by rw [hlen]; exact (min_le_right _ _).trans hN
    calc (eps.length : ℝ) ≤ ((10 ^ 100 : ℕ) : ℝ) := by exact_mod_cast this
      _ = _ := by norm_num
  have h1 : 1 / 10 ^ 3 ≤ ‖eps[k]‖ * 10 ^ 50 := by
    calc (1 / 10 ^ 3 : ℝ) ≤ 1 * P.tol := by rw [one_mul]; exact ht
      _ ≤ _ := hge
      _ ≤ _ := mul_le_mul_of_nonneg_left hs (norm_nonneg _)
  have h2 : (1 / 10 ^ 53 : ℝ) ≤ ‖eps[k]‖ := by
    rw [div_le_iff₀ (by positivity)]
    have : ‖eps[k]‖ * 10 ^ 53 = (‖eps[k]‖ * 10 ^ 50) * 10 ^ 3 := by ring
    rw [this]
    linarith
  exact lt_of_lt_of_le (by norm_num) h2

/-- A loop with a constant hybridisation 1. -/
noncomputable def flatPar : DmftPar :=
  ⟨2, [matsZ (Real.pi / 10) 0], 1 / 10 ^ 3, 20, some 1, fun _ _ => .ok (fun _ => 0, fun _ => 0), fun _ => .ok fun z => 1 / z, none, fun _ => .ok 1⟩

noncomputable def flatState : DmftState := ⟨Imp.init (fun _ => 0) (fun _ => 0), fun _ => 0, ⟨fun mu sig z => z + mu - 1 - sig z, some 0, some fun _ => 0, some 0⟩, 0⟩

theorem flat_call : ∃ s', flatState.call flatPar [0] = .ok (s', .value [1]) := by
  have h : ∃ s1 : DmftState, flatState.step flatPar [0] = .ok (s1, some 1, [1]) ∧ s1.it = 0 := by
    have e : ∀ a b c : ℂ, a + b - (c + (a + b - 1 - c)) = 1 := fun a b c => by ring
    simp only [DmftState.step, DmftState.dmftStep, flatState, flatPar, bind, Except.bind, pure, Except.pure, List.mapM_cons, List.mapM_nil, Loc.delta, Loc.weiss, e]
    exact ⟨_, rfl, rfl⟩
  obtain ⟨s1, h1, h2⟩ := h
  unfold DmftState.call
  have h1' : flatState.step flatPar (clampNonCausal [0]).2 = .ok (s1, some 1, [1]) := h1
  simp only [h1', bind, Except.bind, pure, Except.pure, dmftCall]
  refine ⟨{ s1 with it := 1 }, ?_⟩
  have hn : ¬ deltaNorm [1] (clampNonCausal [0]).2 < flatPar.tol := by
    have e : (clampNonCausal [0]).2 = [0] := rfl
    rw [e]
    simp [deltaNorm, flatPar]; norm_num
  simp only [if_neg hn]
  simp [h2, flatPar]

/-- **C139 is false for strong weights**: with `alpha = 100` the driver's criterion can be met although the error is 1000 times `tol`, and the run ends silently. -/
theorem C139_refuted : ∃ (P : DmftPar) (s s' : DmftState) (beta : ℝ) (delta eps dnew : List ℂ), 0 < beta ∧ P.tol = 1 / 10 ^ 3 ∧ s.distance P beta 100 delta = .ok (s', .value eps) ∧
    (∀ e ∈ eps, ‖e‖ < 1 / 10 ^ 99) ∧ s.call P delta = .ok (s', .value dnew) ∧ deltaNorm dnew delta = 1 := by
  obtain ⟨s', hc⟩ := flat_call
  refine ⟨flatPar, flatState, s', Real.pi / 10, [0], distVec (Real.pi / 10) 100 [1] [0], [1], by have := Real.pi_pos; positivity, rfl, ?_, ?_, hc, by simp [deltaNorm]⟩
  · unfold DmftState.distance
    rw [hc]
    rfl
  · intro e he
    simp only [distVec, List.zipWith_cons_cons, List.zipWith_nil_left, List.mapIdx_cons, List.mapIdx_nil, List.mem_singleton] at he
    subst he
    have hw : matsFreq (Real.pi / 10) 0 = 10 := by
      unfold matsFreq
      have := Real.pi_ne_zero
      field_simp
      norm_num
    rw [distWeight, hw, sub_zero, mul_one, Complex.norm_real, Real.norm_eq_abs, abs_of_pos (by positivity)]
    rw [Real.rpow_neg (by norm_num), show (100 : ℝ) = ((100 : ℕ) : ℝ) by norm_num, Real.rpow_natCast]
    norm_num

end Edpyt
