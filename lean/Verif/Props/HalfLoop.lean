import Verif.Props.FitSymm
import Verif.Props.HalfFilling
import Verif.Props.DmftLoop
/-!
C146: a DMFT loop that starts at half filling stays there.
-/
namespace Edpyt
open Spec Matrix ComplexConjugate

variable {nb : ℕ}

/-! ### Specification -/

/-- Symmetric bath: `σ` pairs sites of opposite energy and equal coupling. -/
def SymBath (σ : Equiv.Perm (Fin nb)) (ek vk : ℕ → ℝ) : Prop := ∀ k : Fin nb, ek (σ k) = -ek k ∧ vk (σ k) = vk k

/-- All values are purely imaginary. -/
def Imaginary (d : List ℂ) : Prop := ∀ x ∈ d, x.re = 0

/-- Symmetric lattice: on the imaginary axis its inverse Green function is purely imaginary if the real part of the self-energy cancels the chemical potential. -/
def SymLattice (inv : ℂ → (ℂ → ℂ) → ℂ → ℂ) : Prop := ∀ (mu : ℝ) (sig : ℂ → ℂ) (z : ℂ), z.re = 0 → z.im ≠ 0 → (sig z).re = mu → (inv mu sig z).re = 0

/-- The array of parameters of the fit. -/
def bathArr (nb : ℕ) (ek vk : ℕ → ℝ) : Fin (nb + nb) → ℝ := Fin.append (fun k : Fin nb => ek k) (fun k : Fin nb => vk k)

/-- `fit` is one of the two fits of the code, started from the present bath. -/
def RealFit (P : DmftPar) (nb : ℕ) (beta : ℝ) : Prop := ∀ imp d ek vk, P.fit imp d = .ok (ek, vk) →
  AnyFit d.length (fun i => d[i]?.getD 0) beta (bathArr nb imp.ek imp.vk) (bathArr nb ek vk)

/-- `solve` computes the exact Green function of the impurity site. -/
def ExactGf (P : DmftPar) (nb : ℕ) (U beta : ℝ) : Prop := ∀ imp gf, P.solve imp = .ok gf → ∀ z : ℂ, z.im ≠ 0 →
  IsGreen beta (imp.args (nb + 1) U).ham (ann ℝ (orb false (0 : Fin (nb + 1)))) (cre ℝ (orb false (0 : Fin (nb + 1)))) z (gf z)

/-- The root finder of `adjust_mu`, if there is one, leaves the chemical potential of half filling where it is. -/
def KeepsMu (P : DmftPar) (U : ℝ) : Prop := ∀ root, P.adjust = some root → ∀ loc m, loc.mu = some ((U / 2 : ℝ) : ℂ) → root loc = .ok m → m = U / 2

/-- Real linear combinations of known arrays. -/
inductive RealComb (vs : Set (List ℂ)) : List ℂ → Prop
  | mem {d} : d ∈ vs → RealComb vs d
  | add {a b} : RealComb vs a → RealComb vs b → RealComb vs (List.zipWith (· + ·) a b)
  | smul (c : ℝ) {a} : RealComb vs a → RealComb vs (a.map (c * ·))

/-- A driver that calls the object with real linear combinations of the arguments and results so far, as linear mixing does. The Broyden methods have coefficients that are
quotients of inner products of such arrays, which are real if all of them are purely imaginary. -/
inductive MixDrive (P : DmftPar) : DmftState → Set (List ℂ) → DmftState → Set (List ℂ) → Prop
  | nil (s vs) : MixDrive P s vs s vs
  | call {s s' s'' vs vs'' d r} : RealComb vs d → s.call P d = .ok (s', .value r) → MixDrive P s' (vs ∪ {d, r}) s'' vs'' → MixDrive P s vs s'' vs''

/-- A run at half filling: an impurity object with any past and a symmetric bath, a symmetric lattice, `ed = 0` and `mu = U / 2`. -/
structure AtHalf (σ : Equiv.Perm (Fin nb)) (U : ℝ) (s : DmftState) : Prop where
  imp : ∃ ek0 vk0 hist, s.imp = Imp.run (nb + 1) (Imp.init ek0 vk0) hist
  bath : SymBath σ s.imp.ek s.imp.vk
  lattice : SymLattice s.loc.inv
  ed : s.loc.ed = some 0
  mu : s.loc.mu = some ((U / 2 : ℝ) : ℂ)

/-! ### The self-energy on the imaginary axis -/

theorem call_conj_ex (g : GfEx) (e eta : ℝ) : g.call e (-eta) = conj (g.call e eta) := by
  unfold GfEx.call
  rw [map_div₀, map_list_sum, Complex.conj_ofReal]
  congr 2
  generalize g.l = l
  generalize g.q = q
  induction l generalizing q with
  | nil => simp
  | cons a l ih =>
    cases q with
    | nil => simp
    | cons b q =>
      simp only [List.zipWith_cons_cons, List.map_cons, ih q]
      congr 1
      simp only [map_mul, map_inv₀, map_sub, map_add, Complex.conj_ofReal, Complex.conj_I]
      push_cast
      ring

theorem hyb_conj (ek vk : Fin nb → ℝ) (z : ℂ) : hybridisation ek vk (conj z) = conj (hybridisation ek vk z) := by
  unfold hybridisation
  rw [map_sum]
  refine Finset.sum_congr rfl fun k _ => ?_
  simp [map_div₀, map_pow, map_sub]

theorem sigma_axis (hn : 1 ≤ nb) (hn' : nb ≤ 31) (U beta : ℝ) (ek0 vk0 : ℕ → ℝ) (hist : List ImpOp) (ek vk : ℕ → ℝ) (mus : List ℝ) (hmu : (impAfter nb ek0 vk0 hist ek vk mus).H 0 0 = -U / 2)
    (σ : Equiv.Perm (Fin nb)) (hb : SymBath σ ek vk) {gf : ℂ → ℂ}
    (hg : ∀ z : ℂ, z.im ≠ 0 → IsGreen beta ((impAfter nb ek0 vk0 hist ek vk mus).args (nb + 1) U).ham (ann ℝ (orb false (0 : Fin (nb + 1)))) (cre ℝ (orb false (0 : Fin (nb + 1)))) z (gf z))
    {z : ℂ} (hz : z.re = 0) (hz' : z.im ≠ 0) : ((impAfter nb ek0 vk0 hist ek vk mus).sigma (nb + 1) gf z).re = U / 2 := by
  have ha := impAfter_valid nb ek0 vk0 hist ek vk mus hn hn' U
  obtain ⟨es, hes⟩ := eigenEspace_exists ha
  have hph := impAfter_particleHole nb ek0 vk0 hist ek vk mus U hmu σ (fun k => (hb k).1) (fun k => (hb k).2)
  obtain ⟨g, h1, h2⟩ := C92_gf_exact (junk := 0) (beta := beta) (egs := 0) ha.le hes (pos := 0) (Nat.succ_pos _)
  obtain ⟨g', h1', h3⟩ := C111_gf_exact (junk := 0) (egs := 0) (beta := beta) ha hph hes (0 : Fin (nb + 1)) (bathPerm_zero σ)
  have hgg : g' = g := by
    have e := h1'.symm.trans h1
    injection e
  subst hgg
  have hgf : gf z = g'.call z.re z.im := by
    refine (h2 z.re z.im hz' (gf z)).mp ?_
    have e : ((z.re : ℂ) + Complex.I * (z.im : ℂ)) = z := by rw [mul_comm]; exact Complex.re_add_im z
    rw [e]
    exact hg z hz'
  have hc : conj z = -z := by apply Complex.ext <;> simp [hz]
  have hgre : (gf z).re = 0 := by
    have a1 := h3 z.re z.im hz'
    have a2 := call_conj_ex g' z.re z.im
    rw [hz, neg_zero] at a1
    rw [hz] at a2 hgf
    have := congrArg Complex.re (a1.symm.trans a2)
    rw [hgf]
    simp at this
    linarith
  have hdre : (hybridisation (fun k : Fin nb => ek k) (fun k : Fin nb => vk k) z).re = 0 := by
    have a1 := hyb_conj (fun k : Fin nb => ek k) (fun k : Fin nb => vk k) z
    have a2 : hybridisation (fun k : Fin nb => ek k) (fun k : Fin nb => vk k) (-z) = -hybridisation (fun k : Fin nb => ek k) (fun k : Fin nb => vk k) z := by
      unfold hybridisation
      rw [← Equiv.sum_comp σ, ← Finset.sum_neg_distrib]
      refine Finset.sum_congr rfl fun k _ => ?_
      simp only [(hb k).1, (hb k).2]
      rw [← div_neg]
      congr 1
      push_cast; ring
    rw [hc, a2] at a1
    have := congrArg Complex.re a1
    simp at this
    linarith
  unfold Imp.sigma
  rw [impAfter_freeInv, hmu]
  have : ((gf z)⁻¹).re = 0 := by rw [Complex.inv_re, hgre, zero_div]
  simp only [Complex.sub_re, hz, hdre, this, Complex.ofReal_re]
  ring

/-! ### One call -/

theorem bathArr_ph {σ : Equiv.Perm (Fin nb)} {ek vk : ℕ → ℝ} : PhBath σ (bathArr nb ek vk) ↔ SymBath σ ek vk := by
  simp only [PhBath, SymBath, bathE, bathV, bathArr, Fin.append_left, Fin.append_right]

/-- Where the impurity object and its Green function come from in a step. -/
theorem step_imp (P : DmftPar) {ed mu : ℝ} {s s' : DmftState} {delta dnew : List ℂ} {o : Option ℝ} (he : s.loc.ed = some (ed : ℂ)) (hm : s.loc.mu = some (mu : ℂ))
    (h : s.step P delta = .ok (s', o, dnew)) :
    ∃ ek vk, P.fit s.imp delta = .ok (ek, vk) ∧ s'.imp = (s.imp.step P.n (.fit ek vk)).step P.n (.update (mu - ed)) ∧ P.solve s'.imp = .ok s'.gf ∧
      ∀ root, P.adjust = some root → ∃ (sig : ℂ → ℂ) (m : ℝ), root { s.loc with sigma := some sig } = .ok m ∧ s'.loc.mu = some (m : ℂ) := by
  obtain ⟨imp, gf, ⟨inv0, mu0, sig0, ed0⟩, it⟩ := s
  simp only at he hm
  subst he hm
  simp only [DmftState.step, DmftState.dmftStep, bind, Except.bind, pure, Except.pure] at h
  cases hf : P.fit imp delta with
  | error e => simp only [hf, reduceCtorEq] at h
  | ok p =>
    simp only [hf] at h
    have er : ((mu : ℂ) - ed).re = mu - ed := by simp
    rw [er] at h
    cases hsv : P.solve ((imp.step P.n (.fit p.1 p.2)).step P.n (.update (mu - ed))) with
    | error e => simp only [hsv, reduceCtorEq] at h
    | ok g =>
      simp only [hsv] at h
      cases ha : P.adjust with
      | none =>
        simp only [ha, deltas_ok] at h
        injection h with h
        have h1 := congrArg (fun q => q.1) h
        simp only at h1
        subst h1
        exact ⟨p.1, p.2, rfl, rfl, hsv, fun _ hr => by cases hr⟩
      | some root =>
        simp only [ha] at h
        cases hr : root ⟨inv0, some (mu : ℂ), some (Imp.sigma P.n ((imp.step P.n (.fit p.1 p.2)).step P.n (.update (mu - ed))) g), some (ed : ℂ)⟩ with
        | error e => simp only [hr, reduceCtorEq] at h
        | ok mu' =>
          simp only [hr] at h
          cases hn : P.integrate ⟨inv0, some (mu' : ℂ), some (Imp.sigma P.n ((imp.step P.n (.fit p.1 p.2)).step P.n (.update (mu - ed))) g), some (ed : ℂ)⟩ with
          | error e => simp only [hn, reduceCtorEq] at h
          | ok oc =>
            simp only [hn, deltas_ok] at h
            injection h with h
            have h1 := congrArg (fun q => q.1) h
            simp only at h1
            subst h1
            refine ⟨p.1, p.2, rfl, rfl, hsv, fun root' hr' => ?_⟩
            injection hr' with hr'
            subst hr'
            exact ⟨_, mu', hr, rfl⟩

/-- The impurity problem of half filling: level `-U/2`, symmetric bath, a self-energy with real part `U/2` on the imaginary axis, and half an electron of each spin on the impurity, whatever the
eigenbasis used. -/
structure HalfFilled (σ : Equiv.Perm (Fin nb)) (U beta : ℝ) (s : DmftState) : Prop where
  level : s.imp.H 0 0 = -U / 2
  bath : SymBath σ s.imp.ek s.imp.vk
  sigma : ∃ sig, s.loc.sigma = some sig ∧ ∀ z : ℂ, z.re = 0 → z.im ≠ 0 → (sig z).re = U / 2
  occ : ∀ (es : Espace (ℕ × ℕ)) (occ : List OccSct) (egs : ℝ), EigenEspace (nb + 1) (s.imp.args (nb + 1) U).ham es → List.Forall₂ OccView es occ →
    ∃ Nu Nd As, getOccupation occ egs beta (nb + 1) = .ok (Nu, Nd, As) ∧ Nu 0 = 1 / 2 ∧ Nd 0 = 1 / 2

variable {σ : Equiv.Perm (Fin nb)} {U beta : ℝ} {P : DmftPar}

theorem AtHalf.step (hP : P.n = nb + 1) (hn : 1 ≤ nb) (hn' : nb ≤ 31) (hzs : ∀ z ∈ P.zs, z.re = 0 ∧ z.im ≠ 0) (hfit : RealFit P nb beta) (hex : ExactGf P nb U beta) (hmu : KeepsMu P U)
    {s s' : DmftState} (h : AtHalf σ U s) {d dnew : List ℂ} {o : Option ℝ} (hd : Imaginary d) (hr : s.step P d = .ok (s', o, dnew)) :
    AtHalf σ U s' ∧ HalfFilled σ U beta s' ∧ Imaginary dnew := by
  have hed : s.loc.ed = some ((0 : ℝ) : ℂ) := by rw [h.ed]; simp
  obtain ⟨ek, vk, h1, h2, h3, h4⟩ := step_imp P hed h.mu hr
  obtain ⟨mu', hp, -, hdn⟩ := step_post P rfl hed h.mu hr
  obtain ⟨ek0, vk0, hist, hi⟩ := h.imp
  have hbath : SymBath σ ek vk := by
    rw [← bathArr_ph]
    refine C145_particle_hole σ (fun i hi => ?_) (bathArr_ph.mpr h.bath) (hfit _ _ _ _ h1)
    rw [List.getElem?_eq_getElem hi]
    exact hd _ (List.getElem_mem _)
  have himp : s'.imp = impAfter nb ek0 vk0 hist ek vk [U / 2] := by
    rw [h2, hi, hP]
    unfold impAfter Imp.run
    rw [List.foldl_append]
    simp
  have hlev : s'.imp.H 0 0 = -U / 2 := by rw [hp.level]; ring
  have hmu' : mu' = U / 2 := by
    cases ha : P.adjust with
    | none => exact hp.fixed ha
    | some root =>
      obtain ⟨sig, m, k1, k2⟩ := h4 root ha
      have k3 := hmu root ha _ m (by simpa using h.mu) k1
      rw [hp.hmu] at k2
      injection k2 with k2
      rw [← k3]
      exact_mod_cast k2
  have hsig : ∀ z : ℂ, z.re = 0 → z.im ≠ 0 → (s'.imp.sigma P.n s'.gf z).re = U / 2 := by
    intro z hz hz'
    have hx := hex _ _ h3
    rw [himp] at hx hlev ⊢
    rw [hP]
    exact sigma_axis hn hn' U beta ek0 vk0 hist ek vk [U / 2] hlev σ hbath hx hz hz'
  have hek : s'.imp.ek = ek ∧ s'.imp.vk = vk := by rw [h2]; exact ⟨rfl, rfl⟩
  have hlat : SymLattice s.loc.inv := h.lattice
  refine ⟨⟨⟨ek0, vk0, _, himp⟩, by rw [hek.1, hek.2]; exact hbath, hp.hinv ▸ hlat, by rw [hp.hed]; simp, by rw [hp.hmu, hmu']⟩, ⟨hlev, by rw [hek.1, hek.2]; exact hbath, ⟨_, hp.sigma, hsig⟩, ?_⟩, ?_⟩
  · intro es occ egs hes hocc
    rw [himp] at hes hlev
    exact (C111_impurity nb ek0 vk0 hist ek vk [U / 2] (junk := 0) hn hn' U hlev σ (fun k => (hbath k).1) (fun k => (hbath k).2) hes hocc).1
  · intro x hx
    rw [hdn, List.mem_map] at hx
    obtain ⟨z, hz, rfl⟩ := hx
    obtain ⟨z1, z2⟩ := hzs z hz
    have k1 := hsig z z1 z2
    have k2 := hlat mu' (s'.imp.sigma P.n s'.gf) z z1 z2 (by rw [k1, hmu'])
    simp only [Complex.sub_re, Complex.add_re, z1, k1, k2, Complex.ofReal_re]
    rw [hmu']
    ring

theorem AtHalf.call (hP : P.n = nb + 1) (hn : 1 ≤ nb) (hn' : nb ≤ 31) (hzs : ∀ z ∈ P.zs, z.re = 0 ∧ z.im ≠ 0) (hfit : RealFit P nb beta) (hex : ExactGf P nb U beta) (hmu : KeepsMu P U)
    {s s' : DmftState} (h : AtHalf σ U s) {d : List ℂ} {out : CallOut} (hd : Imaginary d) (hr : s.call P d = .ok (s', out)) :
    AtHalf σ U s' ∧ HalfFilled σ U beta s' ∧ ∀ r, out = .value r → Imaginary r := by
  unfold DmftState.call at hr
  simp only [bind, Except.bind, pure, Except.pure, clampNonCausal] at hr
  cases hst : s.step P d with
  | error e => simp only [hst, reduceCtorEq] at hr
  | ok r =>
    obtain ⟨s1, o, dnew⟩ := r
    simp only [hst] at hr
    obtain ⟨k1, k2, k3⟩ := h.step hP hn hn' hzs hfit hex hmu hd hst
    injection hr with hr
    have e1 := congrArg (fun q => q.1) hr
    have e2 := congrArg (fun q => q.2) hr
    simp only at e1 e2
    subst e1
    refine ⟨⟨k1.imp, k1.bath, k1.lattice, k1.ed, k1.mu⟩, ⟨k2.level, k2.bath, k2.sigma, k2.occ⟩, fun r hr' => ?_⟩
    rw [← e2] at hr'
    unfold dmftCall at hr'
    cases o with
    | none => simp at hr'
    | some o =>
      simp only at hr'
      split at hr'
      · cases hr'
      · split at hr'
        · cases hr'
        · injection hr' with hr'
          exact hr' ▸ k3

theorem RealComb.imaginary {vs : Set (List ℂ)} (h : ∀ v ∈ vs, Imaginary v) {d : List ℂ} (hd : RealComb vs d) : Imaginary d := by
  induction hd with
  | mem h' => exact h _ h'
  | @add a b _ _ iha ihb =>
    intro x hx
    obtain ⟨i, hi, rfl⟩ := List.getElem_of_mem hx
    rw [List.length_zipWith] at hi
    rw [List.getElem_zipWith, Complex.add_re, iha _ (List.getElem_mem _), ihb _ (List.getElem_mem _), add_zero]
  | smul c _ ih =>
    intro x hx
    rw [List.mem_map] at hx
    obtain ⟨y, hy, rfl⟩ := hx
    simp [ih y hy]

theorem MixDrive.half (hP : P.n = nb + 1) (hn : 1 ≤ nb) (hn' : nb ≤ 31) (hzs : ∀ z ∈ P.zs, z.re = 0 ∧ z.im ≠ 0) (hfit : RealFit P nb beta) (hex : ExactGf P nb U beta) (hmu : KeepsMu P U)
    {s s' : DmftState} {vs vs' : Set (List ℂ)} (hr : MixDrive P s vs s' vs') (h : AtHalf σ U s) (hvs : ∀ v ∈ vs, Imaginary v) : AtHalf σ U s' ∧ ∀ v ∈ vs', Imaginary v := by
  induction hr with
  | nil => exact ⟨h, hvs⟩
  | call hd hc _ ih =>
    obtain ⟨k1, -, k3⟩ := h.call hP hn hn' hzs hfit hex hmu (hd.imaginary hvs) hc
    refine ih k1 fun v hv => ?_
    rcases hv with hv | hv
    · exact hvs v hv
    · rcases hv with rfl | rfl
      · exact hd.imaginary hvs
      · exact k3 _ rfl

/-! ### The theorems -/

/-- **C146**. A loop that starts at half filling stays there: after any number of calls by a driver that mixes earlier arguments and results with real weights, with the fit of either backend and any
outcome of its line searches, all hybridisations are purely imaginary on the Matsubara axis and the bath is symmetric; and after the next call — also the one that raises `Converged` or
`FailedToConverge` — the impurity holds half an electron of each spin and the real part of the self-energy on the axis is `U/2`. -/
theorem C146_half_filling (hP : P.n = nb + 1) (hn : 1 ≤ nb) (hn' : nb ≤ 31) (hzs : ∀ z ∈ P.zs, z.re = 0 ∧ z.im ≠ 0) (hfit : RealFit P nb beta) (hex : ExactGf P nb U beta) (hmu : KeepsMu P U)
    {s s' : DmftState} (h : AtHalf σ U s) {vs vs' : Set (List ℂ)} (hvs : ∀ v ∈ vs, Imaginary v) (hr : MixDrive P s vs s' vs') :
    (∀ v ∈ vs', Imaginary v) ∧ SymBath σ s'.imp.ek s'.imp.vk ∧ s'.loc.mu = some ((U / 2 : ℝ) : ℂ) ∧
      ∀ d s'' out, RealComb vs' d → s'.call P d = .ok (s'', out) → HalfFilled σ U beta s'' := by
  obtain ⟨k1, k2⟩ := hr.half hP hn hn' hzs hfit hex hmu h hvs
  exact ⟨k2, k1.bath, k1.mu, fun d s'' out hd hc => (k1.call hP hn hn' hzs hfit hex hmu (hd.imaginary k2) hc).2.1⟩

/-- **C146** (the start) `initialize` without `mu` and with a self-energy `U/2`, from any past of the object, on a symmetric lattice with `ed = 0`: the loop starts at half filling. -/
theorem C146_initialize (hP : P.n = nb + 1) (hzs : ∀ z ∈ P.zs, z.re = 0 ∧ z.im ≠ 0) {s s' : DmftState} {d : List ℂ} (hi : ∃ ek0 vk0 hist, s.imp = Imp.run (nb + 1) (Imp.init ek0 vk0) hist)
    (hlat : SymLattice s.loc.inv) (hed : s.loc.ed = some 0) {ek0 vk0 : ℕ → ℝ} (hb : SymBath σ ek0 vk0) (hr : s.initialize P U (fun _ => U / 2) none ek0 vk0 = .ok (s', d)) :
    AtHalf σ U s' ∧ Imaginary d := by
  obtain ⟨imp, gf, ⟨inv0, mu0, sig0, ed0⟩, it⟩ := s
  simp only at hed hlat hi
  subst hed
  simp only [DmftState.initialize, dmftInitialize, bind, Except.bind, pure, Except.pure, deltas_ok] at hr
  injection hr with hr
  have e1 := congrArg (fun q => q.1) hr
  have e2 := congrArg (fun q => q.2) hr
  simp only at e1 e2
  subst e1 e2
  obtain ⟨a, b, hist, hi⟩ := hi
  refine ⟨⟨⟨a, b, hist ++ [.update ((U : ℂ) / 2 - 0).re, .resetBath ek0 vk0], ?_⟩, hb, hlat, rfl, by simp⟩, ?_⟩
  · rw [hi, hP]
    simp only [Imp.run, List.foldl_append, List.foldl_cons, List.foldl_nil]
    rfl
  · intro x hx
    rw [List.mem_map] at hx
    obtain ⟨z, hz, rfl⟩ := hx
    obtain ⟨z1, z2⟩ := hzs z hz
    have k := hlat (U / 2) (fun _ => U / 2) z z1 z2 (by
      have : ((U : ℂ) / 2) = ((U / 2 : ℝ) : ℂ) := by push_cast; rfl
      rw [this, Complex.ofReal_re])
    have e : ((U / 2 : ℝ) : ℂ) = (U : ℂ) / 2 := by push_cast; rfl
    rw [e] at k
    simp only [Option.getD_none, Complex.sub_re, Complex.add_re, z1, k]
    ring

/-- The two lattice objects are symmetric if their hybridisation, or their Hilbert transform, is purely imaginary on the imaginary axis, as that of a symmetric density of states. -/
theorem C146_lattices (f : ℂ → ℂ) (hf : ∀ z : ℂ, z.re = 0 → (f z).re = 0) : SymLattice (gfhybrid f).inv ∧ SymLattice (gfhilbert f).inv := by
  constructor
  · intro mu sig z hz _ hs
    simp [gfhybrid, hz, hs, hf z hz]
  · intro mu sig z hz _ hs
    have : (f (z + mu - sig z)).re = 0 := hf _ (by simp [hz, hs])
    simp [gfhilbert, Complex.inv_re, this]

/-! ### A run that meets the hypotheses -/

open Classical in
/-- A loop with the exact solver and a fit that stops at once, for the first Matsubara frequency of `beta = π`. -/
noncomputable def halfPar (U : ℝ) : DmftPar :=
  ⟨1 + 1, [Complex.I], 1 / 10 ^ 3, 20, some 1, fun imp _ => .ok (imp.ek, imp.vk),
    fun p => if h : ∃ gf : ℂ → ℂ, ∀ z : ℂ, z.im ≠ 0 →
        IsGreen 1 (p.args (1 + 1) U).ham (ann ℝ (orb false (0 : Fin (1 + 1)))) (cre ℝ (orb false (0 : Fin (1 + 1)))) z (gf z) then .ok h.choose else .error .valueError,
    none, fun _ => .ok 1⟩

/-- The impurity with one bath site at zero energy in a lattice with hybridisation `1/z`. -/
noncomputable def halfState (U : ℝ) : DmftState :=
  ⟨Imp.init (fun _ => 0) (fun _ => 1), fun _ => 0, ⟨(gfhybrid fun z => 1 / z).inv, some ((U / 2 : ℝ) : ℂ), none, some 0⟩, 0⟩

/-- All hypotheses of C146 are met by a run that makes a call which returns. -/
example (U : ℝ) : (halfPar U).n = 1 + 1 ∧ (∀ z ∈ (halfPar U).zs, z.re = 0 ∧ z.im ≠ 0) ∧ RealFit (halfPar U) 1 1 ∧ ExactGf (halfPar U) 1 U 1 ∧ KeepsMu (halfPar U) U ∧
    AtHalf (1 : Equiv.Perm (Fin 1)) U (halfState U) ∧ (∀ v ∈ ({[0]} : Set (List ℂ)), Imaginary v) ∧
    ∃ s', MixDrive (halfPar U) (halfState U) {[0]} s' ({[0]} ∪ {[0], [-Complex.I]}) := by
  refine ⟨rfl, by simp [halfPar], ?_, ?_, fun _ h => by simp [halfPar] at h, ⟨⟨_, _, [], rfl⟩, fun k => by simp [halfState, Imp.init], (C146_lattices _ fun z hz => by simp [Complex.inv_re, hz]).1, rfl, rfl⟩,
    by simp [Imaginary], ?_⟩
  · intro imp d ek vk h
    simp only [halfPar, Except.ok.injEq, Prod.mk.injEq] at h
    obtain ⟨rfl, rfl⟩ := h
    exact .python ⟨_, .start⟩
  · intro p gf h
    simp only [halfPar] at h
    split at h
    · rename_i hx
      injection h with h
      subst h
      exact hx.choose_spec
    · cases h
  · let p1 : Imp := ((halfState U).imp.step 2 (.fit (fun _ => 0) (fun _ => 1))).step 2 (.update ((U / 2 : ℝ) - 0 : ℂ).re)
    have hp1 : p1 = impAfter 1 (fun _ => 0) (fun _ => 1) [] (fun _ => 0) (fun _ => 1) [((U / 2 : ℝ) - 0 : ℂ).re] := rfl
    obtain ⟨es, hes⟩ := eigenEspace_exists (impAfter_valid 1 (fun _ => 0) (fun _ => 1) [] (fun _ => 0) (fun _ => 1) [((U / 2 : ℝ) - 0 : ℂ).re] le_rfl (by norm_num) U)
    have hgf : ∃ gf, (halfPar U).solve p1 = .ok gf := by
      have hx : ∃ gf : ℂ → ℂ, ∀ z : ℂ, z.im ≠ 0 →
          IsGreen 1 (p1.args (1 + 1) U).ham (ann ℝ (orb false (0 : Fin (1 + 1)))) (cre ℝ (orb false (0 : Fin (1 + 1)))) z (gf z) :=
        ⟨fun z => _, fun z hz => (hes.basis.green 1 _ _ hz _).mpr rfl⟩
      exact ⟨_, dif_pos hx⟩
    obtain ⟨gf, hgf⟩ := hgf
    have hstep : ∃ s1, (halfState U).step (halfPar U) [0] = .ok (s1, some 1, [-Complex.I]) ∧ s1.it = 0 := by
      let s1 : DmftState := { halfState U with imp := p1, gf := gf, loc := { (halfState U).loc with sigma := some (p1.sigma 2 gf) } }
      have hd : (halfState U).dmftStep (halfPar U) [0] = .ok s1 := by
        have e : (halfState U).dmftStep (halfPar U) [0] =
            ((halfPar U).solve p1).bind fun gf => .ok { halfState U with imp := p1, gf := gf, loc := { (halfState U).loc with sigma := some (p1.sigma 2 gf) } } := rfl
        rw [e, hgf]
        rfl
      refine ⟨s1, ?_, rfl⟩
      unfold DmftState.step
      rw [hd]
      simp only [bind, Except.bind, halfPar, pure, Except.pure, List.mapM_cons, List.mapM_nil, Loc.delta, Loc.weiss, s1, halfState, gfhybrid]
      congr 4
      rw [one_div, Complex.inv_I]
      ring
    obtain ⟨s1, h1, h2⟩ := hstep
    have hcall : (halfState U).call (halfPar U) [0] = .ok ({ s1 with it := 1 }, .value [-Complex.I]) := by
      unfold DmftState.call
      have h1' : (halfState U).step (halfPar U) (clampNonCausal [0]).2 = .ok (s1, some 1, [-Complex.I]) := h1
      simp only [h1', bind, Except.bind, pure, Except.pure, dmftCall]
      have hn : ¬ deltaNorm [-Complex.I] (clampNonCausal [0]).2 < (halfPar U).tol := by
        have e : (clampNonCausal [0]).2 = [0] := rfl
        rw [e]
        simp [deltaNorm, halfPar]; norm_num
      simp only [if_neg hn]
      simp [h2, halfPar]
    exact ⟨_, .call (.mem rfl) hcall (.nil _ _)⟩

end Edpyt
