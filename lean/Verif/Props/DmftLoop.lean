import Verif.Model.DmftLoop
import Verif.Props.Dmft
import Verif.Props.Nano
/-!
Properties C116 and C117: what `Converged` says about the two Green functions.
-/
namespace Edpyt
open Spec

theorem zipWith_le_sum (a b : List ℂ) (c : ℕ) (ha : c < a.length) (hb : c < b.length) :
    Complex.normSq (a[c] - b[c]) ≤ (List.zipWith (fun x y => Complex.normSq (x - y)) a b).sum := by
  induction a generalizing b c with
  | nil => simp at ha
  | cons x a ih =>
    cases b with
    | nil => simp at hb
    | cons y b =>
      rw [List.zipWith_cons_cons, List.sum_cons]
      have hs : 0 ≤ (List.zipWith (fun x y => Complex.normSq (x - y)) a b).sum := by
        apply List.sum_nonneg
        intro w hw
        obtain ⟨i, hi, rfl⟩ := List.getElem_of_mem hw
        rw [List.getElem_zipWith]; exact Complex.normSq_nonneg _
      cases c with
      | zero => simpa using hs
      | succ c =>
        have := ih b c (by simpa using ha) (by simpa using hb)
        simp only [List.getElem_cons_succ]
        exact this.trans (by have := Complex.normSq_nonneg (x - y); linarith)

/-- Every component of the difference is bounded by the norm that is compared with `tol`. -/
theorem norm_le_deltaNorm (a b : List ℂ) (c : ℕ) (ha : c < a.length) (hb : c < b.length) : ‖a[c] - b[c]‖ ≤ deltaNorm a b := by
  unfold deltaNorm
  rw [Complex.norm_def]
  exact Real.sqrt_le_sqrt (zipWith_le_sum a b c ha hb)

/-- The state of a run that was initialised: the chemical potential and the on-site energy of the lattice object are set, to real numbers. -/
def DmftState.Ready (s : DmftState) (inv : ℂ → (ℂ → ℂ) → ℂ → ℂ) (ed : ℝ) : Prop :=
  s.loc.inv = inv ∧ s.loc.ed = some (ed : ℂ) ∧ ∃ mu : ℝ, s.loc.mu = some (mu : ℂ)

/-- What one step leaves behind. -/
structure StepPost (P : DmftPar) (inv : ℂ → (ℂ → ℂ) → ℂ → ℂ) (ed mu mu' : ℝ) (s' : DmftState) : Prop where
  hinv : s'.loc.inv = inv
  hed : s'.loc.ed = some (ed : ℂ)
  hmu : s'.loc.mu = some (mu' : ℂ)
  sigma : s'.loc.sigma = some (s'.imp.sigma P.n s'.gf)
  level : s'.imp.H 0 0 = -(mu - ed)
  fixed : P.adjust = none → mu' = mu

theorem deltas_ok {inv : ℂ → (ℂ → ℂ) → ℂ → ℂ} {mu : ℂ} {sig : ℂ → ℂ} {ed : Option ℂ} (zs : List ℂ) :
    zs.mapM (Loc.delta ⟨inv, some mu, some sig, ed⟩) = .ok (zs.map fun z => z + mu - (sig z + inv mu sig z)) := by
  induction zs with
  | nil => rfl
  | cons z zs ih => rw [List.mapM_cons, ih]; rfl

theorem step_post (P : DmftPar) {inv : ℂ → (ℂ → ℂ) → ℂ → ℂ} {ed mu : ℝ} {s s' : DmftState} {delta dnew : List ℂ} {o : Option ℝ}
    (hi : s.loc.inv = inv) (he : s.loc.ed = some (ed : ℂ)) (hm : s.loc.mu = some (mu : ℂ)) (h : s.step P delta = .ok (s', o, dnew)) :
    ∃ mu' : ℝ, StepPost P inv ed mu mu' s' ∧ s'.it = s.it ∧
      dnew = P.zs.map fun z => z + mu' - (s'.imp.sigma P.n s'.gf z + inv mu' (s'.imp.sigma P.n s'.gf) z) := by
  obtain ⟨imp, gf, ⟨inv0, mu0, sig0, ed0⟩, it⟩ := s
  simp only at hi he hm
  subst hi he hm
  simp only [DmftState.step, DmftState.dmftStep, bind, Except.bind, pure, Except.pure] at h
  cases hf : P.fit imp delta with
  | error e => simp only [hf, reduceCtorEq] at h
  | ok p =>
    simp only [hf] at h
    cases hsv : P.solve ((imp.step P.n (.fit p.1 p.2)).step P.n (.update ((mu : ℂ) - ed).re)) with
    | error e => simp only [hsv, reduceCtorEq] at h
    | ok g =>
      simp only [hsv] at h
      cases ha : P.adjust with
      | none =>
        simp only [ha, deltas_ok] at h
        injection h with h
        have h1 := congrArg (fun q => q.1) h
        have h3 := congrArg (fun q => q.2.2) h
        simp only at h1 h3
        subst h1
        exact ⟨mu, ⟨rfl, rfl, rfl, rfl, by simp [Imp.step], fun _ => rfl⟩, rfl, h3.symm⟩
      | some root =>
        simp only [ha] at h
        cases hr : root ⟨inv0, some (mu : ℂ), some (Imp.sigma P.n ((imp.step P.n (.fit p.1 p.2)).step P.n (.update ((mu : ℂ) - ed).re)) g), some (ed : ℂ)⟩ with
        | error e => simp only [hr, reduceCtorEq] at h
        | ok mu' =>
          simp only [hr] at h
          cases hn : P.integrate ⟨inv0, some (mu' : ℂ), some (Imp.sigma P.n ((imp.step P.n (.fit p.1 p.2)).step P.n (.update ((mu : ℂ) - ed).re)) g), some (ed : ℂ)⟩ with
          | error e => simp only [hn, reduceCtorEq] at h
          | ok oc =>
            simp only [hn, deltas_ok] at h
            injection h with h
            have h1 := congrArg (fun q => q.1) h
            have h3 := congrArg (fun q => q.2.2) h
            simp only at h1 h3
            subst h1
            exact ⟨mu', ⟨rfl, rfl, rfl, rfl, by simp [Imp.step], fun h => by rw [ha] at h; cases h⟩, rfl, h3.symm⟩

/-- The inverse of the lattice Green function minus that of the impurity one, after a step. -/
theorem step_gap (P : DmftPar) {inv : ℂ → (ℂ → ℂ) → ℂ → ℂ} {ed mu mu' : ℝ} {s' : DmftState} (h : StepPost P inv ed mu mu' s') (z : ℂ) :
    ∃ G, s'.loc.call z = .ok G ∧ G⁻¹ - (s'.imp.call P.n s'.gf z)⁻¹ =
      ed + (mu' - mu) - ((z + mu' - (s'.imp.sigma P.n s'.gf z + inv mu' (s'.imp.sigma P.n s'.gf) z)) - deltaEval (P.n - 1) s'.imp.ek s'.imp.vk z) := by
  refine ⟨(inv mu' (s'.imp.sigma P.n s'.gf) z)⁻¹, ?_, ?_⟩
  · unfold Loc.call
    rw [h.hmu, h.sigma, h.hinv]
  · unfold Imp.call
    rw [inv_inv, inv_inv, h.level]
    push_cast
    ring

theorem drive_ready (P : DmftPar) {inv : ℂ → (ℂ → ℂ) → ℂ → ℂ} {ed : ℝ} (arg : ℕ → List ℂ) (fuel k : ℕ) (s : DmftState) (hs : s.Ready inv ed)
    {s' : DmftState} {out : CallOut} {d : List ℂ} (h : s.drive P arg fuel k = .ok (some (s', out, d))) :
    ∃ (mu mu' : ℝ) (o : Option ℝ) (dnew : List ℂ), StepPost P inv ed mu mu' s' ∧ (∃ j, d = arg j) ∧
      (dnew = P.zs.map fun z => z + mu' - (s'.imp.sigma P.n s'.gf z + inv mu' (s'.imp.sigma P.n s'.gf) z)) ∧
      ∃ it, (s'.it, out) = dmftCall P.tol P.maxIter (fun _ => (o, dnew)) it d := by
  induction fuel generalizing k s with
  | zero => simp [DmftState.drive] at h
  | succ fuel ih =>
    obtain ⟨hi, he, mu, hm⟩ := hs
    rw [DmftState.drive] at h
    simp only [bind, Except.bind, DmftState.call, pure, Except.pure, clampNonCausal] at h
    cases hst : s.step P (arg k) with
    | error e => simp only [hst, reduceCtorEq] at h
    | ok r =>
      obtain ⟨s1, o, dnew⟩ := r
      obtain ⟨mu', hp, hit, hd⟩ := step_post P hi he hm hst
      simp only [hst] at h
      cases hc : dmftCall P.tol P.maxIter (fun _ => (o, dnew)) s1.it (arg k) with
      | mk it' out' =>
        simp only [hc] at h
        have fin : out' = out → arg k = d → { s1 with it := it' } = s' → ∃ (mu mu' : ℝ) (o : Option ℝ) (dnew : List ℂ), StepPost P inv ed mu mu' s' ∧ (∃ j, d = arg j) ∧
            (dnew = P.zs.map fun z => z + mu' - (s'.imp.sigma P.n s'.gf z + inv mu' (s'.imp.sigma P.n s'.gf) z)) ∧
            ∃ it, (s'.it, out) = dmftCall P.tol P.maxIter (fun _ => (o, dnew)) it d := by
          rintro rfl rfl rfl
          exact ⟨mu, mu', o, dnew, ⟨hp.hinv, hp.hed, hp.hmu, hp.sigma, hp.level, hp.fixed⟩, ⟨k, rfl⟩, hd, s1.it, hc.symm⟩
        cases out' with
        | value v => exact ih (k + 1) { s1 with it := it' } ⟨hp.hinv, hp.hed, mu', hp.hmu⟩ h
        | converged => simp at h; exact fin h.2.1 h.2.2 h.1
        | failed => simp at h; exact fin h.2.1 h.2.2 h.1
        | typeError => simp at h; exact fin h.2.1 h.2.2 h.1

theorem converged_lt {tol : ℝ} {mi it i : ℕ} {o : Option ℝ} {dnew d : List ℂ} (h : (i, CallOut.converged) = dmftCall tol mi (fun _ => (o, dnew)) it d) :
    deltaNorm dnew d < tol := by
  cases o with
  | none => simp [dmftCall, clampNonCausal] at h
  | some o =>
    by_contra hge
    unfold dmftCall at h
    simp only at h
    have hge' : ¬ deltaNorm dnew (clampNonCausal d).2 < tol := hge
    rw [if_neg hge'] at h
    split_ifs at h <;> simp at h

/-! ### C116 -/

/-- **C116** (partial: `gfloc.ed = 0`) When a run of the loop ends with `Converged`, whatever sequence of hybridisations the mixing routine tried,
whatever the minimiser, the solver and the root finder do, then at each frequency the inverses of the lattice and of the impurity Green function
differ by less than `tol`, plus the error of the last bath fit at that frequency, plus the last change of the chemical potential; the
latter is zero if `adjust_mu` is off. -/
theorem C116_converged_partial (P : DmftPar) (inv : ℂ → (ℂ → ℂ) → ℂ → ℂ) (arg : ℕ → List ℂ) (harg : ∀ k, (arg k).length = P.zs.length) (fuel : ℕ)
    (s s' : DmftState) (hs : s.Ready inv 0) (d : List ℂ) (h : s.drive P arg fuel 0 = .ok (some (s', .converged, d))) :
    ∃ mu mu' : ℝ, s'.loc.mu = some (mu' : ℂ) ∧ s'.imp.H 0 0 = -mu ∧ (P.adjust = none → mu' = mu) ∧
      ∀ (c : ℕ) (hc : c < P.zs.length) (hd : c < d.length), ∃ G, s'.loc.call P.zs[c] = .ok G ∧
        ‖G⁻¹ - (s'.imp.call P.n s'.gf P.zs[c])⁻¹‖ < P.tol + ‖d[c] - deltaEval (P.n - 1) s'.imp.ek s'.imp.vk P.zs[c]‖ + |mu' - mu| := by
  obtain ⟨mu, mu', o, dnew, hp, ⟨j, hj⟩, hn, it, hc⟩ := drive_ready P arg fuel 0 s hs h
  refine ⟨mu, mu', hp.hmu, by rw [hp.level, sub_zero], hp.fixed, fun c hcl hdl => ?_⟩
  obtain ⟨G, hG, hgap⟩ := step_gap P hp P.zs[c]
  refine ⟨G, hG, ?_⟩
  have hlt : deltaNorm dnew d < P.tol := converged_lt hc
  have hdn : c < dnew.length := by rw [hn, List.length_map]; exact hcl
  have hle := norm_le_deltaNorm dnew d c hdn hdl
  have he : dnew[c] = P.zs[c] + mu' - (s'.imp.sigma P.n s'.gf P.zs[c] + inv mu' (s'.imp.sigma P.n s'.gf) P.zs[c]) := by simp [hn]
  rw [hgap, ← he]
  have hsplit : ((0 : ℝ) : ℂ) + (mu' - mu) - (dnew[c] - deltaEval (P.n - 1) s'.imp.ek s'.imp.vk P.zs[c]) =
      ((mu' - mu : ℝ) : ℂ) + (-(dnew[c] - d[c])) + (-(d[c] - deltaEval (P.n - 1) s'.imp.ek s'.imp.vk P.zs[c])) := by push_cast; ring
  rw [hsplit]
  refine (norm_add₃_le).trans_lt ?_
  rw [norm_neg, norm_neg, Complex.norm_real, Real.norm_eq_abs]
  linarith

/-- C116 fails for a lattice object whose on-site energy `ed` is not zero: with a bath that reproduces the hybridisation exactly and a fixed
chemical potential, a run that ends with `Converged` leaves inverses that differ by `ed`, up to `tol`. -/
theorem C116_refuted_level (P : DmftPar) (inv : ℂ → (ℂ → ℂ) → ℂ → ℂ) (ed : ℝ) (arg : ℕ → List ℂ) (harg : ∀ k, (arg k).length = P.zs.length)
    (hadj : P.adjust = none) (fuel : ℕ)
    (s s' : DmftState) (hs : s.Ready inv ed) (d : List ℂ) (h : s.drive P arg fuel 0 = .ok (some (s', .converged, d)))
    (c : ℕ) (hc : c < P.zs.length) (hd : c < d.length) (hfit : d[c] = deltaEval (P.n - 1) s'.imp.ek s'.imp.vk P.zs[c]) :
    ∃ G, s'.loc.call P.zs[c] = .ok G ∧ ‖(G⁻¹ - (s'.imp.call P.n s'.gf P.zs[c])⁻¹) - ed‖ < P.tol := by
  obtain ⟨mu, mu', o, dnew, hp, ⟨j, hj⟩, hn, it, hcl⟩ := drive_ready P arg fuel 0 s hs h
  obtain ⟨G, hG, hgap⟩ := step_gap P hp P.zs[c]
  refine ⟨G, hG, ?_⟩
  have hlt : deltaNorm dnew d < P.tol := converged_lt hcl
  have hdn : c < dnew.length := by rw [hn, List.length_map]; exact hc
  have hle := norm_le_deltaNorm dnew d c hdn hd
  have he : dnew[c] = P.zs[c] + mu' - (s'.imp.sigma P.n s'.gf P.zs[c] + inv mu' (s'.imp.sigma P.n s'.gf) P.zs[c]) := by simp [hn]
  rw [hgap, ← he, ← hfit, hp.fixed hadj]
  have hsplit : (ed : ℂ) + (mu - mu) - (dnew[c] - d[c]) - ed = -(dnew[c] - d[c]) := by ring
  rw [hsplit, norm_neg]
  exact hle.trans_lt hlt

/-- C116 needs the term with the chemical potential: with `adjust_mu` on, a run can end with `Converged` at error zero although the two Green
functions differ, because the chemical potential was changed after the impurity was solved. -/
theorem C116_refuted_adjust : ∃ (P : DmftPar) (s s' : DmftState) (d : List ℂ) (G : ℂ), s.Ready (gfhybrid fun z => 1 / z).inv 0 ∧
    s.drive P (fun _ => d) 1 0 = .ok (some (s', .converged, d)) ∧ P.zs = [Complex.I] ∧ d = [deltaEval (P.n - 1) s'.imp.ek s'.imp.vk Complex.I] ∧
    s'.loc.call Complex.I = .ok G ∧ G⁻¹ - (s'.imp.call P.n s'.gf Complex.I)⁻¹ = 7 := by
  have hd : deltaEval (2 - 1) (fun _ => 0) (fun _ => 1) Complex.I = 1 / Complex.I := by
    simp [deltaEval]
  let P : DmftPar := ⟨2, [Complex.I], 1, 20, none, fun _ _ => .ok (fun _ => 0, fun _ => 1), fun s => .ok (s.free 2), some fun _ => .ok 7, fun _ => .ok 1⟩
  let s : DmftState := ⟨Imp.init (fun _ => 0) (fun _ => 0), fun _ => 0, { gfhybrid (fun z => 1 / z) with mu := some ((0 : ℝ) : ℂ), ed := some ((0 : ℝ) : ℂ) }, 0⟩
  cases hst : s.step P [1 / Complex.I] with
  | error e =>
    exfalso
    simp only [DmftState.step, DmftState.dmftStep, P, s, bind, Except.bind, pure, Except.pure, gfhybrid, deltas_ok, reduceCtorEq] at hst
  | ok r =>
    obtain ⟨s1, o, dnew⟩ := r
    obtain ⟨mu', hp, hit, hdn⟩ := step_post P (inv := (gfhybrid fun z => 1 / z).inv) (ed := 0) (mu := 0) rfl rfl rfl hst
    have hmu : mu' = 7 ∧ o = some 1 ∧ s1.imp.ek = (fun _ => 0) ∧ s1.imp.vk = fun _ => 1 := by
      simp only [DmftState.step, DmftState.dmftStep, P, s, bind, Except.bind, pure, Except.pure, gfhybrid, deltas_ok] at hst
      injection hst with hst
      have h1 := congrArg (fun q => q.1) hst
      have h2 := congrArg (fun q => q.2.1) hst
      simp only at h1 h2
      subst h1
      have := hp.hmu
      simp only at this
      injection this with this
      exact ⟨(Complex.ofReal_injective this).symm, h2.symm, rfl, rfl⟩
    obtain ⟨rfl, rfl, hek, hvk⟩ := hmu
    have hdv : dnew = [1 / Complex.I] := by
      rw [hdn]
      simp only [P, gfhybrid, List.map_cons, List.map_nil]
      congr 1
      ring
    obtain ⟨G, hG, hgap⟩ := step_gap P hp Complex.I
    refine ⟨P, s, { s1 with it := s1.it }, [1 / Complex.I], G, ⟨rfl, rfl, 0, rfl⟩, ?_, rfl, ?_, hG, ?_⟩
    · rw [DmftState.drive]
      simp only [bind, Except.bind, DmftState.call, pure, Except.pure, clampNonCausal, hst]
      have : dmftCall P.tol P.maxIter (fun _ => (some (1 : ℝ), dnew)) s1.it [1 / Complex.I] = (s1.it, .converged) := by
        simp only [dmftCall, clampNonCausal, hdv, deltaNorm_self]
        simp [P]
      rw [this]
    · simp only [hek, hvk]; exact congrArg (fun x => [x]) hd.symm
    · have h0 : deltaEval (P.n - 1) s1.imp.ek s1.imp.vk Complex.I = 1 / Complex.I := by rw [hek, hvk]; exact hd
      rw [hgap, h0]
      simp only [gfhybrid]
      push_cast
      ring

/-- A run that converges at the first call: the lattice is given by the hybridisation `1/z`, the fit is exact, there is no interaction. -/
theorem exampleRun (mu ed : ℝ) : ∃ (P : DmftPar) (s s' : DmftState) (d : List ℂ), s.Ready (gfhybrid fun z => 1 / z).inv ed ∧
    s.loc.mu = some (mu : ℂ) ∧ P.adjust = none ∧ P.zs = [Complex.I] ∧ P.tol = 1 ∧ d.length = 1 ∧
    s.drive P (fun _ => d) 1 0 = .ok (some (s', .converged, d)) ∧ d = [deltaEval (P.n - 1) s'.imp.ek s'.imp.vk Complex.I] := by
  have hd : deltaEval (2 - 1) (fun _ => 0) (fun _ => 1) Complex.I = 1 / Complex.I := by
    simp [deltaEval]
  let P : DmftPar := ⟨2, [Complex.I], 1, 20, some 1, fun _ _ => .ok (fun _ => 0, fun _ => 1), fun s => .ok (s.free 2), none, fun _ => .ok 1⟩
  let s : DmftState := ⟨Imp.init (fun _ => 0) (fun _ => 0), fun _ => 0, { gfhybrid (fun z => 1 / z) with mu := some (mu : ℂ), ed := some (ed : ℂ) }, 0⟩
  cases hst : s.step P [1 / Complex.I] with
  | error e =>
    exfalso
    simp only [DmftState.step, DmftState.dmftStep, P, s, bind, Except.bind, pure, Except.pure, gfhybrid, deltas_ok, reduceCtorEq] at hst
  | ok r =>
    obtain ⟨s1, o, dnew⟩ := r
    obtain ⟨mu', hp, hit, hdn⟩ := step_post P (inv := (gfhybrid fun z => 1 / z).inv) (ed := ed) (mu := mu) rfl rfl rfl hst
    have hmu : o = some 1 ∧ s1.imp.ek = (fun _ => 0) ∧ s1.imp.vk = fun _ => 1 := by
      simp only [DmftState.step, DmftState.dmftStep, P, s, bind, Except.bind, pure, Except.pure, gfhybrid, deltas_ok] at hst
      injection hst with hst
      have h1 := congrArg (fun q => q.1) hst
      have h2 := congrArg (fun q => q.2.1) hst
      simp only at h1 h2
      subst h1
      exact ⟨h2.symm, rfl, rfl⟩
    obtain ⟨rfl, hek, hvk⟩ := hmu
    have hdv : dnew = [1 / Complex.I] := by
      rw [hdn]
      simp only [P, gfhybrid, List.map_cons, List.map_nil]
      congr 1
      ring
    refine ⟨P, s, { s1 with it := s1.it }, [1 / Complex.I], ⟨rfl, rfl, mu, rfl⟩, rfl, rfl, rfl, rfl, rfl, ?_, ?_⟩
    · rw [DmftState.drive]
      simp only [bind, Except.bind, DmftState.call, pure, Except.pure, clampNonCausal, hst]
      have : dmftCall P.tol P.maxIter (fun _ => (some (1 : ℝ), dnew)) s1.it [1 / Complex.I] = (s1.it, .converged) := by
        simp only [dmftCall, clampNonCausal, hdv, deltaNorm_self]
        simp [P]
      rw [this]
    · simp only [hek, hvk]; exact congrArg (fun x => [x]) hd.symm

/-- Non-vacuity of `C116_converged_partial`. -/
example : ∃ (P : DmftPar) (s s' : DmftState) (d : List ℂ) (G : ℂ), s.drive P (fun _ => d) 1 0 = .ok (some (s', .converged, d)) ∧
    s'.loc.call Complex.I = .ok G ∧ ‖G⁻¹ - (s'.imp.call P.n s'.gf Complex.I)⁻¹‖ < 1 := by
  obtain ⟨P, s, s', d, hr, -, ha, hz, ht, hl, hdr, hd⟩ := exampleRun 3 0
  obtain ⟨mu, mu', -, -, hf, h⟩ := C116_converged_partial P _ (fun _ => d) (fun _ => by rw [hl, hz]; rfl) 1 s s' hr d hdr
  obtain ⟨G, hG, hb⟩ := h 0 (by rw [hz]; simp) (by omega)
  refine ⟨P, s, s', d, G, hdr, by simpa [hz] using hG, ?_⟩
  rw [hf ha, ht] at hb
  simpa [hz, hd] using hb

/-- Non-vacuity of `C116_refuted_level`: at the on-site energy `5` the inverses differ by more than `4` although `tol` is `1`. -/
example : ∃ (P : DmftPar) (s s' : DmftState) (d : List ℂ) (G : ℂ), P.tol = 1 ∧ s.drive P (fun _ => d) 1 0 = .ok (some (s', .converged, d)) ∧
    s'.loc.call Complex.I = .ok G ∧ 4 < ‖G⁻¹ - (s'.imp.call P.n s'.gf Complex.I)⁻¹‖ := by
  obtain ⟨P, s, s', d, hr, -, ha, hz, ht, hl, hdr, hd⟩ := exampleRun 3 5
  obtain ⟨G, hG, hb⟩ := C116_refuted_level P _ 5 (fun _ => d) (fun _ => by rw [hl, hz]; rfl) ha 1 s s' hr d hdr 0 (by rw [hz]; simp) (by omega)
    (by simp [hd, hz])
  refine ⟨P, s, s', d, G, ht, hdr, by simpa [hz] using hG, ?_⟩
  rw [ht] at hb
  have hb' : ‖(G⁻¹ - (s'.imp.call P.n s'.gf Complex.I)⁻¹) - ((5 : ℝ) : ℂ)‖ < 1 := by simpa [hz] using hb
  have h5 : ‖((5 : ℝ) : ℂ)‖ = 5 := by rw [Complex.norm_real]; norm_num
  have h := norm_sub_norm_le ((5 : ℝ) : ℂ) (G⁻¹ - (s'.imp.call P.n s'.gf Complex.I)⁻¹)
  rw [norm_sub_rev _ (G⁻¹ - (s'.imp.call P.n s'.gf Complex.I)⁻¹), h5] at h
  linarith

/-! ### C117 -/

theorem mapM_ok_get {α β : Type} (f : α → Except PyErr β) (l : List α) (r : List β) (h : l.mapM f = .ok r) :
    r.length = l.length ∧ ∀ (i : ℕ) (x : α), l[i]? = some x → ∃ y, r[i]? = some y ∧ f x = .ok y := by
  induction l generalizing r with
  | nil => cases h; exact ⟨rfl, fun i x hx => by simp at hx⟩
  | cons a l ih =>
    rw [List.mapM_cons] at h
    simp only [bind, Except.bind, pure, Except.pure] at h
    cases ha : f a with
    | error e => simp only [ha, reduceCtorEq] at h
    | ok b =>
      simp only [ha] at h
      cases hl : l.mapM f with
      | error e => simp only [hl, reduceCtorEq] at h
      | ok bs =>
        simp only [hl] at h
        injection h with h
        subst h
        obtain ⟨h1, h2⟩ := ih bs hl
        refine ⟨by simp [h1], fun i x hx => ?_⟩
        cases i with
        | zero => simp at hx; subst hx; exact ⟨b, by simp, ha⟩
        | succ i => simp only [List.getElem?_cons_succ] at hx ⊢; exact h2 i x hx

/-- What one step of the nano loop leaves in impurity `u`: its level is the one of its own site, and its bath is the one fitted to row `u` of
the hybridisation, starting from its own bath. -/
theorem nanoStep_get {m n : ℕ} {fit : Imp → (ℕ → ℂ) → Except PyErr ((ℕ → ℝ) × (ℕ → ℝ))} {solve : Imp → Except PyErr (ℂ → ℂ)} {g : NanoLoc m}
    (hneq : ∀ i ∈ g.idxNeq, i < m) {rows : ℕ} {delta : ℕ → ℕ → ℂ} {imps : List Imp} (hlen : imps.length = g.idxNeq.length)
    {res : List (Imp × (ℂ → ℂ))} (h : nanoStep n fit solve g rows delta imps = .ok res) :
    res.length = imps.length ∧ ∀ (u : ℕ) (hu : u < g.idxNeq.length), ∃ s p gf, imps[u]? = some s ∧ fit s (delta u) = .ok p ∧ u < rows ∧
      res[u]? = some ((s.step n (.fit p.1 p.2)).step n
        (.update (g.mu - (g.H ⟨g.idxNeq[u], hneq _ (List.getElem_mem hu)⟩ ⟨g.idxNeq[u], hneq _ (List.getElem_mem hu)⟩).re)), gf) ∧
      solve ((s.step n (.fit p.1 p.2)).step n
        (.update (g.mu - (g.H ⟨g.idxNeq[u], hneq _ (List.getElem_mem hu)⟩ ⟨g.idxNeq[u], hneq _ (List.getElem_mem hu)⟩).re))) = .ok gf := by
  unfold nanoStep NanoLoc.ed at h
  rw [fancyIdx_ok _ hneq] at h
  simp only [bind, Except.bind, pure, Except.pure] at h
  cases hf : nanoFit n fit rows delta imps with
  | error e => simp only [hf, reduceCtorEq] at h
  | ok fs =>
    simp only [hf] at h
    obtain ⟨hfl, hfg⟩ := mapM_ok_get _ _ _ hf
    rw [List.length_zipIdx] at hfl
    unfold nanoUpdate broadcastTo at h
    rw [if_pos (by simp [hfl, hlen])] at h
    simp only [bind, Except.bind, pure, Except.pure] at h
    obtain ⟨hrl, hrg⟩ := mapM_ok_get _ _ _ h
    rw [List.length_mapIdx] at hrl
    refine ⟨by omega, fun u hu => ?_⟩
    have hui : u < imps.length := by omega
    obtain ⟨y, hy1, hy2⟩ := hfg u (imps[u], u) (by simp [List.getElem?_zipIdx, List.getElem?_eq_getElem hui])
    simp only [bind, Except.bind, pure, Except.pure] at hy2
    split_ifs at hy2 with hr
    cases hfit : fit imps[u] (delta u) with
    | error e => simp only [hfit, reduceCtorEq] at hy2
    | ok p =>
      simp only [hfit] at hy2
      injection hy2 with hy2
      obtain ⟨w, hw1, hw2⟩ := hrg u (y.step n (.update (g.mu - (g.H ⟨g.idxNeq[u], hneq _ (List.getElem_mem hu)⟩ ⟨g.idxNeq[u], hneq _ (List.getElem_mem hu)⟩).re)))
        (by
          rw [List.getElem?_mapIdx, hy1]
          simp [List.getElem?_eq_getElem hu, hneq _ (List.getElem_mem hu)])
      subst hy2
      split at hw2
      · cases hw2
      · rename_i gf hgf
        injection hw2 with hw2
        subst hw2
        exact ⟨imps[u], p, gf, List.getElem?_eq_getElem hui, hfit, hr, hw1, hgf⟩

/-- **C117** For every nano lattice, every minimiser and solver: after a step that fits the rows of `delta`, sets the levels and solves the impurities,
and after a change of the chemical potential from `mu` to `mu'`, the new hybridisation `D` satisfies for each inequivalent site `u` and frequency
`1/G_loc,u - 1/G_imp,u = (mu' - mu) - (D_u - Delta_bath,u)`, whatever the on-site energies. -/
theorem C117_gap {m n : ℕ} (fit : Imp → (ℕ → ℂ) → Except PyErr ((ℕ → ℝ) × (ℕ → ℝ))) (solve : Imp → Except PyErr (ℂ → ℂ)) (g : NanoLoc m)
    (hneq : ∀ i ∈ g.idxNeq, i < m) (hreal : ∀ i : Fin m, (g.H i i).im = 0) (rows : ℕ) (delta : ℕ → ℕ → ℂ) (imps : List Imp)
    (hlen : imps.length = g.idxNeq.length) (res : List (Imp × (ℂ → ℂ))) (h : nanoStep n fit solve g rows delta imps = .ok res)
    (mu' : ℝ) (zs : List ℂ) (junk sigma G D : ℕ → ℕ → ℂ) (hs : nanoSigma n res zs = .ok sigma)
    (hG : NanoLoc.call { g with mu := mu' } res.length sigma zs junk = .ok G)
    (hD : NanoLoc.Delta { g with mu := mu' } res.length sigma zs junk = .ok D) (u : ℕ) (hu : u < g.idxNeq.length) (c : ℕ) (hc : c < zs.length) :
    ∃ s gf, res[u]? = some (s, gf) ∧
      (G u c)⁻¹ - (s.call n gf zs[c])⁻¹ = (mu' - g.mu) - (D u c - deltaEval (n - 1) s.ek s.vk zs[c]) := by
  obtain ⟨-, hget⟩ := nanoStep_get hneq hlen h
  obtain ⟨s, p, gf, -, -, -, hr, -⟩ := hget u hu
  refine ⟨_, gf, hr, ?_⟩
  have hsig : sigma u c = Imp.sigma n ((s.step n (.fit p.1 p.2)).step n
      (.update (g.mu - (g.H ⟨g.idxNeq[u], hneq _ (List.getElem_mem hu)⟩ ⟨g.idxNeq[u], hneq _ (List.getElem_mem hu)⟩).re))) gf zs[c] := by
    unfold nanoSigma at hs
    split_ifs at hs
    injection hs with hs
    subst hs
    simp only [hr, List.getElem?_eq_getElem hc, Option.getD_some]
  have hDu : D u c = zs[c] + mu' - g.H ⟨g.idxNeq[u], hneq _ (List.getElem_mem hu)⟩ ⟨g.idxNeq[u], hneq _ (List.getElem_mem hu)⟩ - ((G u c)⁻¹ + sigma u c) := by
    unfold NanoLoc.Delta NanoLoc.ed at hD
    rw [hG, fancyIdx_ok _ hneq] at hD
    simp only [bind, Except.bind, pure, Except.pure] at hD
    injection hD with hD
    subst hD
    simp [nanoWeiss, List.getElem?_eq_getElem hc, List.getElem?_eq_getElem hu, hneq _ (List.getElem_mem hu)]
  have hH : g.H ⟨g.idxNeq[u], hneq _ (List.getElem_mem hu)⟩ ⟨g.idxNeq[u], hneq _ (List.getElem_mem hu)⟩ =
      (((g.H ⟨g.idxNeq[u], hneq _ (List.getElem_mem hu)⟩ ⟨g.idxNeq[u], hneq _ (List.getElem_mem hu)⟩).re : ℝ) : ℂ) := by
    apply Complex.ext <;> simp [hreal]
  rw [hDu, hsig]
  unfold Imp.call
  rw [inv_inv, hH]
  simp only [Imp.step, true_and, if_true, Complex.ofReal_re]
  push_cast
  ring

/-- C117: at a fixed point (`mu` unchanged, every bath reproduces the new hybridisation of its site) the local Green function of every inequivalent
site is the Green function of its impurity. -/
theorem C117_fixed_point {m n : ℕ} (fit : Imp → (ℕ → ℂ) → Except PyErr ((ℕ → ℝ) × (ℕ → ℝ))) (solve : Imp → Except PyErr (ℂ → ℂ)) (g : NanoLoc m)
    (hneq : ∀ i ∈ g.idxNeq, i < m) (hreal : ∀ i : Fin m, (g.H i i).im = 0) (rows : ℕ) (delta : ℕ → ℕ → ℂ) (imps : List Imp)
    (hlen : imps.length = g.idxNeq.length) (res : List (Imp × (ℂ → ℂ))) (h : nanoStep n fit solve g rows delta imps = .ok res)
    (zs : List ℂ) (junk sigma G D : ℕ → ℕ → ℂ) (hs : nanoSigma n res zs = .ok sigma)
    (hG : g.call res.length sigma zs junk = .ok G)
    (hD : g.Delta res.length sigma zs junk = .ok D) (u : ℕ) (hu : u < g.idxNeq.length) (c : ℕ) (hc : c < zs.length)
    (hfix : ∀ s gf, res[u]? = some (s, gf) → D u c = deltaEval (n - 1) s.ek s.vk zs[c]) :
    ∃ s gf, res[u]? = some (s, gf) ∧ G u c = s.call n gf zs[c] := by
  obtain ⟨s, gf, hr, hgap⟩ := C117_gap fit solve g hneq hreal rows delta imps hlen res h g.mu zs junk sigma G D hs hG hD u hu c hc
  refine ⟨s, gf, hr, ?_⟩
  rw [hfix s gf hr, sub_self, sub_self, sub_zero] at hgap
  exact inv_injective (sub_eq_zero.mp hgap)

/-- Non-vacuity of C117: the dimer without interaction, whose two sites have the hybridisation `1/z` of one bath level; at the fixed point the local
Green function of each site is the one of its impurity. -/
example : ∃ (res : List (Imp × (ℂ → ℂ))) (sigma G : ℕ → ℕ → ℂ),
    nanoStep 2 (fun _ _ => .ok (fun _ => 0, fun _ => 1)) (fun s => .ok (s.free 2)) dimerLoc 2 (fun _ _ => 1 / Complex.I)
      [Imp.init (fun _ => 0) (fun _ => 0), Imp.init (fun _ => 0) (fun _ => 0)] = .ok res ∧
    nanoSigma 2 res [Complex.I] = .ok sigma ∧ dimerLoc.call 2 sigma [Complex.I] (fun _ _ => 0) = .ok G ∧
    ∀ u < 2, ∃ s gf, res[u]? = some (s, gf) ∧ (G u 0)⁻¹ - (s.call 2 gf Complex.I)⁻¹ = (0 - 0) - ((Complex.I - (G u 0)⁻¹) - 1 / Complex.I) := by
  cases hres : nanoStep 2 (fun _ _ => .ok (fun _ => 0, fun _ => 1)) (fun s => .ok (s.free 2)) dimerLoc 2 (fun _ _ => 1 / Complex.I)
      [Imp.init (fun _ => 0) (fun _ => 0), Imp.init (fun _ => 0) (fun _ => 0)] with
  | error e =>
    exfalso
    unfold nanoStep NanoLoc.ed at hres
    rw [fancyIdx_ok _ dimerLoc_wf.neq] at hres
    simp [nanoFit, nanoUpdate, broadcastTo, bind, Except.bind, pure, Except.pure, dimerLoc, List.mapM_cons] at hres
  | ok res =>
    obtain ⟨hl, hget⟩ := nanoStep_get dimerLoc_wf.neq (by rfl) hres
    have hl2 : res.length = 2 := by rw [hl]; rfl
    cases hsig : nanoSigma 2 res [Complex.I] with
    | error e => exfalso; unfold nanoSigma at hsig; rw [if_neg (by omega)] at hsig; cases hsig
    | ok sigma =>
      have hz : ∀ r c, sigma r c = 0 := by
        intro r c
        unfold nanoSigma at hsig
        rw [if_neg (by omega)] at hsig
        injection hsig with hsig
        subst hsig
        simp only
        cases hr : res[r]? with
        | none => rfl
        | some q =>
          have hr2 : r < 2 := by rw [← hl2]; exact (List.getElem?_eq_some_iff.mp hr).1
          obtain ⟨s, p, gf, -, -, -, h1, h2⟩ := hget r hr2
          rw [hr] at h1
          injection h1 with h1
          subst h1
          injection h2 with h2
          subst h2
          simp only [Imp.sigma, Imp.free, inv_inv, sub_self]
      have hc : ∀ c, (h : c < [Complex.I].length) → dimerLoc.Causal (fun r => sigma r c) [Complex.I][c] := by
        intro c h
        obtain rfl : c = 0 := by simpa using h
        exact dimerLoc_causal (by simp) _ (fun r => by rw [hz]; simp)
      obtain ⟨G, hG, -⟩ := C104_call dimerLoc dimerLoc_wf (by simp [dimerLoc]) sigma [Complex.I] (by simp) (Or.inl le_rfl) (fun _ _ => 0) hc
      obtain ⟨D, hD, -⟩ := C105_delta_partial dimerLoc dimerLoc_wf (by simp [dimerLoc]) sigma [Complex.I] (by simp) (Or.inl le_rfl) (fun _ _ => 0) rfl hc
      refine ⟨res, sigma, G, rfl, hsig, hG, fun u hu => ?_⟩
      obtain ⟨s, gf, hr, hgap⟩ := C117_gap _ _ dimerLoc dimerLoc_wf.neq (fun i => by fin_cases i <;> simp [dimerLoc]) 2 _ _ (by rfl) res hres 0 [Complex.I]
        (fun _ _ => 0) sigma G D hsig (by rw [hl2]; exact hG) (by rw [hl2]; exact hD) u hu 0 (by simp)
      refine ⟨s, gf, hr, ?_⟩
      obtain ⟨s', p, gf', -, hp, -, h1, -⟩ := hget u hu
      rw [hr] at h1
      injection h1 with h1
      injection h1 with h1 h1'
      injection hp with hp
      have hde : deltaEval (2 - 1) s.ek s.vk Complex.I = 1 / Complex.I := by
        rw [h1, ← hp]; simp [Imp.step, deltaEval]
      have hDu : D u 0 = Complex.I - (G u 0)⁻¹ := by
        unfold NanoLoc.Delta NanoLoc.ed at hD
        rw [hG, fancyIdx_ok _ dimerLoc_wf.neq] at hD
        injection hD with hD
        subst hD
        interval_cases u <;> simp [nanoWeiss, hz, dimerLoc]
      simp only [List.getElem_cons_zero] at hgap
      rw [hgap, hde, hDu]
      simp [dimerLoc]

end Edpyt
