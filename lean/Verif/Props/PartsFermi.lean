import Verif.Proof.PartsFermi
import Verif.Props.SpectralWeight
import Verif.Spec.Weighted
/-!
C184: the electron and the hole part of a Green function are its spectral function times one minus the Fermi function and times the Fermi function.
-/
namespace Edpyt
open Edpyt.Spec Matrix

section
variable {g : GfLArgs} {pos junk : ℕ} {es : Espace (ℕ × ℕ)} {egs : ℝ}

/-- The two parts of the Green function from any pole expansion of the whole. -/
theorem parts_of_poles {ι : Type} [Fintype ι] [DecidableEq ι] {H : Matrix ι ι ℝ} {κ : Type} [Fintype κ] [DecidableEq κ] {u : κ → ι → ℝ} {E : κ → ℝ} (h : EigBasis H u E)
    {β : ℝ} {A B : Matrix ι ι ℝ} {σ : Type} [Fintype σ] {r p : σ → ℝ}
    (hG : ∀ e eta : ℝ, eta ≠ 0 → IsGreen β H A B (e + Complex.I * eta) (∑ k, (r k : ℂ) / ((e + Complex.I * eta : ℂ) - p k))) {e eta : ℝ} (he : eta ≠ 0) {ge gh : ℂ}
    (hp : IsGreenParts β H A B (e + Complex.I * eta) ge gh) :
    ge = ∑ k, (r k : ℂ) * ((1 - fermiOcc β (p k) : ℝ) : ℂ) / ((e + Complex.I * eta : ℂ) - p k) ∧
    gh = ∑ k, (r k : ℂ) * (fermiOcc β (p k) : ℂ) / ((e + Complex.I * eta : ℂ) - p k) := by
  have him : ∀ e eta : ℝ, eta ≠ 0 → (e + Complex.I * eta : ℂ).im ≠ 0 := fun e eta he => by simpa using he
  have hu := poles_unique (fun k => (r k : ℂ)) p (fun x => (lehmannW β u E A B x : ℂ)) (fun x : κ × κ => E x.2 - E x.1)
    (fun e eta he => (h.green_pairs β A B (him e eta he) _).mp (hG e eta he))
  have e2 : gh = ∑ k, (r k : ℂ) * (fermiOcc β (p k) : ℂ) / ((e + Complex.I * eta : ℂ) - p k) := by
    rw [h.hole_pairs β A B (him e eta he) hp, ← hu fun x => (fermiOcc β x : ℂ) / ((e + Complex.I * eta : ℂ) - (x : ℂ))]
    exact Finset.sum_congr rfl fun k _ => by ring
  refine ⟨?_, e2⟩
  have e3 := (h.green_pairs β A B (him e eta he) _).mp (IsGreenParts.isGreen hp)
  have e4 := (h.green_pairs β A B (him e eta he) _).mp (hG e eta he)
  have e5 : ge = ∑ k, (r k : ℂ) / ((e + Complex.I * eta : ℂ) - p k) - gh := by rw [e4, ← e3]; ring
  rw [e5, e2, ← Finset.sum_sub_distrib]
  exact Finset.sum_congr rfl fun k _ => by push_cast; ring

/-- **C184** Whenever the Green function of an orbital is a sum of poles `p k` with residues `r k`, the electron part that `build_gf_lanczos(separate=True)` returns is the sum of
the same poles with the residues times one minus the Fermi function of the pole, and the hole part the sum with the residues times the Fermi function, up to the errors of C98. -/
theorem C184_gf_lanczos (jk : ℝ) (ha : g.ham.Valid) (hw : g.ham.n ≤ g.w) (hc : g.cfg.Ok) (hpos : pos < g.ham.n) (hes : EigenEspace g.ham.n g.ham.ham es)
    {m : ℕ} {r p : Fin m → ℝ}
    (hG : ∀ e eta : ℝ, eta ≠ 0 → IsGreen g.beta g.ham.ham (ann ℝ (orb g.ispin (⟨pos, hpos⟩ : Fin g.ham.n))) (cre ℝ (orb g.ispin (⟨pos, hpos⟩ : Fin g.ham.n)))
      (e + Complex.I * eta) (∑ k, (r k : ℂ) / ((e + Complex.I * eta : ℂ) - p k))) :
    (∃ o, BuildGfLanczos g pos true es o) ∧ ∀ o, BuildGfLanczos g pos true es o → ∃ out, o = .ok out ∧
      ∀ e eta ε : ℝ, eta ≠ 0 → 0 ≤ ε → (∀ run ∈ out.log, run.ResLe ε) →
        ‖out.gfe.call jk e eta - ∑ k, (r k : ℂ) * ((1 - fermiOcc g.beta (p k) : ℝ) : ℂ) / ((e + Complex.I * eta : ℂ) - p k)‖ ≤ ε / eta ^ 2 + g.cfg.delta ^ 2 / |eta| ∧
        ‖out.gfh.call jk e eta - ∑ k, (r k : ℂ) * (fermiOcc g.beta (p k) : ℂ) / ((e + Complex.I * eta : ℂ) - p k)‖ ≤ ε / eta ^ 2 + g.cfg.delta ^ 2 / |eta| := by
  obtain ⟨h1, h2⟩ := C98_gf_lanczos jk ha hw hc hpos hes true
  refine ⟨h1, fun o ho => ?_⟩
  obtain ⟨out, e1, -, -, -, h3⟩ := h2 o ho
  refine ⟨out, e1, fun e eta ε he hε hr => ?_⟩
  obtain ⟨ge, gh, hp⟩ := greenParts_exist hes g.beta (ann ℝ (orb g.ispin (⟨pos, hpos⟩ : Fin g.ham.n))) (cre ℝ (orb g.ispin (⟨pos, hpos⟩ : Fin g.ham.n))) (z := e + Complex.I * eta) (by simpa using he)
  have h4 := h3 e eta ε he hε hr ge gh hp
  rw [if_pos rfl] at h4
  obtain ⟨k1, k2⟩ := parts_of_poles hes.basis hG he hp
  rw [← k1, ← k2]
  exact ⟨h4.1, h4.2.1⟩

/-- The pole expansion of `build_gf_exact`. -/
theorem gfEx_poles (x : GfEx) (hl : x.l.length = x.q.length) (f : ℝ → ℝ) (e eta : ℝ) :
    (x.weighted f).call e eta = ∑ k : Fin x.l.length, (((x.q[k]?).getD 0 / x.Z : ℝ) : ℂ) * (f x.l[k] : ℂ) / ((e + Complex.I * eta : ℂ) - (x.l[k] : ℝ)) := by
  unfold GfEx.call GfEx.weighted
  rw [zip_poles _ _ _ (by simp [hl]), Finset.sum_div]
  refine Finset.sum_congr rfl fun k _ => ?_
  have hk : (k : ℕ) < x.q.length := by rw [← hl]; exact k.2
  have e1 : ((List.zipWith (fun q l => q * f l) x.q x.l)[k]?).getD 0 = (x.q[k]?).getD 0 * f x.l[k] := by simp [hk]
  rw [e1]
  push_cast
  ring

theorem gfEx_weighted_sum (x : GfEx) (hl : x.l.length = x.q.length) (f : ℝ → ℝ) :
    (x.weighted f).q.sum / x.Z = ∑ k : Fin x.l.length, ((x.q[k]?).getD 0 / x.Z) * f x.l[k] := by
  have : (x.weighted f).q.sum = ∑ k : Fin x.l.length, (x.q[k]?).getD 0 * f x.l[k] := by
    rw [← List.sum_ofFn]
    congr 1
    refine List.ext_getElem (by simp [GfEx.weighted, hl]) fun k h2 h3 => ?_
    have hk : k < x.q.length := by rw [← hl]; simpa using h3
    simp [GfEx.weighted, hk]
  rw [this, Finset.sum_div]
  exact Finset.sum_congr rfl fun k _ => by ring

theorem gfEx_weighted_one (x : GfEx) (hl : x.l.length = x.q.length) : x.weighted (fun _ => 1) = x := by
  unfold GfEx.weighted
  congr 1
  refine List.ext_getElem (by simp [hl]) fun k h2 h3 => by simp

/-- **C184** The two solvers together: the electron and hole part of `build_gf_lanczos(separate=True)` are the Green function of `build_gf_exact` with the residue of every pole
times one minus the Fermi function, or times the Fermi function. -/
theorem C184_gf_exact (jk : ℝ) (ha : g.ham.Valid) (hw : g.ham.n ≤ g.w) (hc : g.cfg.Ok) (hpos : pos < g.ham.n) (hs : g.ispin = false) (hes : EigenEspace g.ham.n g.ham.ham es) :
    ∃ x, buildGfExact junk g.ham.n es g.beta egs pos false = .ok x ∧
    (∃ o, BuildGfLanczos g pos true es o) ∧ ∀ o, BuildGfLanczos g pos true es o → ∃ out, o = .ok out ∧
      ∀ e eta ε : ℝ, eta ≠ 0 → 0 ≤ ε → (∀ run ∈ out.log, run.ResLe ε) →
        ‖out.gfe.call jk e eta - (x.weighted fun l => 1 - fermiOcc g.beta l).call e eta‖ ≤ ε / eta ^ 2 + g.cfg.delta ^ 2 / |eta| ∧
        ‖out.gfh.call jk e eta - (x.weighted (fermiOcc g.beta)).call e eta‖ ≤ ε / eta ^ 2 + g.cfg.delta ^ 2 / |eta| := by
  obtain ⟨x, h1, hlen, -⟩ := C35_sum_rule (junk := junk) (beta := g.beta) (egs := egs) ha.le hpos hes.toCompleteEspace
  obtain ⟨x', h1', hG⟩ := C92_gf_exact (junk := junk) (beta := g.beta) (egs := egs) ha.le hes hpos
  obtain rfl : x = x' := by rw [h1] at h1'; exact Except.ok.inj h1'
  refine ⟨x, h1, ?_⟩
  simp only [gfEx_poles x hlen]
  refine C184_gf_lanczos jk ha hw hc hpos hes fun e eta he => ?_
  rw [hs, hG e eta he]
  have := gfEx_poles x hlen (fun _ => 1) e eta
  rw [gfEx_weighted_one x hlen] at this
  rw [this]
  exact Finset.sum_congr rfl fun k _ => by simp

/-- **C184** The residues of `build_gf_exact` times the Fermi function add up to the occupation that `get_occupation` computes, and the residues times one minus the Fermi function to
the number of holes. -/
theorem C184_occupation {n : ℕ} (hn : n ≤ 32) {H : Matrix (Finset (Fin (n + n))) (Finset (Fin (n + n))) ℝ} (hes : EigenEspace n H es) (hpos : pos < n) {occ : List OccSct}
    (hocc : List.Forall₂ OccView es occ) (egs' beta : ℝ) :
    ∃ x Nu Nd As, buildGfExact junk n es beta egs pos false = .ok x ∧ getOccupation occ egs' beta n = .ok (Nu, Nd, As) ∧
      (x.weighted (fermiOcc beta)).q.sum / x.Z = Nu pos ∧ (x.weighted fun l => 1 - fermiOcc beta l).q.sum / x.Z = 1 - Nu pos := by
  obtain ⟨x, h1, hlen, hZ, -, hsum⟩ := C35_sum_rule (junk := junk) (beta := beta) (egs := egs) hn hpos hes.toCompleteEspace
  obtain ⟨x', h1', hG⟩ := C92_gf_exact (junk := junk) (beta := beta) (egs := egs) hn hes hpos
  obtain rfl : x = x' := by rw [h1] at h1'; exact Except.ok.inj h1'
  obtain ⟨Nu, Nd, As, h2, h3⟩ := C101_get_occupation hes hocc egs' beta
  refine ⟨x, Nu, Nd, As, h1, h2, ?_⟩
  have him : ∀ e eta : ℝ, eta ≠ 0 → (e + Complex.I * eta : ℂ).im ≠ 0 := fun e eta he => by simpa using he
  have hp : ∀ e eta : ℝ, eta ≠ 0 → ∑ k : Fin x.l.length, (((x.q[k]?).getD 0 / x.Z : ℝ) : ℂ) / ((e + Complex.I * eta : ℂ) - (x.l[k] : ℝ)) =
      ∑ y : EigIdx n × EigIdx n, (lehmannW beta (esKet n es) (esVal n es) (ann ℝ (orb false (⟨pos, hpos⟩ : Fin n))) (cre ℝ (orb false (⟨pos, hpos⟩ : Fin n))) y : ℂ) /
        ((e + Complex.I * eta : ℂ) - ((esVal n es y.2 - esVal n es y.1 : ℝ) : ℂ)) := fun e eta he => by
    rw [← (hes.basis.green_pairs beta _ _ (him e eta he) _).mp ((hG e eta he _).mpr rfl)]
    have := gfEx_poles x hlen (fun _ => 1) e eta
    rw [gfEx_weighted_one x hlen] at this
    rw [this]
    exact Finset.sum_congr rfl fun k _ => by simp
  have hu := poles_unique (fun k : Fin x.l.length => (((x.q[k]?).getD 0 / x.Z : ℝ) : ℂ)) (fun k => x.l[k]) _ _ hp (fun l => (fermiOcc beta l : ℂ))
  have hf := hes.basis.fermi_sum beta (ann ℝ (orb false (⟨pos, hpos⟩ : Fin n))) (cre ℝ (orb false (⟨pos, hpos⟩ : Fin n)))
  have ht := hes.basis.thermal beta (cre ℝ (orb false (⟨pos, hpos⟩ : Fin n)) * ann ℝ (orb false (⟨pos, hpos⟩ : Fin n)))
  have h4 := (h3 ⟨pos, hpos⟩).1
  have key : (x.weighted (fermiOcc beta)).q.sum / x.Z = Nu pos := by
    rw [gfEx_weighted_sum x hlen]
    have : ((∑ k : Fin x.l.length, ((x.q[k]?).getD 0 / x.Z) * fermiOcc beta x.l[k] : ℝ) : ℂ) = (Nu pos : ℂ) := by
      rw [show (Nu pos : ℂ) = _ from h4]
      unfold thermalOcc num
      rw [ht, ← hf]
      push_cast at hu ⊢
      exact hu
    exact_mod_cast this
  refine ⟨key, ?_⟩
  have h5 : (x.weighted fun _ => (1 : ℝ)).q.sum / x.Z = 1 := by
    rw [gfEx_weighted_one x hlen, ← hsum]
    induction x.q with
    | nil => simp
    | cons y q ih => rw [List.sum_cons, List.map_cons, List.sum_cons, ← ih, add_div]
  have h6 : (x.weighted fun l => 1 - fermiOcc beta l).q.sum / x.Z = (x.weighted fun _ => (1 : ℝ)).q.sum / x.Z - (x.weighted (fermiOcc beta)).q.sum / x.Z := by
    rw [gfEx_weighted_sum x hlen, gfEx_weighted_sum x hlen, gfEx_weighted_sum x hlen, ← Finset.sum_sub_distrib]
    exact Finset.sum_congr rfl fun k _ => by ring
  rw [h6, h5, key]

/-- Non-vacuity: the two-site Hubbard model of `exampleArgs`. -/
example : ∃ es x out, EigenEspace 2 exampleArgs.ham es ∧ buildGfExact 0 2 es 10 0 1 false = .ok x ∧ x.l ≠ [] ∧
    BuildGfLanczos ⟨⟨500, 10, 1 / 10 ^ 13, fun _ _ => 0, fun _ _ => false⟩, .cf, 32, 0, exampleArgs, 10, 0, false⟩ 1 true es (.ok out) := by
  obtain ⟨es, hes⟩ := exampleArgs_eigenEspace
  obtain ⟨x, h1, ⟨o, ho⟩, h2⟩ := C184_gf_exact (g := ⟨⟨500, 10, 1 / 10 ^ 13, fun _ _ => 0, fun _ _ => false⟩, .cf, 32, 0, exampleArgs, 10, 0, false⟩) (pos := 1) (es := es) (junk := 0) (egs := 0) 0
    exampleArgs_valid (by decide) ⟨by norm_num, by norm_num, by norm_num⟩ (by decide) rfl hes
  obtain ⟨out, rfl, -⟩ := h2 o ho
  refine ⟨es, x, out, hes, h1, fun hl => ?_, ho⟩
  obtain ⟨y, e1, e2, -, -, e3⟩ := C35_sum_rule (junk := 0) (beta := 10) (egs := 0) (n := 2) (pos := 1) (by decide) (by decide) hes.toCompleteEspace
  obtain rfl : x = y := Except.ok.inj (h1.symm.trans e1)
  rw [hl] at e2
  rw [List.length_eq_zero_iff.mp e2.symm] at e3
  simp at e3

end
end Edpyt
