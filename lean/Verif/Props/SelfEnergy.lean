import Verif.Proof.LocalDyson
import Verif.Props.Dmft
/-!
C107: the self-energy of the impurity object is the local self-energy of the impurity problem it solves.
C108: it vanishes without interaction.
-/
namespace Edpyt
open Matrix Spec

/-- Only the site `i0` interacts. -/
structure HamArgs.ImpurityOnly (a : HamArgs) (i0 : Fin a.n) : Prop where
  U : ∀ i j, i < a.n → j < a.n → ¬(i = i0 ∧ j = i0) → a.V.U.getD 0 i j = 0
  Jx : a.V.Jx = none
  Jp : a.V.Jp = none

theorem eigenEspace_exists {a : HamArgs} (ha : a.Valid) : ∃ es, EigenEspace a.n a.ham es := by
  obtain ⟨l, hl, hlb⟩ := C25_default_neig a.n
  obtain ⟨⟨⟨es, e0⟩, h⟩, -⟩ := C25_build_espace_partial ha (w := 64) (by have := ha.le; omega) l hlb
  have h' : BuildEspace 64 a none (.ok (es, e0)) := by
    simp only [BuildEspace, hl]
    simpa only [BuildEspace, neigOrDefault] using h
  exact ⟨es, buildEspace_eigen ha (by have := ha.le; omega) h'⟩

/-- The interaction term of the only interacting site. -/
noncomputable def HamArgs.impW (a : HamArgs) (i0 : Fin a.n) : Matrix (Finset (Fin (a.n + a.n))) (Finset (Fin (a.n + a.n))) ℝ :=
  a.V.U.getD 0 i0 i0 • ((num ℝ (orb false i0) - (if a.hf then 1 / 2 else 0 : ℝ) • 1) * (num ℝ (orb true i0) - (if a.hf then 1 / 2 else 0 : ℝ) • 1))

theorem HamArgs.ImpurityOnly.ham {a : HamArgs} {i0 : Fin a.n} (h : a.ImpurityOnly i0) :
    a.ham = kinetic (fun s i j => a.oneBody s i j) + a.impW i0 := by
  unfold HamArgs.ham hubbard
  have h1 : onsiteU a.hf (fun i j : Fin a.n => a.V.U.getD 0 i j) = a.impW i0 := by
    unfold onsiteU HamArgs.impW
    rw [Finset.sum_eq_single i0]
    · intro i _ hi
      simp only [h.U _ _ i.2 i.2 (fun hh => hi (Fin.ext hh.1)), zero_smul]
    · simp
  have h2 : ∀ z, interSite z (fun i j : Fin a.n => a.V.U.getD 0 i j) = 0 := by
    intro z
    unfold interSite
    rw [Finset.sum_eq_zero fun i _ => Finset.sum_eq_zero fun j _ => ?_, smul_zero]
    split_ifs with hij
    · simp only [h.U _ _ i.2 j.2 (fun hh => hij (Fin.ext (hh.1.trans hh.2.symm))), zero_smul]
    · rw [zero_smul]
  have h3 : codeExchange (n := a.n) a.V.Jx a.V.Jp = 0 := by
    have : ∀ i j : Fin a.n, offdiag (n := a.n) (optMat (K := ℝ) none) i j = 0 := by
      intro i j; simp [offdiag, optMat]
    unfold codeExchange exchangeSame exchangeFlip pairHopping
    rw [h.Jx, h.Jp]
    simp [this]
  rw [h1, h2, h3]
  simp only [add_zero]
  rfl

theorem HamArgs.impW_comm (a : HamArgs) (i0 : Fin a.n) (s : Bool) (k : Fin a.n) (hk : k ≠ i0) :
    ann ℝ (orb s k) * a.impW i0 = a.impW i0 * ann ℝ (orb s k) ∧ cre ℝ (orb s k) * a.impW i0 = a.impW i0 * cre ℝ (orb s k) := by
  have hn : ∀ s' : Bool, Commute (ann ℝ (orb s k)) (num ℝ (orb s' i0)) := by
    intro s'
    have := ann_comm_num (R := ℝ) (orb s k) (orb s' i0)
    rw [if_neg (by rw [orb_inj]; exact fun hh => hk hh.2), sub_eq_zero] at this
    exact this
  have hc : ∀ (s' : Bool) (c : ℝ), Commute (ann ℝ (orb s k)) (num ℝ (orb s' i0) - c • 1) := fun s' c =>
    (hn s').sub_right ((Commute.one_right _).smul_right c)
  have h1 : Commute (ann ℝ (orb s k)) (a.impW i0) := ((hc _ _).mul_right (hc _ _)).smul_right _
  refine ⟨h1, ?_⟩
  have hnT : ∀ i : Fin (a.n + a.n), (num ℝ i)ᵀ = num ℝ i := by
    intro i
    unfold num
    rw [Matrix.transpose_mul]
    rfl
  have hd : ∀ (s' : Bool) (c : ℝ), (num ℝ (orb s' i0) - c • (1 : Matrix (Finset (Fin (a.n + a.n))) (Finset (Fin (a.n + a.n))) ℝ))ᵀ = num ℝ (orb s' i0) - c • 1 := by
    intro s' c
    rw [Matrix.transpose_sub, Matrix.transpose_smul, Matrix.transpose_one, hnT]
  have hcc : ∀ (s' : Bool) (c : ℝ), Commute (cre ℝ (orb s k)) (num ℝ (orb s' i0) - c • 1) := by
    intro s' c
    have := congrArg Matrix.transpose (hc s' c).eq
    rw [Matrix.transpose_mul, Matrix.transpose_mul, hd] at this
    exact this.symm
  exact ((hcc _ _).mul_right (hcc _ _)).smul_right _

variable {junk : ℕ} {es : Espace (ℕ × ℕ)} {egs beta : ℝ}

/-- Dyson's equation for the thermal Green functions of a Hamiltonian with one interacting site. -/
theorem HamArgs.ImpurityOnly.dyson {a : HamArgs} (ha : a.Valid) {i0 : Fin a.n} (h : a.ImpurityOnly i0) (hes : EigenEspace a.n a.ham es) (s : Bool) {z : ℂ} (hz : z.im ≠ 0)
    {G : Matrix (Fin a.n) (Fin a.n) ℂ} (hG : ∀ i j, IsGreen beta a.ham (ann ℝ (orb s i)) (cre ℝ (orb s j)) z (G i j)) :
    LocalDyson (a.oneBody s) i0 z ((resolvent z (a.oneBody s) i0 i0)⁻¹ - (G i0 i0)⁻¹) G := by
  have hb := hes.basis
  rw [h.ham] at hb
  refine local_dyson (fun s i j => a.oneBody s i j) (a.impW i0) s i0 (fun k hk => (a.impW_comm i0 s k hk).1) (fun k hk => (a.impW_comm i0 s k hk).2) hb
    (HamArgs.oneBody_symm ha s) beta hz (fun i j => ?_)
  rw [← h.ham]; exact hG i j

/-- **C107** If only the site `i0` interacts, the matrix Green function that `build_gf2_exact` returns solves Dyson's equation of the one-body matrix with
a self-energy on that site only, namely the difference of the inverse impurity elements without and with interaction. For every temperature and both spins. -/
theorem C107_gf2_exact {a : HamArgs} (ha : a.Valid) {i0 : Fin a.n} (h : a.ImpurityOnly i0) (hes : EigenEspace a.n a.ham es) (s : Bool) :
    ∃ G, buildGf2Exact junk a.n es beta egs s = .ok G ∧ ∀ e eta : ℝ, eta ≠ 0 →
      LocalDyson (a.oneBody s) i0 (e + Complex.I * eta) ((resolvent (e + Complex.I * eta) (a.oneBody s) i0 i0)⁻¹ - ((G i0 i0).call e eta)⁻¹)
        (Matrix.of fun i j : Fin a.n => (G i j).call e eta) := by
  obtain ⟨G, h1, h2⟩ := C93_gf2_exact (junk := junk) (beta := beta) (egs := egs) ha.le hes s
  refine ⟨G, h1, fun e eta he => ?_⟩
  exact h.dyson ha hes s (by simpa using he) (G := Matrix.of fun i j : Fin a.n => (G i j).call e eta) fun i j => (h2 i j e eta he _).mpr rfl

/-- The arguments of `build_espace` and `build_gf_lanczos` in `Gfimp.solve`, `edpyt/dmft.py:154-165`: `H`, the array `V` with `V[0, 0] = U` (`dmft.py:85-86`)
and the default global parameters. -/
def Imp.args (n : ℕ) (s : Imp) (U : ℝ) : HamArgs := ⟨n, fun _ => s.H, .array fun i j => if i = 0 ∧ j = 0 then U else 0, none, false, 0⟩

/-- The impurity object after a history of calls that ends with a `fit` and some `update`s. -/
def impAfter (nb : ℕ) (ek0 vk0 : ℕ → ℝ) (hist : List ImpOp) (ek vk : ℕ → ℝ) (mus : List ℝ) : Imp :=
  Imp.run (nb + 1) (Imp.init ek0 vk0) (hist ++ .fit ek vk :: mus.map ImpOp.update)

theorem siam_symm {nb : ℕ} (e0 : ℝ) (e v : Fin nb → ℝ) : (siam e0 e v).IsSymm := by
  ext i j
  rw [Matrix.transpose_apply]
  unfold siam
  rw [Matrix.of_apply, Matrix.of_apply]
  refine Fin.cases ?_ (fun k => ?_) i <;> refine Fin.cases ?_ (fun l => ?_) j <;> simp [eq_comm]
  split_ifs with hkl
  · rw [hkl]
  · rfl

variable (nb : ℕ) (ek0 vk0 : ℕ → ℝ) (hist : List ImpOp) (ek vk : ℕ → ℝ) (mus : List ℝ)

theorem impAfter_valid (h1 : 1 ≤ nb) (h2 : nb ≤ 31) (U : ℝ) : ((impAfter nb ek0 vk0 hist ek vk mus).args (nb + 1) U).Valid := by
  refine ⟨by simp only [Imp.args]; omega, by simp only [Imp.args]; omega, rfl, ?_, by simp [Imp.args, VArg.array], by simp [Imp.args, VArg.array], by simp [Imp.args, VArg.array]⟩
  intro s i j hi hj
  simp only [Imp.args] at hi hj ⊢
  have := siam_symm ((impAfter nb ek0 vk0 hist ek vk mus).H 0 0) (fun k : Fin nb => ek k) (fun k : Fin nb => vk k)
  have h3 : toMat nb (impAfter nb ek0 vk0 hist ek vk mus).H = siam ((impAfter nb ek0 vk0 hist ek vk mus).H 0 0) (fun k : Fin nb => ek k) (fun k : Fin nb => vk k) :=
    (C48_hamiltonian nb ek0 vk0 hist ek vk mus).1
  rw [← h3] at this
  have := this.apply ⟨i, hi⟩ ⟨j, hj⟩
  exact this.symm

theorem impAfter_only (U : ℝ) : ((impAfter nb ek0 vk0 hist ek vk mus).args (nb + 1) U).ImpurityOnly (0 : Fin (nb + 1)) := by
  refine ⟨fun i j _ _ h => ?_, rfl, rfl⟩
  simp only [Imp.args, VArg.array, Option.getD_some]
  rw [if_neg (by simpa using h)]

/-- The couplings that `build_mb_ham` keeps. -/
noncomputable def keptCouplings (vk : ℕ → ℝ) (k : ℕ) : ℝ := if |vk k| > 1 / 10 ^ 7 then vk k else 0

/-- The couplings that it drops. -/
noncomputable def droppedCouplings (vk : ℕ → ℝ) (k : ℕ) : ℝ := if |vk k| > 1 / 10 ^ 7 then 0 else vk k

theorem hybridisation_split (vk : ℕ → ℝ) (z : ℂ) :
    hybridisation (fun k : Fin nb => ek k) (fun k : Fin nb => vk k) z =
      hybridisation (fun k : Fin nb => ek k) (fun k : Fin nb => keptCouplings vk k) z + hybridisation (fun k : Fin nb => ek k) (fun k : Fin nb => droppedCouplings vk k) z := by
  unfold hybridisation
  rw [← Finset.sum_add_distrib]
  refine Finset.sum_congr rfl fun k _ => ?_
  simp only [keptCouplings, droppedCouplings]
  split_ifs <;> simp

/-- The one-body matrix of the many-body Hamiltonian. -/
theorem impAfter_oneBody (U : ℝ) (s : Bool) :
    (((impAfter nb ek0 vk0 hist ek vk mus).args (nb + 1) U).oneBody s : Matrix (Fin (nb + 1)) (Fin (nb + 1)) ℝ) =
      siam ((impAfter nb ek0 vk0 hist ek vk mus).H 0 0) (fun k : Fin nb => ek k) (fun k : Fin nb => keptCouplings vk k) := by
  have h3 : toMat nb (impAfter nb ek0 vk0 hist ek vk mus).H = siam ((impAfter nb ek0 vk0 hist ek vk mus).H 0 0) (fun k : Fin nb => ek k) (fun k : Fin nb => vk k) :=
    (C48_hamiltonian nb ek0 vk0 hist ek vk mus).1
  have key : ∀ i j : Fin (nb + 1), kept (n := nb + 1) (0 : ℝ) (impAfter nb ek0 vk0 hist ek vk mus).H i j =
      siam ((impAfter nb ek0 vk0 hist ek vk mus).H 0 0) (fun k : Fin nb => ek k) (fun k : Fin nb => keptCouplings vk k) i j := by
    intro i j
    rw [kept_apply]
    have e : ∀ i j : Fin (nb + 1), (impAfter nb ek0 vk0 hist ek vk mus).H i j = toMat nb (impAfter nb ek0 vk0 hist ek vk mus).H i j := fun _ _ => rfl
    rw [e, e, h3]
    unfold siam
    simp only [Matrix.of_apply]
    refine Fin.cases ?_ (fun k => ?_) i <;> refine Fin.cases ?_ (fun l => ?_) j
    · simp
    · rw [if_neg (Fin.succ_ne_zero l).symm]
      simp [keptCouplings]
    · rw [if_neg (Fin.succ_ne_zero k)]
      simp [keptCouplings]
    · by_cases hkl : k = l
      · simp [hkl]
      · simp [hkl]
  exact funext fun i => funext fun j => key i j

theorem impAfter_freeInv (z : ℂ) : (impAfter nb ek0 vk0 hist ek vk mus).freeInv (nb + 1) z =
    z - (impAfter nb ek0 vk0 hist ek vk mus).H 0 0 - hybridisation (fun k : Fin nb => ek k) (fun k : Fin nb => vk k) z := by
  obtain ⟨h1, h2, h3, _⟩ := C48_hamiltonian nb ek0 vk0 hist ek vk mus
  unfold Imp.freeInv
  have h2' : (impAfter nb ek0 vk0 hist ek vk mus).ek = ek := h2
  have h3' : (impAfter nb ek0 vk0 hist ek vk mus).vk = vk := h3
  rw [h2', h3', Nat.add_sub_cancel, deltaEval_eq]

/-- **C107** `Gfimp.Sigma`, for every fitted bath: the object's self-energy plus the hybridisation of the couplings below the cut `1e-7` of `build_mb_ham` is the
local self-energy of the impurity problem without these couplings. -/
theorem C107_impurity_cut (hn : 1 ≤ nb) (hn' : nb ≤ 31) (U : ℝ) (sp : Bool) {z : ℂ} (hz : z.im ≠ 0) {gf : ℂ → ℂ}
    {G : Matrix (Fin (nb + 1)) (Fin (nb + 1)) ℂ}
    (hG : ∀ i j, IsGreen (ι := Finset (Fin (nb + 1 + (nb + 1)))) beta ((impAfter nb ek0 vk0 hist ek vk mus).args (nb + 1) U).ham (ann ℝ (orb sp i)) (cre ℝ (orb sp j)) z (G i j))
    (hgf : gf z = G 0 0) :
    LocalDyson (siam ((impAfter nb ek0 vk0 hist ek vk mus).H 0 0) (fun k : Fin nb => ek k) (fun k : Fin nb => keptCouplings vk k)) 0 z
      ((impAfter nb ek0 vk0 hist ek vk mus).sigma (nb + 1) gf z + hybridisation (fun k : Fin nb => ek k) (fun k : Fin nb => droppedCouplings vk k) z) G := by
  have ha := impAfter_valid nb ek0 vk0 hist ek vk mus hn hn' U
  obtain ⟨es, hes⟩ := eigenEspace_exists ha
  have h := (impAfter_only nb ek0 vk0 hist ek vk mus U).dyson ha hes sp hz (beta := beta) (G := G) hG
  rw [impAfter_oneBody nb ek0 vk0 hist ek vk mus U sp] at h
  have hnr := siam_nonreal ((impAfter nb ek0 vk0 hist ek vk mus).H 0 0) (fun k : Fin nb => ek k) (fun k : Fin nb => keptCouplings vk k) hz
  have h4 := siam_green hnr.1 hnr.2
  unfold impurityGreen at h4
  have h5 : (impAfter nb ek0 vk0 hist ek vk mus).sigma (nb + 1) gf z + hybridisation (fun k : Fin nb => ek k) (fun k : Fin nb => droppedCouplings vk k) z =
      (Spec.resolvent z (siam ((impAfter nb ek0 vk0 hist ek vk mus).H 0 0) (fun k : Fin nb => ek k) (fun k : Fin nb => keptCouplings vk k)) 0 0)⁻¹ - (G 0 0)⁻¹ := by
    rw [← hgf, h4, inv_inv]
    unfold Imp.sigma
    rw [impAfter_freeInv, hybridisation_split]
    ring
  rw [h5]
  exact h

theorem kept_of_large {vk : ℕ → ℝ} (hv : ∀ k < nb, vk k = 0 ∨ 1 / 10 ^ 7 < |vk k|) :
    (fun k : Fin nb => keptCouplings vk k) = (fun k : Fin nb => vk k) ∧ (fun k : Fin nb => droppedCouplings vk k) = fun _ => 0 := by
  constructor
  · funext k
    unfold keptCouplings
    rcases hv k k.2 with h | h
    · rw [h]; simp
    · rw [if_pos h]
  · funext k
    unfold droppedCouplings
    rcases hv k k.2 with h | h
    · rw [h]; simp
    · rw [if_pos h]

theorem hybridisation_zero (e : Fin nb → ℝ) (z : ℂ) : hybridisation e (fun _ => 0) z = 0 := by
  unfold hybridisation
  simp

/-- **C107** `Gfimp.Sigma`: whatever calls came before, once a bath has been fitted (couplings zero or above the cut `1e-7`) the self-energy that the object
computes from the exact Green function `gf` of the impurity site solves Dyson's equation of the fitted impurity problem, as a self-energy on the impurity
alone, together with the full matrix of Green functions of the problem. -/
theorem C107_impurity (hn : 1 ≤ nb) (hn' : nb ≤ 31) (U : ℝ) (hv : ∀ k < nb, vk k = 0 ∨ 1 / 10 ^ 7 < |vk k|) (sp : Bool) {z : ℂ} (hz : z.im ≠ 0) {gf : ℂ → ℂ}
    {G : Matrix (Fin (nb + 1)) (Fin (nb + 1)) ℂ}
    (hG : ∀ i j, IsGreen (ι := Finset (Fin (nb + 1 + (nb + 1)))) beta ((impAfter nb ek0 vk0 hist ek vk mus).args (nb + 1) U).ham (ann ℝ (orb sp i)) (cre ℝ (orb sp j)) z (G i j))
    (hgf : gf z = G 0 0) :
    LocalDyson (siam ((impAfter nb ek0 vk0 hist ek vk mus).H 0 0) (fun k : Fin nb => ek k) (fun k : Fin nb => vk k)) 0 z
      ((impAfter nb ek0 vk0 hist ek vk mus).sigma (nb + 1) gf z) G := by
  have h := C107_impurity_cut nb ek0 vk0 hist ek vk mus hn hn' U sp hz hG hgf
  obtain ⟨h1, h2⟩ := kept_of_large nb hv
  rwa [h1, h2, hybridisation_zero, add_zero] at h

/-- **C107** the same with the Green functions that the code computes: `build_gf_exact` for the impurity, `build_gf2_exact` for the matrix. -/
theorem C107_impurity_exact (hn : 1 ≤ nb) (hn' : nb ≤ 31) (U : ℝ) (hv : ∀ k < nb, vk k = 0 ∨ 1 / 10 ^ 7 < |vk k|)
    (hes : EigenEspace (nb + 1) ((impAfter nb ek0 vk0 hist ek vk mus).args (nb + 1) U).ham es) :
    ∃ g G, buildGfExact junk (nb + 1) es beta egs 0 false = .ok g ∧ buildGf2Exact junk (nb + 1) es beta egs false = .ok G ∧
      ∀ z : ℂ, z.im ≠ 0 → LocalDyson (siam ((impAfter nb ek0 vk0 hist ek vk mus).H 0 0) (fun k : Fin nb => ek k) (fun k : Fin nb => vk k)) 0 z
        ((impAfter nb ek0 vk0 hist ek vk mus).sigma (nb + 1) (fun z => g.call z.re z.im) z) (Matrix.of fun i j : Fin (nb + 1) => (G i j).call z.re z.im) := by
  obtain ⟨g, hg1, hg2⟩ := C92_gf_exact (junk := junk) (beta := beta) (egs := egs) (by omega) hes (Nat.succ_pos nb)
  obtain ⟨G, h1, h2⟩ := C93_gf2_exact (junk := junk) (beta := beta) (egs := egs) (by omega) hes false
  refine ⟨g, G, hg1, h1, fun z hz => ?_⟩
  have ez : z = (z.re : ℂ) + Complex.I * (z.im : ℂ) := by rw [mul_comm]; exact (Complex.re_add_im z).symm
  have hG : ∀ i j : Fin (nb + 1), IsGreen (ι := Finset (Fin (nb + 1 + (nb + 1)))) beta ((impAfter nb ek0 vk0 hist ek vk mus).args (nb + 1) U).ham (ann ℝ (orb false i)) (cre ℝ (orb false j)) z
      ((Matrix.of fun i j : Fin (nb + 1) => (G i j).call z.re z.im) i j) := by
    intro i j
    have := (h2 i j z.re z.im hz _).mpr rfl
    rw [← ez] at this
    exact this
  refine C107_impurity nb ek0 vk0 hist ek vk mus hn hn' U hv false hz hG ?_
  have := (hg2 z.re z.im hz ((Matrix.of fun i j : Fin (nb + 1) => (G i j).call z.re z.im) 0 0)).mp
  rw [← ez] at this
  exact (this (hG 0 0)).symm

/-- **C107** with the Green function of `build_gf_lanczos`, as in `Gfimp.solve` with the complete espace: the self-energy deviates from the exact one by at most
`δ/(|G| (|G| - δ))` if the Green function `G` is larger than its error bound `δ`. -/
theorem C107_impurity_lanczos {g : GfLArgs} (jk : ℝ) (hn : 1 ≤ nb) (hn' : nb ≤ 31) (U : ℝ) (hg : g.ham = (impAfter nb ek0 vk0 hist ek vk mus).args (nb + 1) U)
    (hw : nb + 1 ≤ g.w) (hc : g.cfg.Ok) (hes : EigenEspace (nb + 1) ((impAfter nb ek0 vk0 hist ek vk mus).args (nb + 1) U).ham es)
    {out : GfLOut} (hr : BuildGfLanczos g 0 false es (.ok out)) {z : ℂ} (hz : z.im ≠ 0) (ε : ℝ) (h0 : 0 ≤ ε) (hε : ∀ run ∈ out.log, run.ResLe ε) {γ : ℂ}
    (hγ : IsGreen (ι := Finset (Fin (nb + 1 + (nb + 1)))) g.beta ((impAfter nb ek0 vk0 hist ek vk mus).args (nb + 1) U).ham (ann ℝ (orb g.ispin (0 : Fin (nb + 1)))) (cre ℝ (orb g.ispin (0 : Fin (nb + 1)))) z γ)
    (hδ : ε / z.im ^ 2 + 2 * (g.cfg.delta ^ 2 / |z.im|) < ‖γ‖) :
    ‖(impAfter nb ek0 vk0 hist ek vk mus).sigma (nb + 1) (fun z => out.gfe.call jk z.re z.im) z - (impAfter nb ek0 vk0 hist ek vk mus).sigma (nb + 1) (fun _ => γ) z‖ ≤
      (ε / z.im ^ 2 + 2 * (g.cfg.delta ^ 2 / |z.im|)) / (‖γ‖ * (‖γ‖ - (ε / z.im ^ 2 + 2 * (g.cfg.delta ^ 2 / |z.im|)))) := by
  obtain ⟨cfg, rep, w, junk, ham, beta, egs, ispin⟩ := g
  simp only at hg
  subst hg
  have ez : z = (z.re : ℂ) + Complex.I * (z.im : ℂ) := by rw [mul_comm]; exact (Complex.re_add_im z).symm
  have ha := impAfter_valid nb ek0 vk0 hist ek vk mus hn hn' U
  obtain ⟨out', e1, -, -, -, h⟩ := (C98_gf_lanczos (g := ⟨cfg, rep, w, junk, (impAfter nb ek0 vk0 hist ek vk mus).args (nb + 1) U, beta, egs, ispin⟩) jk ha hw hc
    (pos := 0) (Nat.succ_pos nb) hes false).2 _ hr
  injection e1 with e1; subst e1
  have him : ((z.re : ℂ) + Complex.I * (z.im : ℂ)).im ≠ 0 := by rw [← ez]; exact hz
  obtain ⟨ge, gh, hp⟩ := greenParts_exist hes beta (ann ℝ (orb ispin (0 : Fin (nb + 1)))) (cre ℝ (orb ispin (0 : Fin (nb + 1)))) him
  have hd := h z.re z.im ε hz h0 hε ge gh hp
  rw [if_neg (by simp)] at hd
  have hγ' : ge + gh = γ := by
    rw [ez] at hγ
    rw [(hes.basis.green beta _ _ him _).mp hγ, ← (hes.basis.green beta _ _ him _).mp (IsGreenParts.isGreen hp)]
  rw [hγ'] at hd
  simp only [Imp.sigma]
  set δ := ε / z.im ^ 2 + 2 * (cfg.delta ^ 2 / |z.im|) with hδ'
  set γ' := out.gfe.call jk z.re z.im
  have hδ0 : 0 ≤ δ := le_trans (norm_nonneg _) hd
  have hγ0 : 0 < ‖γ‖ := lt_of_le_of_lt hδ0 hδ
  have hγ1 : ‖γ‖ - δ ≤ ‖γ'‖ := by
    have := norm_sub_norm_le γ γ'
    rw [norm_sub_rev] at this
    linarith
  have hγ2 : 0 < ‖γ'‖ := by linarith
  have hne : γ ≠ 0 := norm_pos_iff.mp hγ0
  have hne' : γ' ≠ 0 := norm_pos_iff.mp hγ2
  have e2 : (impAfter nb ek0 vk0 hist ek vk mus).freeInv (nb + 1) z - γ'⁻¹ - ((impAfter nb ek0 vk0 hist ek vk mus).freeInv (nb + 1) z - γ⁻¹) = (γ' - γ) / (γ * γ') := by
    field_simp
    ring
  rw [e2, norm_div, norm_mul]
  refine div_le_div₀ hδ0 hd (mul_pos hγ0 (by linarith)) ?_
  exact mul_le_mul_of_nonneg_left hγ1 hγ0.le

/-! ### C108 -/

theorem impAfter_free : ((impAfter nb ek0 vk0 hist ek vk mus).args (nb + 1) 0).Free := by
  refine ⟨fun i j _ _ => ?_, rfl, rfl⟩
  simp only [Imp.args, VArg.array, Option.getD_some, ite_self]

/-- **C108** without interaction the self-energy that the object computes from the exact Green function is minus the hybridisation of the couplings that are not
larger than `1e-7`, whatever the bath, the history, the temperature and the spin. -/
theorem C108_dropped (hn : 1 ≤ nb) (hn' : nb ≤ 31) (sp : Bool) {z : ℂ} (hz : z.im ≠ 0) {gf : ℂ → ℂ}
    (hG : IsGreen (ι := Finset (Fin (nb + 1 + (nb + 1)))) beta ((impAfter nb ek0 vk0 hist ek vk mus).args (nb + 1) 0).ham (ann ℝ (orb sp (0 : Fin (nb + 1)))) (cre ℝ (orb sp (0 : Fin (nb + 1)))) z (gf z)) :
    (impAfter nb ek0 vk0 hist ek vk mus).sigma (nb + 1) gf z = -hybridisation (fun k : Fin nb => ek k) (fun k : Fin nb => droppedCouplings vk k) z := by
  have ha := impAfter_valid nb ek0 vk0 hist ek vk mus hn hn' 0
  obtain ⟨es, hes⟩ := eigenEspace_exists ha
  have hb := hes.basis
  have hb' := hb
  have hres : IsGreen (ι := Finset (Fin (nb + 1 + (nb + 1)))) beta ((impAfter nb ek0 vk0 hist ek vk mus).args (nb + 1) 0).ham (ann ℝ (orb sp (0 : Fin (nb + 1)))) (cre ℝ (orb sp (0 : Fin (nb + 1)))) z
      (Spec.resolvent (ι := Fin (nb + 1)) z (((impAfter nb ek0 vk0 hist ek vk mus).args (nb + 1) 0).oneBody sp) 0 0) := by
    rw [(impAfter_free nb ek0 vk0 hist ek vk mus).ham] at hb' ⊢
    exact free_green _ hb' beta sp (0 : Fin (nb + 1)) (0 : Fin (nb + 1)) (resolvent_mul (HamArgs.oneBody_symm ha sp) hz)
  have e1 : gf z = Spec.resolvent (ι := Fin (nb + 1)) z (((impAfter nb ek0 vk0 hist ek vk mus).args (nb + 1) 0).oneBody sp) 0 0 := by
    rw [(hb.green beta _ _ hz _).mp hG, ← (hb.green beta _ _ hz _).mp hres]
  rw [impAfter_oneBody nb ek0 vk0 hist ek vk mus 0 sp] at e1
  have hnr := siam_nonreal ((impAfter nb ek0 vk0 hist ek vk mus).H 0 0) (fun k : Fin nb => ek k) (fun k : Fin nb => keptCouplings vk k) hz
  have h4 := siam_green hnr.1 hnr.2
  unfold impurityGreen at h4
  rw [h4] at e1
  unfold Imp.sigma
  rw [e1, inv_inv, impAfter_freeInv, hybridisation_split]
  ring

/-- **C108** (partial) the self-energy without interaction is zero if every fitted coupling is zero or above `1e-7`. Missing: baths with small couplings. -/
theorem C108_zero_partial (hn : 1 ≤ nb) (hn' : nb ≤ 31) (hv : ∀ k < nb, vk k = 0 ∨ 1 / 10 ^ 7 < |vk k|) (sp : Bool) {z : ℂ} (hz : z.im ≠ 0) {gf : ℂ → ℂ}
    (hG : IsGreen (ι := Finset (Fin (nb + 1 + (nb + 1)))) beta ((impAfter nb ek0 vk0 hist ek vk mus).args (nb + 1) 0).ham (ann ℝ (orb sp (0 : Fin (nb + 1)))) (cre ℝ (orb sp (0 : Fin (nb + 1)))) z (gf z)) :
    (impAfter nb ek0 vk0 hist ek vk mus).sigma (nb + 1) gf z = 0 := by
  rw [C108_dropped nb ek0 vk0 hist ek vk mus hn hn' sp hz hG, (kept_of_large nb hv).2, hybridisation_zero, neg_zero]

/-- **C108** (partial) for every bath it is at most `1e-14` per level, divided by the distance to the real axis. -/
theorem C108_bound_partial (hn : 1 ≤ nb) (hn' : nb ≤ 31) (sp : Bool) {z : ℂ} (hz : z.im ≠ 0) {gf : ℂ → ℂ}
    (hG : IsGreen (ι := Finset (Fin (nb + 1 + (nb + 1)))) beta ((impAfter nb ek0 vk0 hist ek vk mus).args (nb + 1) 0).ham (ann ℝ (orb sp (0 : Fin (nb + 1)))) (cre ℝ (orb sp (0 : Fin (nb + 1)))) z (gf z)) :
    ‖(impAfter nb ek0 vk0 hist ek vk mus).sigma (nb + 1) gf z‖ ≤ nb * (1 / 10 ^ 14) / |z.im| := by
  rw [C108_dropped nb ek0 vk0 hist ek vk mus hn hn' sp hz hG, norm_neg]
  unfold hybridisation
  refine (norm_sum_le _ _).trans ?_
  have : ∀ k : Fin nb, ‖((droppedCouplings vk k : ℝ) : ℂ) ^ 2 / (z - (ek k : ℂ))‖ ≤ (1 / 10 ^ 14) / |z.im| := by
    intro k
    rw [norm_div, norm_pow, Complex.norm_real, Real.norm_eq_abs]
    have h1 : |droppedCouplings vk k| ≤ 1 / 10 ^ 7 := by
      unfold droppedCouplings
      split_ifs with h
      · simp
      · exact not_lt.mp h
    have h2 : |z.im| ≤ ‖z - (ek k : ℂ)‖ := by
      have := Complex.abs_im_le_norm (z - (ek k : ℂ))
      simpa using this
    refine div_le_div₀ (by positivity) ?_ (abs_pos.mpr hz) h2
    calc |droppedCouplings vk k| ^ 2 ≤ (1 / 10 ^ 7) ^ 2 := pow_le_pow_left₀ (abs_nonneg _) h1 2
      _ = 1 / 10 ^ 14 := by norm_num
  refine (Finset.sum_le_sum fun k _ => this k).trans ?_
  rw [Finset.sum_const, Finset.card_univ, Fintype.card_fin, nsmul_eq_mul, mul_div_assoc]

/-- **C108** (refuted) a bath with one level at zero and the coupling `1e-8`: the self-energy is `-1e-16/z` at `U = 0`, at every temperature. -/
theorem C108_refuted (β : ℝ) : ∃ gf : ℂ → ℂ,
    (∀ z : ℂ, z.im ≠ 0 → IsGreen (ι := Finset (Fin (1 + 1 + (1 + 1)))) β ((impAfter 1 (fun _ => 0) (fun _ => 0) [] (fun _ => 0) (fun _ => 1 / 10 ^ 8) [0]).args 2 0).ham
      (ann ℝ (orb false (0 : Fin (1 + 1)))) (cre ℝ (orb false (0 : Fin (1 + 1)))) z (gf z)) ∧
    (impAfter 1 (fun _ => 0) (fun _ => 0) [] (fun _ => 0) (fun _ => 1 / 10 ^ 8) [0]).sigma 2 gf Complex.I ≠ 0 := by
  have ha := impAfter_valid 1 (fun _ => 0) (fun _ => 0) [] (fun _ => 0) (fun _ => 1 / 10 ^ 8) [0] le_rfl (by norm_num) 0
  obtain ⟨es, hes⟩ := eigenEspace_exists ha
  obtain ⟨g, -, h⟩ := C92_gf_exact (junk := 0) (beta := β) (egs := 0) ha.le hes (pos := 0) (by exact Nat.succ_pos 1)
  have hG : ∀ z : ℂ, z.im ≠ 0 → IsGreen (ι := Finset (Fin (1 + 1 + (1 + 1)))) β ((impAfter 1 (fun _ => 0) (fun _ => 0) [] (fun _ => 0) (fun _ => 1 / 10 ^ 8) [0]).args 2 0).ham
      (ann ℝ (orb false (0 : Fin (1 + 1)))) (cre ℝ (orb false (0 : Fin (1 + 1)))) z (g.call z.re z.im) := by
    intro z hz
    have ez : z = (z.re : ℂ) + Complex.I * (z.im : ℂ) := by rw [mul_comm]; exact (Complex.re_add_im z).symm
    have := (h z.re z.im hz _).mpr rfl
    rw [← ez] at this
    exact this
  refine ⟨fun z => g.call z.re z.im, hG, ?_⟩
  rw [C108_dropped 1 (fun _ => 0) (fun _ => 0) [] (fun _ => 0) (fun _ => 1 / 10 ^ 8) [0] le_rfl (by norm_num) false (gf := fun z => g.call z.re z.im) (by simp) (hG Complex.I (by simp))]
  unfold hybridisation
  have : droppedCouplings (fun _ => 1 / 10 ^ 8) 0 = 1 / 10 ^ 8 := by
    unfold droppedCouplings
    rw [if_neg]
    rw [abs_of_pos (by norm_num)]; norm_num
  simp only [Fin.sum_univ_one, Fin.val_zero, this]
  simp

/-! ### Non-vacuity: one bath level, `U = 4`. -/

example : ∃ es g G, buildGfExact junk 2 es 1 0 0 false = .ok g ∧ buildGf2Exact junk 2 es 1 0 false = .ok G ∧
    LocalDyson (siam (-2) (fun _ : Fin 1 => 0) (fun _ : Fin 1 => 1)) 0 Complex.I
      ((impAfter 1 (fun _ => 0) (fun _ => 0) [.update 7, .fit (fun _ => 3) (fun _ => 3)] (fun _ => 0) (fun _ => 1) [1, 2]).sigma 2 (fun z => g.call z.re z.im) Complex.I)
      (Matrix.of fun i j : Fin 2 => (G i j).call 0 1) := by
  have ha := impAfter_valid 1 (fun _ => 0) (fun _ => 0) [.update 7, .fit (fun _ => 3) (fun _ => 3)] (fun _ => 0) (fun _ => 1) [1, 2] le_rfl (by norm_num) 4
  obtain ⟨es, hes⟩ := eigenEspace_exists ha
  obtain ⟨g, G, h1, h2, h3⟩ := C107_impurity_exact 1 (fun _ => 0) (fun _ => 0) [.update 7, .fit (fun _ => 3) (fun _ => 3)] (fun _ => 0) (fun _ => 1) [1, 2]
    (junk := junk) (beta := 1) (egs := 0) le_rfl (by norm_num) 4 (fun _ _ => by norm_num) hes
  refine ⟨es, g, G, h1, h2, ?_⟩
  have := h3 Complex.I (by simp)
  have e : (impAfter 1 (fun _ => 0) (fun _ => 0) [.update 7, .fit (fun _ => 3) (fun _ => 3)] (fun _ => 0) (fun _ => 1) [1, 2]).H 0 0 = -2 := by
    simp [impAfter, Imp.run, Imp.step]
  rw [e] at this
  simpa using this

end Edpyt
