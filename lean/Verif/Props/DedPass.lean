import Verif.Spec.PlainHam
import Verif.Model.DedPass
import Verif.Props.Ded
import Verif.Props.DedSolve
import Verif.Props.Moam
import Verif.Props.ImpSolve
import Verif.Props.SelfCausal
import Verif.Props.LevelSymm
/-!
# C133: the samples of `siam_solve` are self-energies
-/
namespace Edpyt
open Spec Matrix

variable {w junk nb : ℕ} {U sigma0 beta : ℝ} {H V : ℕ → ℕ → ℝ}

/-- Only the first element of `V` is not zero. -/
def CornerOnly (V : ℕ → ℕ → ℝ) : Prop := ∀ i j, (i, j) ≠ (0, 0) → V i j = 0

theorem siamArgs_valid {e0 : ℝ} {e v : Fin nb → ℝ} (hn : 1 ≤ nb) (hn' : nb ≤ 31) (hH : toMat nb H = siam e0 e v) : (siamArgs (nb + 1) H V).Valid := by
  refine ⟨by simp only [siamArgs]; omega, by simp only [siamArgs]; omega, rfl, ?_, by simp [siamArgs, VArg.array], by simp [siamArgs, VArg.array], by simp [siamArgs, VArg.array]⟩
  intro s i j hi hj
  simp only [siamArgs] at hi hj ⊢
  have := siam_symm e0 e v
  rw [← hH] at this
  exact (this.apply ⟨i, hi⟩ ⟨j, hj⟩).symm

theorem siamArgs_only (hV : CornerOnly V) : (siamArgs (nb + 1) H V).ImpurityOnly (0 : Fin (nb + 1)) := by
  refine ⟨fun i j _ _ h => ?_, rfl, rfl⟩
  simp only [siamArgs, VArg.array, Option.getD_some]
  exact hV i j fun h' => h (by simpa using h')

theorem siamArgs_oneBody {e0 : ℝ} {ek vk : ℕ → ℝ} (hH : toMat nb H = siam e0 (fun k : Fin nb => ek k) (fun k : Fin nb => vk k)) (s : Bool) :
    ((siamArgs (nb + 1) H V).oneBody s : Matrix (Fin (nb + 1)) (Fin (nb + 1)) ℝ) = siam e0 (fun k : Fin nb => ek k) (fun k : Fin nb => keptCouplings vk k) := by
  have key : ∀ i j : Fin (nb + 1), kept (n := nb + 1) (0 : ℝ) H i j = siam e0 (fun k : Fin nb => ek k) (fun k : Fin nb => keptCouplings vk k) i j := by
    intro i j
    rw [kept_apply]
    have e : ∀ i j : Fin (nb + 1), H i j = toMat nb H i j := fun _ _ => rfl
    rw [e, e, hH]
    unfold siam
    simp only [Matrix.of_apply]
    refine Fin.cases ?_ (fun k => ?_) i <;> refine Fin.cases ?_ (fun l => ?_) j
    · simp
    · rw [if_neg (Fin.succ_ne_zero l).symm]
      simp [keptCouplings]
    · rw [if_neg (Fin.succ_ne_zero k)]
      simp [keptCouplings]
    · by_cases hkl : k = l
      · simp [hkl]
      · simp [hkl]
  exact funext fun i => funext fun j => key i j

/-- The local self-energy of the impurity Hamiltonian. -/
theorem siamArgs_dyson {e0 : ℝ} {ek vk : ℕ → ℝ} (hn : 1 ≤ nb) (hn' : nb ≤ 31) (hH : toMat nb H = siam e0 (fun k : Fin nb => ek k) (fun k : Fin nb => vk k)) (hV : CornerOnly V) {s : Bool} {z : ℂ}
    (hz : z.im ≠ 0) {G : Matrix (Fin (nb + 1)) (Fin (nb + 1)) ℂ}
    (hG : ∀ i j, IsGreen (ι := Finset (Fin (nb + 1 + (nb + 1)))) beta (siamArgs (nb + 1) H V).ham (ann ℝ (orb s i)) (cre ℝ (orb s j)) z (G i j)) :
    LocalDyson (siam e0 (fun k : Fin nb => ek k) (fun k : Fin nb => keptCouplings vk k)) 0 z
      ((z - e0 - hybridisation (fun k : Fin nb => ek k) (fun k : Fin nb => keptCouplings vk k) z) - (G 0 0)⁻¹) G := by
  have ha := siamArgs_valid (V := V) hn hn' hH
  obtain ⟨es, hes⟩ := eigenEspace_exists ha
  have h := (siamArgs_only (H := H) hV).dyson ha hes s hz (beta := beta) (G := G) hG
  rw [siamArgs_oneBody hH s] at h
  have hnr := siam_nonreal e0 (fun k : Fin nb => ek k) (fun k : Fin nb => keptCouplings vk k) hz
  have h4 := siam_green hnr.1 hnr.2
  unfold impurityGreen at h4
  have h5 : (z - e0 - hybridisation (fun k : Fin nb => ek k) (fun k : Fin nb => keptCouplings vk k) z) - (G 0 0)⁻¹ =
      (Spec.resolvent z (siam e0 (fun k : Fin nb => ek k) (fun k : Fin nb => keptCouplings vk k)) 0 0)⁻¹ - (G 0 0)⁻¹ := by rw [h4, inv_inv]
  rw [h5]
  exact h

/-! ### `build_siam` on the arrays that the previous pass left -/

theorem buildSiam_entries' {n : ℕ} {g : Gfimp} (hv : g.vk2.length = n) (he : g.ek.length = n) (hH : BathDiag (n + 1) H) :
    ∃ H', dedBuildSiam (n + 1) H V U g = .ok (H', setCorner V U) ∧
      toMat n H' = siam g.e0 (fun k : Fin n => g.ek[(k : ℕ)]?.getD 0) (fun k : Fin n => -Real.sqrt (g.vk2[(k : ℕ)]?.getD 0)) ∧ H' 0 0 = g.e0 := by
  have h00 : ¬ (g.vk2.length ≠ n + 1 - 1 ∨ g.ek.length ≠ n + 1 - 1) := by omega
  refine ⟨_, by rw [dedBuildSiam, if_neg h00]; rfl, ?_, by simp⟩
  ext i j
  simp only [toMat, siam, Matrix.of_apply]
  refine Fin.cases ?_ (fun k => ?_) i <;> refine Fin.cases ?_ (fun l => ?_) j
  · simp
  · have h1 := (flat_diag (m := n + 1) (i := 0) (j := l + 1) (by omega) (by omega)).1
    have h3 : ¬ ((0 * (n + 1) + ((l : ℕ) + 1)) % (n + 1 + 1) = 0) := by rw [h1]; omega
    have hk' : (l : ℕ) < g.vk2.length := by omega
    simp only [Fin.val_zero, Fin.val_succ, h3, and_false, if_false]
    simp [hk']
  · have h2 := (flat_diag (m := n + 1) (i := k + 1) (j := 0) (by omega) (by omega)).1
    have h4 : ¬ ((((k : ℕ) + 1) * (n + 1) + 0) % (n + 1 + 1) = 0) := by rw [h2]; omega
    have hk' : (k : ℕ) < g.vk2.length := by omega
    simp only [Fin.val_zero, Fin.val_succ, h4, and_false, if_false]
    simp [hk']
  · have h1 := flat_diag (m := n + 1) (i := k + 1) (j := l + 1) (by omega) (by omega)
    by_cases hkl : k = l
    · subst hkl
      have h2 : ((k : ℕ) + 1) * (n + 1) + (k + 1) ≥ n + 1 + 1 := by nlinarith
      have h3 := h1.1.mpr rfl
      have h4 := h1.2 rfl
      simp only [Fin.val_succ, h3, h4, h2, ge_iff_le.mp h2, and_self, if_true]
      simp
    · have hkl' : (k : ℕ) ≠ l := fun h => hkl (Fin.ext h)
      have h3 : ¬ ((((k : ℕ) + 1) * (n + 1) + (l + 1)) % (n + 1 + 1) = 0) := by rw [h1.1]; omega
      simp only [Fin.val_succ, h3, and_false, if_false]
      simp only [Nat.add_eq_zero_iff, one_ne_zero, and_false, false_and, if_false, Fin.cases_succ, hkl]
      exact hH _ _ (by omega) (by omega) (by omega) (by omega) (by omega)

/-! ### The selection of the ground state sector -/

/-- The sector found is a sector of the espace, its lowest energy is within `1e-7` of the ground state energy. -/
theorem firstGround_ok {es : Espace (ℕ × ℕ)} {E : ℝ} (hne : ∀ p ∈ es, p.2.eigvals ≠ []) (hs : ∀ p ∈ es, p.2.eigvals.Pairwise (· ≤ ·)) (hE : IsLeast {x | ∃ p ∈ es, x ∈ p.2.eigvals} E) :
    ∃ p ∈ es, firstGround E es = .ok p ∧ ∃ x l, p.2.eigvals = x :: l ∧ |x - E| < 1 / 10 ^ 7 := by
  obtain ⟨p0, hp0, hx0⟩ := hE.1
  have hw : ∃ p ∈ es, ∃ l, p.2.eigvals = E :: l := by
    refine ⟨p0, hp0, ?_⟩
    have h1 := hs p0 hp0
    have h2 := fun x hx => hE.2 (show x ∈ {x | ∃ p ∈ es, x ∈ p.2.eigvals} from ⟨p0, hp0, hx⟩)
    cases hl : p0.2.eigvals with
    | nil => rw [hl] at hx0; cases hx0
    | cons x l =>
      rw [hl] at hx0 h1 h2
      refine ⟨l, ?_⟩
      have h3 := h2 x (List.mem_cons_self)
      rcases List.mem_cons.mp hx0 with h4 | h4
      · rw [h4]
      · rw [le_antisymm (List.rel_of_pairwise_cons h1 h4) h3]
  clear hE hp0 hx0 p0 hs
  induction es with
  | nil => obtain ⟨p, hp, -⟩ := hw; cases hp
  | cons q t ih =>
    cases hq : q.2.eigvals with
    | nil => exact absurd hq (hne q List.mem_cons_self)
    | cons x l =>
      by_cases hx : |x - E| < 1 / 10 ^ 7
      · refine ⟨q, List.mem_cons_self, ?_, x, l, hq, hx⟩
        simp only [firstGround, hq, if_pos hx]
      · obtain ⟨p, hp, l', hl'⟩ := hw
        rcases List.mem_cons.mp hp with rfl | hp'
        · rw [hq] at hl'
          obtain ⟨rfl, -⟩ := List.cons.inj hl'
          rw [sub_self, abs_zero] at hx
          exact absurd (by positivity) hx
        · obtain ⟨p2, h1, h2, h3⟩ := ih (fun p hp => hne p (List.mem_cons_of_mem _ hp)) ⟨p, hp', l', hl'⟩
          refine ⟨p2, List.mem_cons_of_mem _ h1, ?_, h3⟩
          simp only [firstGround, hq, if_neg hx]
          exact h2

/-- What a run of `build_espace` gives to the rest of the pass. -/
theorem espace_ground {a : HamArgs} (ha : a.Valid) (hw : a.n ≤ w) {es : Espace (ℕ × ℕ)} {E0 : WithTop ℝ} (h : BuildEspace w a none (.ok (es, E0))) :
    ∃ p ∈ es, firstGround (E0.untopD 0) es = .ok p ∧ (∃ o, siamOcc p.2 = .ok o) ∧ p.1.1 ≤ a.n ∧ p.1.2 ≤ a.n := by
  have hes := buildEspace_eigen ha hw h
  have hat : ∀ p ∈ es, p.1.1 ≤ a.n ∧ p.1.2 ≤ a.n ∧ sctAt es p.1 = p.2 := fun p hp => by
    obtain ⟨h1, h2, h3⟩ := sctAt_of_mem hes (p := p.1.1) (q := p.1.2) (I := p.2) hp
    exact ⟨h2, h3, h1⟩
  have hne : ∀ p ∈ es, p.2.eigvals ≠ [] := fun p hp h0 => by
    obtain ⟨h1, h2, h3⟩ := hat p hp
    obtain ⟨-, -, -, -, -, -, -, hlen⟩ := hes.toCompleteEspace.at h1 h2
    rw [show ((p.1.1, p.1.2) : ℕ × ℕ) = p.1 from rfl, h3, h0] at hlen
    have := Nat.mul_pos (Nat.choose_pos h1) (Nat.choose_pos h2)
    rw [List.length_nil] at hlen
    exact absurd hlen this.ne
  obtain ⟨E, rfl, hE⟩ := buildEspace_least ha hw h
  obtain ⟨p, hp, h1, x, l, h2, -⟩ := firstGround_ok hne (fun p hp => buildEspace_sorted ha hw h (k := p.1) (I := p.2) hp) hE
  refine ⟨p, hp, h1, ?_, (hat p hp).1, (hat p hp).2.1⟩
  obtain ⟨h3, h4, h5⟩ := hat p hp
  obtain ⟨up, dw, -, -, hok, -⟩ := hes.toCompleteEspace.at h3 h4
  rw [show ((p.1.1, p.1.2) : ℕ × ℕ) = p.1 from rfl, h5] at hok
  have hl := hok.len
  unfold siamOcc
  rw [hok.states]
  cases hv : p.2.eigvecs with
  | nil => rw [hv, h2] at hl; simp at hl
  | cons v _ => exact ⟨_, C90_occupation v up dw 0⟩

theorem npAllclose_iff {N1 N0 : ℕ × ℕ} (h1 : N0.1 ≤ 32) (h2 : N0.2 ≤ 32) : npAllclose N1 N0 ↔ N1 = N0 := by
  have key : ∀ {x y : ℕ}, y ≤ 32 → (|(x : ℝ) - y| ≤ 1 / 10 ^ 8 + 1 / 10 ^ 5 * |(y : ℝ)| ↔ x = y) := fun {x y} hy => by
    constructor
    · intro h
      by_contra hne
      have hz : (1 : ℝ) ≤ |(x : ℝ) - y| := by
        have : (1 : ℤ) ≤ |(x : ℤ) - y| := Int.one_le_abs (by omega)
        exact_mod_cast this
      have : |(y : ℝ)| ≤ 32 := by rw [abs_of_nonneg (Nat.cast_nonneg _)]; exact_mod_cast hy
      have h' : (1 : ℝ) ≤ 1 / 10 ^ 8 + 1 / 10 ^ 5 * 32 := hz.trans (h.trans (by gcongr))
      norm_num at h'
    · rintro rfl
      rw [sub_self, abs_zero]
      positivity
  unfold npAllclose
  rw [key h1, key h2, Prod.ext_iff]

/-! ### The pass -/

/-- The bath energies and couplings of the fit. -/
noncomputable def dedFitEk (g : Gfimp) (k : ℕ) : ℝ := g.ek[k]?.getD 0
noncomputable def dedFitVk (g : Gfimp) (k : ℕ) : ℝ := -Real.sqrt (g.vk2[k]?.getD 0)

theorem bathDiag_of_siam {e0 : ℝ} {e v : Fin nb → ℝ} (h : toMat nb H = siam e0 e v) : BathDiag (nb + 1) H := by
  intro i j h1 h2 h3 h4 h5
  obtain ⟨k, rfl⟩ : ∃ k, i = k + 1 := ⟨i - 1, by omega⟩
  obtain ⟨l, rfl⟩ : ∃ l, j = l + 1 := ⟨j - 1, by omega⟩
  have := congrFun (congrFun h (Fin.succ ⟨k, by omega⟩)) (Fin.succ ⟨l, by omega⟩)
  simp only [toMat, siam, Matrix.of_apply, Fin.val_succ, Fin.cases_succ, Fin.mk.injEq] at this
  rw [this, if_neg (by omega)]

theorem toMat_setCorner {e0 x : ℝ} {e v : Fin nb → ℝ} (h : toMat nb H = siam e0 e v) : toMat nb (setCorner H x) = siam x e v := by
  ext i j
  have := congrFun (congrFun h i) j
  revert this
  simp only [toMat, siam, Matrix.of_apply, setCorner]
  refine Fin.cases ?_ (fun k => ?_) i <;> refine Fin.cases ?_ (fun l => ?_) j <;> simp

theorem cornerOnly_set (hV : CornerOnly V) (x : ℝ) : CornerOnly (setCorner V x) := by
  intro i j h
  unfold setCorner
  rw [if_neg fun h' => h (by rw [h'.1, h'.2])]
  exact hV i j h

theorem setCorner_set (x y : ℝ) : setCorner (setCorner V x) y = setCorner V y := by
  funext i j
  unfold setCorner
  split_ifs <;> rfl

variable {fsolve : (ℝ → ℝ) → ℝ → ℝ} {poles : List ℝ}

/-- **C133** A pass never raises, whatever the poles; it leaves arrays that the next pass can start from, and a sample is made from the exact Green function of the impurity site of
the Anderson model with the fitted bath, the level `e0 - sigma0` and the interaction `U`. -/
theorem C133_pass (hn : 1 ≤ nb) (hn' : nb ≤ 31) (hw : nb + 1 ≤ w) (hl : poles.length = nb + 1) (hH : BathDiag (nb + 1) H) (hV : CornerOnly V) :
    (∃ r, SiamPass fsolve w junk (nb + 1) U sigma0 beta poles H V r) ∧
    ∀ r, SiamPass fsolve w junk (nb + 1) U sigma0 beta poles H V r → ∃ H' V' o, r = .ok ((H', V'), o) ∧ BathDiag (nb + 1) H' ∧ CornerOnly V' ∧ V' 0 0 = U ∧
      toMat nb H' = siam ((gfimpFit fsolve poles).e0 - sigma0) (fun k : Fin nb => dedFitEk (gfimpFit fsolve poles) k) (fun k : Fin nb => dedFitVk (gfimpFit fsolve poles) k) ∧
      ∀ smp, o = some smp → ∃ gf : ℂ → ℂ,
        (∀ z : ℂ, z.im ≠ 0 → IsGreen (ι := Finset (Fin (nb + 1 + (nb + 1)))) beta (plainHam (nb + 1) H' (.array V')) (ann ℝ (orb false (0 : Fin (nb + 1)))) (cre ℝ (orb false (0 : Fin (nb + 1)))) z (gf z)) ∧
        smp.sigma = fun z => (gf0Call (poles.map Complex.ofReal) z)⁻¹ - (gf z)⁻¹ := by
  set g := gfimpFit fsolve poles with hg
  have hek : g.ek.length = nb := by simp [hg, gfimpFit, hl]
  have hvk : g.vk2.length = nb := by simp [hg, gfimpFit, hl]
  obtain ⟨H1, hb1, hm1, hc1⟩ := buildSiam_entries' (U := 0) (V := V) hvk hek hH
  have hm1' : toMat nb H1 = siam g.e0 (fun k : Fin nb => dedFitEk g k) (fun k : Fin nb => dedFitVk g k) := hm1
  have ha0 := siamArgs_valid (V := setCorner V 0) hn hn' hm1'
  have hm2 := toMat_setCorner (x := H1 0 0 - sigma0) hm1'
  have ha1 := siamArgs_valid (V := setCorner (setCorner V 0) U) hn hn' hm2
  have hV2 := cornerOnly_set (cornerOnly_set hV 0) U
  obtain ⟨⟨⟨es0, E0⟩, hx0⟩, hno0⟩ := buildEspace_none_ok (w := w) ha0 hw
  obtain ⟨⟨⟨es1, E1⟩, hx1⟩, hno1⟩ := buildEspace_none_ok (w := w) ha1 hw
  have hgf : ∀ {es1 : Espace (ℕ × ℕ)} {E1 : WithTop ℝ}, BuildEspace w (siamArgs (nb + 1) (setCorner H1 (H1 0 0 - sigma0)) (setCorner (setCorner V 0) U)) none (.ok (es1, E1)) →
      ∃ gf, buildGfExact junk (nb + 1) es1 beta (E1.untopD 0) 0 false = .ok gf ∧ ∀ z : ℂ, z.im ≠ 0 →
        IsGreen (ι := Finset (Fin (nb + 1 + (nb + 1)))) beta (siamArgs (nb + 1) (setCorner H1 (H1 0 0 - sigma0)) (setCorner (setCorner V 0) U)).ham (ann ℝ (orb false (0 : Fin (nb + 1))))
          (cre ℝ (orb false (0 : Fin (nb + 1)))) z (gf.call z.re z.im) := by
    intro es1 E1 h1
    obtain ⟨gf, h2, h3⟩ := C92_gf_exact (junk := junk) (beta := beta) (egs := E1.untopD 0) ha1.le (buildEspace_eigen ha1 hw h1) (pos := 0) (Nat.succ_pos nb)
    refine ⟨gf, h2, fun z hz => ?_⟩
    have ez : z = (z.re : ℂ) + Complex.I * (z.im : ℂ) := by rw [mul_comm]; exact (Complex.re_add_im z).symm
    have := (h3 z.re z.im hz _).mpr rfl
    rw [← ez] at this
    exact this
  constructor
  · obtain ⟨p0, -, f0, ⟨o0, ho0⟩, -⟩ := espace_ground ha0 hw hx0
    obtain ⟨p1, -, f1, ⟨o1, ho1⟩, -⟩ := espace_ground ha1 hw hx1
    obtain ⟨gf, hg1, -⟩ := hgf hx1
    by_cases hc : npAllclose p1.1 p0.1
    · refine ⟨.ok ((setCorner H1 (H1 0 0 - sigma0), setCorner (setCorner V 0) U), some ⟨fun z => (gf0Call (poles.map Complex.ofReal) z)⁻¹ - (gf.call z.re z.im)⁻¹, o0, o1⟩), ?_⟩
      unfold SiamPass
      rw [bindR_ok hb1]
      refine Or.inl ⟨_, hx0, ?_⟩
      dsimp only
      rw [bindR_ok f0, bindR_ok ho0]
      refine Or.inl ⟨_, hx1, ?_⟩
      dsimp only
      rw [bindR_ok f1]
      refine Or.inl ⟨hc, ?_⟩
      rw [bindR_ok hg1, bindR_ok ho1]
      rfl
    · refine ⟨.ok ((setCorner H1 (H1 0 0 - sigma0), setCorner (setCorner V 0) U), none), ?_⟩
      unfold SiamPass
      rw [bindR_ok hb1]
      refine Or.inl ⟨_, hx0, ?_⟩
      dsimp only
      rw [bindR_ok f0, bindR_ok ho0]
      refine Or.inl ⟨_, hx1, ?_⟩
      dsimp only
      rw [bindR_ok f1]
      exact Or.inr ⟨hc, rfl⟩
  · intro r hr
    unfold SiamPass at hr
    rw [bindR_ok hb1] at hr
    obtain ⟨⟨es0, E0⟩, hx0, hr⟩ | ⟨e, he, -⟩ := hr
    swap
    · exact absurd he (hno0 e)
    obtain ⟨p0, -, f0, ⟨o0, ho0⟩, -⟩ := espace_ground ha0 hw hx0
    dsimp only at hr
    rw [bindR_ok f0, bindR_ok ho0] at hr
    obtain ⟨⟨es1, E1⟩, hx1, hr⟩ | ⟨e, he, -⟩ := hr
    swap
    · exact absurd he (hno1 e)
    obtain ⟨p1, -, f1, ⟨o1, ho1⟩, -⟩ := espace_ground ha1 hw hx1
    dsimp only at hr
    rw [bindR_ok f1] at hr
    rw [hc1] at hm2
    have hcor : setCorner (setCorner V 0) U 0 0 = U := by simp [setCorner]
    rcases hr with ⟨-, hr⟩ | ⟨-, hr⟩
    · obtain ⟨gf, hg1, hg2⟩ := hgf hx1
      rw [bindR_ok hg1, bindR_ok ho1] at hr
      rw [hc1] at hr hg2
      refine ⟨_, _, _, hr, bathDiag_of_siam hm2, hV2, hcor, hm2, fun smp hsmp => ⟨fun z => gf.call z.re z.im, hg2, ?_⟩⟩
      rw [← Option.some.inj hsmp]
    · rw [hc1] at hr
      exact ⟨_, _, _, hr, bathDiag_of_siam hm2, hV2, hcor, hm2, fun smp hsmp => by cases hsmp⟩

/-! ### The samples -/

theorem dropped_norm {ek vk : ℕ → ℝ} {z : ℂ} (hz : z.im ≠ 0) : ‖hybridisation (fun k : Fin nb => ek k) (fun k : Fin nb => droppedCouplings vk k) z‖ ≤ nb * (1 / 10 ^ 14) / |z.im| := by
  unfold hybridisation
  refine (norm_sum_le _ _).trans ?_
  have : ∀ k : Fin nb, ‖((droppedCouplings vk k : ℝ) : ℂ) ^ 2 / (z - (ek k : ℂ))‖ ≤ (1 / 10 ^ 14) / |z.im| := by
    intro k
    rw [norm_div, norm_pow, Complex.norm_real, Real.norm_eq_abs]
    have h1 : |droppedCouplings vk k| ≤ 1 / 10 ^ 7 := by
      unfold droppedCouplings
      split_ifs with h
      · simp
      · exact not_lt.mp h
    have h2 : |z.im| ≤ ‖z - (ek k : ℂ)‖ := by
      have := Complex.abs_im_le_norm (z - (ek k : ℂ))
      simpa using this
    refine div_le_div₀ (by positivity) ?_ (abs_pos.mpr hz) h2
    calc |droppedCouplings vk k| ^ 2 ≤ (1 / 10 ^ 7) ^ 2 := pow_le_pow_left₀ (abs_nonneg _) h1 2
      _ = 1 / 10 ^ 14 := by norm_num
  refine (Finset.sum_le_sum fun k _ => this k).trans ?_
  rw [Finset.sum_const, Finset.card_univ, Fintype.card_fin, nsmul_eq_mul, mul_div_assoc]

/-- The inverse of the sampled Green function is `z - e0 - Δ(z)` with the fitted bath. -/
theorem gf0_inv (hl : poles.length = nb + 1) (hs : poles.Pairwise (· < ·)) (hf : FindsZeros fsolve poles) {z : ℂ} (hz : z.im ≠ 0) :
    (gf0Call (poles.map Complex.ofReal) z)⁻¹ = z - ((gfimpFit fsolve poles).e0 : ℂ) -
      hybridisation (fun k : Fin nb => dedFitEk (gfimpFit fsolve poles) k) (fun k : Fin nb => dedFitVk (gfimpFit fsolve poles) k) z := by
  have hne : poles ≠ [] := by
    rintro rfl
    simp at hl
  obtain ⟨h1, -, h3⟩ := C66_fit hne hs hf
  set g := gfimpFit fsolve poles with hg
  have hek : g.ek.length = nb := by simp [hg, gfimpFit, hl]
  have hvk : g.vk2.length = nb := by simp [hg, gfimpFit, hl]
  rw [← h3 z hz, gfimpCall_eq g hvk hek, inv_inv]
  congr 1
  unfold hybridisation
  rw [← Fin.sum_univ_eq_sum_range (fun k => ((g.vk2[k]?.getD 0 : ℝ) : ℂ) * (z - ((g.ek[k]?.getD 0 : ℝ) : ℂ))⁻¹)]
  refine Finset.sum_congr rfl fun k _ => ?_
  have h0 : 0 ≤ g.vk2[(k : ℕ)]?.getD 0 := by
    have hk : (k : ℕ) < g.vk2.length := by rw [hvk]; exact k.2
    rw [List.getElem?_eq_getElem hk, Option.getD_some]
    exact (h1 _ (List.getElem_mem hk)).le
  unfold dedFitVk dedFitEk
  rw [← Complex.ofReal_pow, neg_sq, Real.sq_sqrt h0, div_eq_mul_inv]

/-- **C133** (partial) Every accepted sample is, up to the constant `-sigma0` and the couplings below `1e-7` that the Hamiltonian drops, the self-energy of the impurity site:
with the level `e0 - sigma0`, the fitted bath and the exact interacting Green functions it solves the Dyson equation. Missing: the samples with a coupling below `1e-7`,
for which the sample is off by the hybridisation of the dropped levels, at most `1e-14` per level over the distance to the real axis. -/
theorem C133_sample_partial (hn : 1 ≤ nb) (hn' : nb ≤ 31) (hw : nb + 1 ≤ w) (hl : poles.length = nb + 1) (hs : poles.Pairwise (· < ·)) (hf : FindsZeros fsolve poles)
    (hH : BathDiag (nb + 1) H) (hV : CornerOnly V) {H' V' : ℕ → ℕ → ℝ} {smp : SiamSample} (hr : SiamPass fsolve w junk (nb + 1) U sigma0 beta poles H V (.ok ((H', V'), some smp)))
    {z : ℂ} (hz : z.im ≠ 0) :
    ∃ (δ : ℂ) (G : Matrix (Fin (nb + 1)) (Fin (nb + 1)) ℂ),
      δ = hybridisation (fun k : Fin nb => dedFitEk (gfimpFit fsolve poles) k) (fun k : Fin nb => droppedCouplings (dedFitVk (gfimpFit fsolve poles)) k) z ∧
      (∀ i j, IsGreen (ι := Finset (Fin (nb + 1 + (nb + 1)))) beta (plainHam (nb + 1) H' (.array V')) (ann ℝ (orb false i)) (cre ℝ (orb false j)) z (G i j)) ∧
      LocalDyson (siam ((gfimpFit fsolve poles).e0 - sigma0) (fun k : Fin nb => dedFitEk (gfimpFit fsolve poles) k) (fun k : Fin nb => keptCouplings (dedFitVk (gfimpFit fsolve poles)) k)) 0 z
        (smp.sigma z + sigma0 + δ) G ∧
      ‖δ‖ ≤ nb * (1 / 10 ^ 14) / |z.im| ∧ ((∀ k < nb, 1 / 10 ^ 7 < |dedFitVk (gfimpFit fsolve poles) k|) → δ = 0) ∧
      (0 < z.im → (smp.sigma z + δ).im ≤ 0) ∧ (U = 0 → smp.sigma z + sigma0 + δ = 0) := by
  obtain ⟨H1, V1, o, hok, hB, hC, hU, hm, hsm⟩ := (C133_pass hn hn' hw hl hH hV).2 _ hr
  obtain ⟨⟨rfl, rfl⟩, rfl⟩ : (H' = H1 ∧ V' = V1) ∧ some smp = o := by simpa using hok
  obtain ⟨gf, hg, hsig⟩ := hsm smp rfl
  set g := gfimpFit fsolve poles with hgd
  have ha := siamArgs_valid (V := V') hn hn' hm
  obtain ⟨es, hes⟩ := eigenEspace_exists ha
  obtain ⟨G, -, h2⟩ := C93_gf2_exact (junk := 0) (beta := beta) (egs := 0) ha.le hes false
  have ez : z = (z.re : ℂ) + Complex.I * (z.im : ℂ) := by rw [mul_comm]; exact (Complex.re_add_im z).symm
  have hG : ∀ i j : Fin (nb + 1), IsGreen (ι := Finset (Fin (nb + 1 + (nb + 1)))) beta (siamArgs (nb + 1) H' V').ham (ann ℝ (orb false i)) (cre ℝ (orb false j)) z
      ((Matrix.of fun i j : Fin (nb + 1) => (G i j).call z.re z.im) i j) := by
    intro i j
    have := (h2 i j z.re z.im hz _).mpr rfl
    rw [← ez] at this
    exact this
  have h0 : gf z = (Matrix.of fun i j : Fin (nb + 1) => (G i j).call z.re z.im) 0 0 := by
    have := (h2 (0 : Fin (nb + 1)) (0 : Fin (nb + 1)) z.re z.im hz (gf z)).mp
    rw [← ez] at this
    exact this (hg z hz)
  have hd := siamArgs_dyson hn hn' (ek := dedFitEk g) (vk := dedFitVk g) hm hC hz hG
  have hval : smp.sigma z + sigma0 + hybridisation (fun k : Fin nb => dedFitEk g k) (fun k : Fin nb => droppedCouplings (dedFitVk g) k) z =
      (z - ((g.e0 - sigma0 : ℝ) : ℂ) - hybridisation (fun k : Fin nb => dedFitEk g k) (fun k : Fin nb => keptCouplings (dedFitVk g) k) z) -
        ((Matrix.of fun i j : Fin (nb + 1) => (G i j).call z.re z.im) 0 0)⁻¹ := by
    rw [hsig, ← h0]
    dsimp only
    rw [gf0_inv hl hs hf hz, hybridisation_split]
    push_cast
    ring
  rw [← hval] at hd
  refine ⟨_, _, rfl, hG, hd, dropped_norm hz, fun hk => ?_, fun hz' => ?_, fun hU0 => ?_⟩
  · rw [(kept_of_large nb fun k hk' => Or.inr (hk k hk')).2, hybridisation_zero]
  · obtain ⟨-, hc⟩ := green_causal hes.basis beta (c := fun i : Fin (nb + 1) => ann ℝ (orb false i)) (anti_orb false) hz' hG
    have h3 := local_causal (siam_symm _ _ _) hd hc
    simpa using h3
  · have hfree : (siamArgs (nb + 1) H' V').Free := by
      refine ⟨fun i j _ _ => ?_, rfl, rfl⟩
      simp only [siamArgs, VArg.array, Option.getD_some]
      by_cases hij : (i, j) = (0, 0)
      · obtain ⟨rfl, rfl⟩ := Prod.mk.inj hij
        rw [hU, hU0]
      · exact hC i j hij
    have hb := hes.basis
    have hb' := hb
    have hres : IsGreen (ι := Finset (Fin (nb + 1 + (nb + 1)))) beta (siamArgs (nb + 1) H' V').ham (ann ℝ (orb false (0 : Fin (nb + 1)))) (cre ℝ (orb false (0 : Fin (nb + 1)))) z
        (Spec.resolvent (ι := Fin (nb + 1)) z ((siamArgs (nb + 1) H' V').oneBody false) 0 0) := by
      rw [hfree.ham] at hb' ⊢
      exact free_green _ hb' beta false (0 : Fin (nb + 1)) (0 : Fin (nb + 1)) (resolvent_mul (HamArgs.oneBody_symm ha false) hz)
    have e1 : (Matrix.of fun i j : Fin (nb + 1) => (G i j).call z.re z.im) 0 0 = Spec.resolvent (ι := Fin (nb + 1)) z ((siamArgs (nb + 1) H' V').oneBody false) 0 0 := by
      rw [(hb.green beta _ _ hz _).mp (hG 0 0), ← (hb.green beta _ _ hz _).mp hres]
    rw [siamArgs_oneBody (ek := dedFitEk g) (vk := dedFitVk g) hm] at e1
    have hnr := siam_nonreal (g.e0 - sigma0) (fun k : Fin nb => dedFitEk g k) (fun k : Fin nb => keptCouplings (dedFitVk g) k) hz
    have h4 := siam_green hnr.1 hnr.2
    unfold impurityGreen at h4
    rw [hval, e1, h4, inv_inv, sub_self]

/-! ### The result -/

/-- The passes of `siam_solve`: pass `t` draws the poles `poles t`, starts from the arrays that pass `t - 1` left (zeros at first, `edpyt/dedlib.py:234-235`) and has the sample `out t` if
it fulfils the condition. -/
structure SiamPasses (fsolve : (ℝ → ℝ) → ℝ → ℝ) (w junk nb : ℕ) (U sigma0 beta : ℝ) (poles : ℕ → List ℝ) (st : ℕ → (ℕ → ℕ → ℝ) × (ℕ → ℕ → ℝ)) (out : ℕ → Option SiamSample) : Prop where
  zero : st 0 = (fun _ _ => 0, fun _ _ => 0)
  pass : ∀ t, SiamPass fsolve w junk (nb + 1) U sigma0 beta (poles t) (st t).1 (st t).2 (.ok (st (t + 1), out t))

theorem SiamPasses.inv {ps : ℕ → List ℝ} {st : ℕ → (ℕ → ℕ → ℝ) × (ℕ → ℕ → ℝ)} {out : ℕ → Option SiamSample} (hn : 1 ≤ nb) (hn' : nb ≤ 31) (hw : nb + 1 ≤ w) (hl : ∀ t, (ps t).length = nb + 1)
    (h : SiamPasses fsolve w junk nb U sigma0 beta ps st out) : ∀ t, BathDiag (nb + 1) (st t).1 ∧ CornerOnly (st t).2 := by
  intro t
  induction t with
  | zero => rw [h.zero]; exact ⟨fun _ _ _ _ _ _ _ => rfl, fun _ _ _ => rfl⟩
  | succ t ih =>
    obtain ⟨H1, V1, o, hok, hB, hC, -⟩ := (C133_pass hn hn' hw (hl t) ih.1 ih.2).2 _ (h.pass t)
    have : st (t + 1) = (H1, V1) := by
      have := Except.ok.inj hok
      exact (Prod.mk.inj this).1
    rw [this]
    exact ⟨hB, hC⟩

/-- **C133** The passes can be carried on for ever: whatever poles are drawn, there is an infinite sequence of passes, and none raises. -/
theorem C133_passes (hn : 1 ≤ nb) (hn' : nb ≤ 31) (hw : nb + 1 ≤ w) (ps : ℕ → List ℝ) (hl : ∀ t, (ps t).length = nb + 1) :
    ∃ st out, SiamPasses fsolve w junk nb U sigma0 beta ps st out := by
  have hstep : ∀ (t : ℕ) (s : {s : (ℕ → ℕ → ℝ) × (ℕ → ℕ → ℝ) // BathDiag (nb + 1) s.1 ∧ CornerOnly s.2}),
      ∃ q : {s : (ℕ → ℕ → ℝ) × (ℕ → ℕ → ℝ) // BathDiag (nb + 1) s.1 ∧ CornerOnly s.2} × Option SiamSample,
        SiamPass fsolve w junk (nb + 1) U sigma0 beta (ps t) s.1.1 s.1.2 (.ok (q.1.1, q.2)) := by
    rintro t ⟨s, hB, hC⟩
    obtain ⟨⟨r, hr⟩, hall⟩ := C133_pass (fsolve := fsolve) (junk := junk) (U := U) (sigma0 := sigma0) (beta := beta) hn hn' hw (hl t) hB hC
    obtain ⟨H1, V1, o, hok, hB', hC', -⟩ := hall r hr
    rw [hok] at hr
    exact ⟨⟨⟨(H1, V1), hB', hC'⟩, o⟩, hr⟩
  choose q hq using hstep
  let st : ℕ → {s : (ℕ → ℕ → ℝ) × (ℕ → ℕ → ℝ) // BathDiag (nb + 1) s.1 ∧ CornerOnly s.2} :=
    fun t => Nat.rec ⟨(fun _ _ => 0, fun _ _ => 0), fun _ _ _ _ _ _ _ => rfl, fun _ _ _ => rfl⟩ (fun t s => (q t s).1) t
  exact ⟨fun t => (st t).1, fun t => (q t (st t)).2, rfl, fun t => hq t (st t)⟩

theorem mean_norm {N : ℕ} (hN : 0 < N) {l : List ℂ} (hl : l.length = N) {c : ℂ} {b : ℝ} (h : ∀ x ∈ l, ‖x - c‖ ≤ b) : ‖(N : ℂ)⁻¹ * l.sum - c‖ ≤ b := by
  have key : ∀ l : List ℂ, (∀ x ∈ l, ‖x - c‖ ≤ b) → ‖l.sum - l.length * c‖ ≤ l.length * b := by
    intro l
    induction l with
    | nil => simp
    | cons a l ih =>
      intro h
      have e : (a :: l).sum - ((a :: l).length : ℂ) * c = (a - c) + (l.sum - l.length * c) := by
        rw [List.sum_cons, List.length_cons]
        push_cast
        ring
      rw [e]
      refine (norm_add_le _ _).trans ?_
      have h1 := h a (by simp)
      have h2 := ih fun x hx => h x (by simp [hx])
      rw [List.length_cons]
      push_cast
      linarith
  have h1 := key l h
  rw [hl] at h1
  have hN' : (0 : ℝ) < N := by exact_mod_cast hN
  have hNc : (N : ℂ) ≠ 0 := by exact_mod_cast hN.ne'
  have e : (N : ℂ)⁻¹ * l.sum - c = (N : ℂ)⁻¹ * (l.sum - N * c) := by field_simp
  rw [e, norm_mul, norm_inv, Complex.norm_natCast, inv_mul_le_iff₀ hN']
  exact h1

theorem mean_im {N : ℕ} (hN : 0 < N) {l : List ℂ} (hl : l.length = N) {b : ℝ} (h : ∀ x ∈ l, x.im ≤ b) : ((N : ℂ)⁻¹ * l.sum).im ≤ b := by
  have key : ∀ l : List ℂ, (∀ x ∈ l, x.im ≤ b) → l.sum.im ≤ l.length * b := by
    intro l
    induction l with
    | nil => simp
    | cons a l ih =>
      intro h
      have h1 := h a (by simp)
      have h2 := ih fun x hx => h x (by simp [hx])
      rw [List.sum_cons, List.length_cons, Complex.add_im]
      push_cast
      linarith
  have h1 := key l h
  rw [hl] at h1
  have hN' : (0 : ℝ) < N := by exact_mod_cast hN
  have e : ((N : ℂ)⁻¹ * l.sum).im = (N : ℝ)⁻¹ * l.sum.im := by
    rw [← Complex.ofReal_natCast, ← Complex.ofReal_inv, Complex.im_ofReal_mul]
  rw [e, inv_mul_le_iff₀ hN']
  exact h1

/-- **C133** (partial) The self-energy that `siam_solve` returns, for every number of samples and every sequence of poles that the fit can handle: its imaginary part in the upper half plane is
not positive, if no fitted coupling is below `1e-7`, and never above `1e-14` per level over the distance to the real axis; without interaction it is the constant `-sigma0` up to the same bound. -/
theorem C133_solve_partial {ps : ℕ → List ℝ} {st : ℕ → (ℕ → ℕ → ℝ) × (ℕ → ℕ → ℝ)} {out : ℕ → Option SiamSample} (hn : 1 ≤ nb) (hn' : nb ≤ 31) (hw : nb + 1 ≤ w)
    (hl : ∀ t, (ps t).length = nb + 1) (hs : ∀ t, (ps t).Pairwise (· < ·)) (hf : ∀ t, FindsZeros fsolve (ps t)) (h : SiamPasses fsolve w junk nb U sigma0 beta ps st out)
    {N : ℕ} {x : ℂ → ℂ} (hx : SiamSolve (K := ℂ) (fun t => (out t).map SiamSample.sigma) N 0 0 (.ok x)) {z : ℂ} (hz : 0 < z.im) :
    (x z).im ≤ nb * (1 / 10 ^ 14) / z.im ∧
    ((∀ t, ∀ k < nb, 1 / 10 ^ 7 < |dedFitVk (gfimpFit fsolve (ps t)) k|) → (x z).im ≤ 0) ∧
    (U = 0 → ‖x z - (-sigma0 : ℂ)‖ ≤ nb * (1 / 10 ^ 14) / z.im) := by
  obtain ⟨hN, t', -, h1, h2⟩ := C86_siam_mean _ _ _ _ _ hx
  set l := samplesOf (fun t => (out t).map SiamSample.sigma) (acceptedPasses (fun t => (out t).map SiamSample.sigma) 0 t') with hldef
  have hlen : l.length = N := by
    rw [← h1]
    have := length_accepted (fun t => (out t).map SiamSample.sigma) 0 t'
    rw [hldef, this]
  have hxz : x z = (N : ℂ)⁻¹ * (l.map fun f => f z).sum := by
    rw [h2, zero_add, Pi.smul_apply, smul_eq_mul]
    congr 1
    exact map_list_sum (Pi.evalAddMonoidHom (fun _ : ℂ => ℂ) z) l
  have hmem : ∀ y ∈ l.map (fun f => f z), ∃ t smp, out t = some smp ∧ y = smp.sigma z := by
    intro y hy
    obtain ⟨f, hf', rfl⟩ := List.mem_map.mp hy
    rw [hldef, samples_accepted, List.mem_filterMap] at hf'
    obtain ⟨t, -, ht⟩ := hf'
    obtain ⟨smp, h3, h4⟩ := Option.map_eq_some_iff.mp ht
    exact ⟨t, smp, h3, by rw [h4]⟩
  have hsmp : ∀ t smp, out t = some smp → ∃ δ : ℂ, ‖δ‖ ≤ nb * (1 / 10 ^ 14) / z.im ∧ ((∀ k < nb, 1 / 10 ^ 7 < |dedFitVk (gfimpFit fsolve (ps t)) k|) → δ = 0) ∧
      (smp.sigma z + δ).im ≤ 0 ∧ (U = 0 → smp.sigma z + sigma0 + δ = 0) := by
    intro t smp ho
    obtain ⟨hB, hC⟩ := h.inv hn hn' hw hl t
    have hp := h.pass t
    rw [ho] at hp
    obtain ⟨δ, G, -, -, -, h5, h6, h7, h8⟩ := C133_sample_partial (H' := (st (t + 1)).1) (V' := (st (t + 1)).2) hn hn' hw (hl t) (hs t) (hf t) hB hC hp hz.ne'
    rw [abs_of_pos hz] at h5
    exact ⟨δ, h5, h6, h7 hz, h8⟩
  have hlm : (l.map fun f => f z).length = N := by rw [List.length_map, hlen]
  rw [hxz]
  refine ⟨mean_im hN hlm fun y hy => ?_, fun hk => mean_im hN hlm fun y hy => ?_, fun hU => mean_norm hN hlm fun y hy => ?_⟩
  · obtain ⟨t, smp, ho, rfl⟩ := hmem y hy
    obtain ⟨δ, h5, -, h7, -⟩ := hsmp t smp ho
    rw [Complex.add_im] at h7
    have := (abs_le.mp ((Complex.abs_im_le_norm δ).trans h5)).1
    linarith
  · obtain ⟨t, smp, ho, rfl⟩ := hmem y hy
    obtain ⟨δ, -, h6, h7, -⟩ := hsmp t smp ho
    rw [h6 (hk t), add_zero] at h7
    exact h7
  · obtain ⟨t, smp, ho, rfl⟩ := hmem y hy
    obtain ⟨δ, h5, -, -, h8⟩ := hsmp t smp ho
    have : smp.sigma z - -(sigma0 : ℂ) = -δ := by linear_combination h8 hU
    rw [this, norm_neg]
    exact h5

/-! ### Without interaction every pass counts -/

/-- Two runs of `build_espace` with the same input list the same sectors in the same order with the same energies, whatever eigenvectors the solver chose. -/
theorem espace_determined {a : HamArgs} (ha : a.Valid) {w w' : ℕ} (hw : a.n ≤ w) (hw' : a.n ≤ w') {es es' : Espace (ℕ × ℕ)} {E E' : WithTop ℝ} (h : BuildEspace w a none (.ok (es, E)))
    (h' : BuildEspace w' a none (.ok (es', E'))) : es.map (fun p => (p.1, p.2.eigvals)) = es'.map (fun p => (p.1, p.2.eigvals)) ∧ E = E' := by
  have he := buildEspace_eigen ha hw h
  have he' := buildEspace_eigen ha hw' h'
  have hk : es.map Prod.fst = es'.map Prod.fst := by
    have h1 := h
    have h1' := h'
    unfold BuildEspace at h1 h1'
    cases hl : neigOrDefault a.n none .sz with
    | error e => rw [hl] at h1; cases h1
    | ok l =>
      rw [hl] at h1 h1'
      rw [(C28_build_espace ha hw l es E (by unfold BuildEspace; exact h1)).1, (C28_build_espace ha hw' l es' E' (by unfold BuildEspace; exact h1')).1]
  have hlev : ∀ k I I', (k, I) ∈ es → (k, I') ∈ es' → I.eigvals = I'.eigvals := by
    rintro ⟨p, q⟩ I I' hI hI'
    obtain ⟨e1, hp, hq⟩ := sctAt_of_mem he hI
    obtain ⟨e1', -, -⟩ := sctAt_of_mem he' hI'
    refine sorted_ext (buildEspace_sorted ha hw h hI) (buildEspace_sorted ha hw' h' hI') fun x => ?_
    rw [← e1, ← e1']
    refine levels_eq he he' (A := 1) (by simp) (by simp) hp hq hp hq (fun T S hTS => ?_) x
    rw [Matrix.one_apply] at hTS
    have : T = S := by
      by_contra hne
      exact hTS (if_neg hne)
    rw [this]
  have hmap : es.map (fun p => (p.1, p.2.eigvals)) = es'.map (fun p => (p.1, p.2.eigvals)) := by
    have hlen : es.length = es'.length := by simpa using congrArg List.length hk
    refine List.ext_getElem (by simpa using hlen) fun i h1 h2 => ?_
    rw [List.getElem_map, List.getElem_map]
    rw [List.length_map] at h1 h2
    have hki : es[i].1 = es'[i].1 := by
      have := congrArg (fun l => l[i]?) hk
      simp only [List.getElem?_map, List.getElem?_eq_getElem h1, List.getElem?_eq_getElem h2, Option.map_some] at this
      exact Option.some.inj this
    have hm := List.getElem_mem h1
    have hm' := List.getElem_mem h2
    refine Prod.ext hki (hlev es[i].1 _ _ hm ?_)
    rw [hki]
    exact hm'
  refine ⟨hmap, ?_⟩
  obtain ⟨x, hx, hL⟩ := buildEspace_least ha hw h
  obtain ⟨x', hx', hL'⟩ := buildEspace_least ha hw' h'
  rw [hx, hx']
  have hset : {x | ∃ p ∈ es, x ∈ p.2.eigvals} = {x | ∃ p ∈ es', x ∈ p.2.eigvals} := by
    ext y
    have : ∀ es : Espace (ℕ × ℕ), (∃ p ∈ es, y ∈ p.2.eigvals) ↔ ∃ q ∈ es.map (fun p => (p.1, p.2.eigvals)), y ∈ q.2 := fun es => by simp
    rw [Set.mem_setOf_eq, Set.mem_setOf_eq, this, this, hmap]
  rw [hset] at hL
  rw [hL.unique hL']

theorem firstGround_key {E : ℝ} : ∀ {es es' : Espace (ℕ × ℕ)}, es.map (fun p => (p.1, p.2.eigvals)) = es'.map (fun p => (p.1, p.2.eigvals)) → ∀ {p p'}, firstGround E es = .ok p →
    firstGround E es' = .ok p' → p.1 = p'.1 := by
  intro es
  induction es with
  | nil => intro es' _ p p' h; simp [firstGround] at h
  | cons a l ih =>
    intro es' hm p p' h h'
    cases es' with
    | nil => simp at hm
    | cons a' l' =>
      rw [List.map_cons, List.map_cons] at hm
      obtain ⟨h1, h2⟩ := List.cons.inj hm
      obtain ⟨hk, hv⟩ := Prod.mk.inj h1
      unfold firstGround at h h'
      rw [hv] at h
      split at h
      · cases h
      · next x xs hx =>
        rw [hx] at h'
        dsimp only at h'
        split_ifs at h h' with hc
        · rw [← Except.ok.inj h, ← Except.ok.inj h', hk]
        · exact ih h2 h h'

/-- **C133** Without interaction and shift (the default `sigma0 = U/2` is zero then) every pass fulfils the condition, whatever the poles. -/
theorem C133_free_accepts (hn : 1 ≤ nb) (hn' : nb ≤ 31) (hw : nb + 1 ≤ w) (hl : poles.length = nb + 1) (hH : BathDiag (nb + 1) H) (hV : CornerOnly V)
    {H' V' : ℕ → ℕ → ℝ} {o : Option SiamSample} (hr : SiamPass fsolve w junk (nb + 1) 0 0 beta poles H V (.ok ((H', V'), o))) : o ≠ none := by
  set g := gfimpFit fsolve poles with hg
  have hek : g.ek.length = nb := by simp [hg, gfimpFit, hl]
  have hvk : g.vk2.length = nb := by simp [hg, gfimpFit, hl]
  obtain ⟨H1, hb1, hm1, hc1⟩ := buildSiam_entries' (U := 0) (V := V) hvk hek hH
  have hm1' : toMat nb H1 = siam g.e0 (fun k : Fin nb => dedFitEk g k) (fun k : Fin nb => dedFitVk g k) := hm1
  have ha0 := siamArgs_valid (V := setCorner V 0) hn hn' hm1'
  have hH1 : setCorner H1 (H1 0 0 - 0) = H1 := by
    funext i j
    unfold setCorner
    split_ifs with h
    · rw [h.1, h.2, sub_zero]
    · rfl
  unfold SiamPass at hr
  rw [bindR_ok hb1] at hr
  dsimp only at hr
  rw [hH1, setCorner_set] at hr
  obtain ⟨⟨es0, E0⟩, hx0, hr⟩ | ⟨e, -, he⟩ := hr
  swap
  · cases he
  obtain ⟨p0, -, f0, ⟨o0, ho0⟩, -⟩ := espace_ground ha0 hw hx0
  dsimp only at hr
  rw [bindR_ok f0, bindR_ok ho0] at hr
  obtain ⟨⟨es1, E1⟩, hx1, hr⟩ | ⟨e, -, he⟩ := hr
  swap
  · cases he
  obtain ⟨p1, -, f1, ⟨o1, ho1⟩, -⟩ := espace_ground ha0 hw hx1
  dsimp only at hr
  rw [bindR_ok f1] at hr
  obtain ⟨hm, hE⟩ := espace_determined ha0 hw hw hx0 hx1
  rw [← hE] at f1
  have hkey := firstGround_key hm f0 f1
  rcases hr with ⟨-, hr⟩ | ⟨hc, -⟩
  · obtain ⟨gf, hg1, -⟩ := C92_gf_exact (junk := junk) (beta := beta) (egs := E1.untopD 0) ha0.le (buildEspace_eigen ha0 hw hx1) (pos := 0) (Nat.succ_pos nb)
    have hg2 : buildGfExact junk (nb + 1) es1 beta (E1.untopD 0) 0 false = .ok gf := hg1
    rw [bindR_ok hg2, bindR_ok ho1] at hr
    have := (Prod.mk.inj (Except.ok.inj hr)).2
    rw [this]
    exact Option.some_ne_none _
  · refine absurd ?_ hc
    rw [hkey]
    unfold npAllclose
    simp only [sub_self, abs_zero]
    constructor <;> positivity

/-- **C133** So `siam_solve` returns then, for every number of samples. -/
theorem C133_free_returns {ps : ℕ → List ℝ} {st : ℕ → (ℕ → ℕ → ℝ) × (ℕ → ℕ → ℝ)} {out : ℕ → Option SiamSample} (hn : 1 ≤ nb) (hn' : nb ≤ 31) (hw : nb + 1 ≤ w)
    (hl : ∀ t, (ps t).length = nb + 1) (h : SiamPasses fsolve w junk nb 0 0 beta ps st out) {N : ℕ} (hN : 0 < N) :
    ∃ x, SiamSolve (K := ℂ) (fun t => (out t).map SiamSample.sigma) N 0 0 (.ok x) := by
  refine C86_siam_returns _ _ _ _ hN fun t => ⟨t, le_rfl, ?_⟩
  obtain ⟨hB, hC⟩ := h.inv hn hn' hw hl t
  have := C133_free_accepts (H' := (st (t + 1)).1) (V' := (st (t + 1)).2) hn hn' hw (hl t) hB hC (h.pass t)
  rwa [ne_eq, Option.map_eq_none_iff]

/-- **C133** (refuted) Poles that are close together give couplings that the Hamiltonian drops: for the poles `-1e-8` and `1e-8` and no interaction the pass is accepted, and the imaginary part
of its sample at `i` is positive. -/
theorem C133_refuted (β : ℝ) : ∃ H' V' smp, SiamPass (fun _ _ => 0) 32 0 2 0 0 β [-(1 / 10 ^ 8), 1 / 10 ^ 8] (fun _ _ => 0) (fun _ _ => 0) (.ok ((H', V'), some smp)) ∧
    FindsZeros (fun _ _ => 0) [-(1 / 10 ^ 8), 1 / 10 ^ 8] ∧ 0 < (smp.sigma Complex.I).im := by
  have hB : BathDiag 2 (fun _ _ => 0) := fun _ _ _ _ _ _ _ => rfl
  have hC : CornerOnly (fun _ _ => 0) := fun _ _ _ => rfl
  have hs : ([-(1 / 10 ^ 8), 1 / 10 ^ 8] : List ℝ).Pairwise (· < ·) := by norm_num
  have hf : FindsZeros (fun _ _ => 0) [-(1 / 10 ^ 8), 1 / 10 ^ 8] := by
    intro i hi
    have : i = 0 := by simp at hi; omega
    subst this
    refine ⟨0, rfl, by norm_num, by norm_num, ?_⟩
    norm_num [gf0Call]
  obtain ⟨⟨r, hr⟩, hall⟩ := C133_pass (fsolve := fun _ _ => 0) (w := 32) (junk := 0) (U := 0) (sigma0 := 0) (beta := β) (nb := 1) (poles := [-(1 / 10 ^ 8), 1 / 10 ^ 8]) le_rfl (by norm_num) (by norm_num) rfl hB hC
  obtain ⟨H', V', o, hok, -⟩ := hall r hr
  rw [hok] at hr
  have hne := C133_free_accepts (nb := 1) le_rfl (by norm_num) (by norm_num) rfl hB hC hr
  obtain ⟨smp, rfl⟩ := Option.ne_none_iff_exists'.mp hne
  refine ⟨H', V', smp, hr, hf, ?_⟩
  obtain ⟨δ, G, hδ, -, -, -, -, -, h0⟩ := C133_sample_partial (nb := 1) le_rfl (by norm_num) (by norm_num) rfl hs hf hB hC hr (z := Complex.I) (by simp)
  have h1 := h0 rfl
  have e : smp.sigma Complex.I = -δ := by simpa using eq_neg_of_add_eq_zero_left h1
  have hv : dedFitVk (gfimpFit (fun _ _ => 0) [-(1 / 10 ^ 8), 1 / 10 ^ 8]) 0 = -(1 / 10 ^ 8) := by
    unfold dedFitVk
    have : (gfimpFit (fun _ _ => 0) [-(1 / 10 ^ 8), 1 / 10 ^ 8]).vk2[0]?.getD 0 = (1 / 10 ^ 8) ^ 2 := by
      norm_num [gfimpFit, gf0Derivative]
    rw [this, Real.sqrt_sq (by norm_num)]
  have hdr : droppedCouplings (dedFitVk (gfimpFit (fun _ _ => 0) [-(1 / 10 ^ 8), 1 / 10 ^ 8])) 0 = -(1 / 10 ^ 8) := by
    unfold droppedCouplings
    rw [hv, if_neg (by norm_num [abs_of_pos])]
  have he : dedFitEk (gfimpFit (fun _ _ => 0) [-(1 / 10 ^ 8), 1 / 10 ^ 8]) 0 = 0 := by simp [dedFitEk, gfimpFit]
  rw [e, hδ]
  unfold hybridisation
  rw [Fin.sum_univ_one]
  dsimp only [Fin.val_zero]
  rw [hdr, he]
  norm_num [Complex.div_im]

/-- Non-vacuity: three poles, no interaction, five samples; the passes exist, `siam_solve` returns and the theorems apply. -/
example : ∃ (fsolve : (ℝ → ℝ) → ℝ → ℝ) (st : ℕ → (ℕ → ℕ → ℝ) × (ℕ → ℕ → ℝ)) (out : ℕ → Option SiamSample) (x : ℂ → ℂ), FindsZeros fsolve [-1, 0, 2] ∧
    SiamPasses fsolve 32 0 2 0 0 1 (fun _ => [-1, 0, 2]) st out ∧ SiamSolve (K := ℂ) (fun t => (out t).map SiamSample.sigma) 5 0 0 (.ok x) ∧ ‖x Complex.I‖ ≤ 2 / 10 ^ 14 := by
  have hs : ([-1, 0, 2] : List ℝ).Pairwise (· < ·) := by norm_num
  obtain ⟨a, ha⟩ := C66_zeros_exist hs (i := 0) (by simp)
  obtain ⟨b, hb⟩ := C66_zeros_exist hs (i := 1) (by simp)
  have hf : FindsZeros (fun _ x => if x < 0 then a else b) [-1, 0, 2] := by
    intro i hi
    have : i + 1 < 3 := by simpa using hi
    have : i < 2 := by omega
    interval_cases i
    · refine ⟨a, ?_, ha⟩
      norm_num
    · refine ⟨b, ?_, hb⟩
      norm_num
  obtain ⟨st, out, hp⟩ := C133_passes (fsolve := fun _ x => if x < 0 then a else b) (junk := 0) (U := 0) (sigma0 := 0) (beta := 1) (nb := 2) (w := 32) (by norm_num) (by norm_num) (by norm_num)
    (fun _ => [-1, 0, 2]) (fun _ => rfl)
  obtain ⟨x, hx⟩ := C133_free_returns (by norm_num) (by norm_num) (by norm_num) (fun _ => rfl) hp (N := 5) (by norm_num)
  have := (C133_solve_partial (by norm_num) (by norm_num) (by norm_num) (fun _ => rfl) (fun _ => hs) (fun _ => hf) hp hx (z := Complex.I) (by simp)).2.2 rfl
  refine ⟨_, st, out, x, hf, hp, hx, ?_⟩
  norm_num at this ⊢
  exact this

end Edpyt
