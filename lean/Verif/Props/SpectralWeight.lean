import Verif.Proof.Stieltjes
import Verif.Props.SigmaTail
/-!
Property C176: the spectral functions are normalised for every broadening, and the self-energy has the weight `U² n (1 - n)`.
-/
namespace Edpyt
open Spec Matrix MeasureTheory

section
variable {ι : Type} [Fintype ι] [DecidableEq ι] {H : Matrix ι ι ℝ} {κ : Type} [Fintype κ] [DecidableEq κ] {u : κ → ι → ℝ} {E : κ → ℝ}

theorem EigBasis.spectral_integral (h : EigBasis H u E) (β : ℝ) (A B : Matrix ι ι ℝ) {G : ℂ → ℂ} (hG : ∀ z : ℂ, z.im ≠ 0 → IsGreen β H A B z (G z)) {η : ℝ} (hη : 0 < η) :
    Integrable (fun e : ℝ => -(G ((e : ℂ) + Complex.I * η)).im / Real.pi) ∧
    (((∫ e : ℝ, -(G ((e : ℂ) + Complex.I * η)).im / Real.pi : ℝ)) : ℂ) = Spec.thermal β H (cplx (A * B + B * A)) := by
  have e : ∀ e : ℝ, G ((e : ℂ) + Complex.I * η) = ∑ x : κ × κ, (lehmannW β u E A B x : ℂ) / ((e : ℂ) + Complex.I * η - ((E x.2 - E x.1 : ℝ) : ℂ)) := fun e => by
    have hz : ((e : ℂ) + Complex.I * η).im ≠ 0 := by simpa using hη.ne'
    exact (h.green_pairs β A B hz _).mp (hG _ hz)
  simp only [e]
  obtain ⟨h1, h2⟩ := pole_integral (fun x : κ × κ => lehmannW β u E A B x) (fun x => E x.2 - E x.1) hη
  refine ⟨h1, ?_⟩
  rw [h2, h.thermal, h.weight_sum]
end

/-- A list of poles as a sum. -/
theorem zip_poles (z : ℂ) : ∀ (l q : List ℝ), l.length = q.length → (List.zipWith (fun (l q : ℝ) => (z - (l : ℂ))⁻¹ * (q : ℂ)) l q).sum =
    ∑ k : Fin l.length, (((q[k]?).getD 0 : ℝ) : ℂ) / (z - (l[k] : ℝ)) := by
  intro l
  induction l with
  | nil => intro q _; simp
  | cons a l ih =>
    intro q hq
    cases q with
    | nil => simp at hq
    | cons b q =>
      have := ih q (by simpa using hq)
      rw [List.zipWith_cons_cons, List.sum_cons, this]
      refine Eq.trans ?_ (Fin.sum_univ_succ _).symm
      congr 1
      simp [div_eq_mul_inv, mul_comm]

/-- **C176** For every broadening `eta > 0` the spectral function `-Im G/π` of `build_gf_exact` is integrable over the energies and has the integral 1; a window that contains
all poles `g.l` with the margin `d` on both sides contains at least the part `(2/π) arctan(d/eta)` of it. -/
theorem C176_gf_exact {a : HamArgs} (ha : a.Valid) {w : ℕ} (hw : a.n ≤ w) {es : Espace (ℕ × ℕ)} {e0 : WithTop ℝ} (h : BuildEspace w a none (.ok (es, e0))) {pos : ℕ} (hp : pos < a.n) :
    ∃ g, buildGfExact junk a.n es beta egs pos false = .ok g ∧ ∀ eta : ℝ, 0 < eta →
      Integrable (fun e : ℝ => -(g.call e eta).im / Real.pi) ∧ ∫ e : ℝ, -(g.call e eta).im / Real.pi = 1 ∧
      ∀ lo hi d : ℝ, (∀ l ∈ g.l, lo + d ≤ l ∧ l ≤ hi - d) → 2 / Real.pi * Real.arctan (d / eta) ≤ ∫ e in lo..hi, -(g.call e eta).im / Real.pi := by
  obtain ⟨g, h1, hlen, hZ, hq, hs⟩ := C35_sum_rule (junk := junk) (beta := beta) (egs := egs) ha.le hp (buildEspace_complete ha hw h)
  refine ⟨g, h1, fun eta he => ?_⟩
  let wt : Fin g.l.length → ℝ := fun k => (g.q[k]?).getD 0 / g.Z
  have e : ∀ e : ℝ, g.call e eta = ∑ k, (wt k : ℂ) / ((e : ℂ) + Complex.I * eta - ((g.l[k] : ℝ) : ℂ)) := fun e => by
    unfold GfEx.call
    rw [zip_poles _ _ _ hlen, Finset.sum_div]
    refine Finset.sum_congr rfl fun k _ => ?_
    simp only [wt]
    push_cast
    ring
  have hw0 : ∀ k, 0 ≤ wt k := fun k => by
    simp only [wt]
    have hk : (k : ℕ) < g.q.length := by rw [← hlen]; exact k.2
    have : (g.q[k]?).getD 0 = g.q[(k : ℕ)] := by simp [hk]
    rw [this]
    exact hq _ (List.getElem_mem _)
  have hsum : ∑ k, wt k = 1 := by
    rw [← hs, ← List.sum_ofFn]
    congr 1
    refine List.ext_getElem (by simp [hlen]) fun k h2 h3 => ?_
    have hk : k < g.q.length := by simpa using h3
    simp [wt, hk]
  simp only [e]
  obtain ⟨i1, i2⟩ := pole_integral wt (fun k => g.l[k]) he
  refine ⟨i1, i2.trans hsum, fun lo hi d hd => ?_⟩
  have := pole_window wt (fun k => g.l[k]) hw0 he (lo := lo) (hi := hi) (d := d) fun k => hd _ (List.getElem_mem _)
  rwa [hsum, one_mul] at this

/-- **C176** The elements of the matrix of `build_gf2_exact`: the spectral function of a site has the integral 1, that of two different sites the integral 0. -/
theorem C176_gf2_exact {a : HamArgs} (hle : a.n ≤ 32) {es : Espace (ℕ × ℕ)} (hes : EigenEspace a.n a.ham es) (s : Bool) :
    ∃ G, buildGf2Exact junk a.n es beta egs s = .ok G ∧ ∀ (i j : Fin a.n) (eta : ℝ), 0 < eta →
      Integrable (fun e : ℝ => -((G i j).call e eta).im / Real.pi) ∧ ∫ e : ℝ, -((G i j).call e eta).im / Real.pi = if i = j then 1 else 0 := by
  obtain ⟨G, hg, hG⟩ := C93_gf2_exact (junk := junk) (beta := beta) (egs := egs) hle hes s
  refine ⟨G, hg, fun i j eta he => ?_⟩
  have h := hes.basis.spectral_integral beta (ann ℝ (orb s i)) (cre ℝ (orb s j)) (G := fun z => (G i j).call z.re z.im) (fun z hz => by
    have := (hG i j z.re z.im hz _).mpr rfl
    rwa [mul_comm Complex.I, Complex.re_add_im] at this) he
  simp only [Complex.add_re, Complex.ofReal_re, Complex.mul_re, Complex.I_re, Complex.I_im, Complex.ofReal_im, Complex.add_im, Complex.mul_im, zero_mul, mul_zero, sub_zero, add_zero, zero_add, one_mul, zero_sub, neg_zero] at h
  refine ⟨h.1, ?_⟩
  have h2 := h.2
  rw [ann_cre_anticomm] at h2
  by_cases c : i = j
  · rw [if_pos (by rw [c]), cplx_one, gibbs_trace_pos hes.basis] at h2
    rw [if_pos c]
    exact_mod_cast h2
  · rw [if_neg fun h' => c (orb_inj.mp h').2, cplx_zero'] at h2
    have : Spec.thermal beta a.ham (0 : Matrix _ _ ℂ) = 0 := by unfold Spec.thermal; simp
    rw [this] at h2
    rw [if_neg c]
    exact_mod_cast h2

/-- The weights of the poles of `⟨⟨c, c†⟩⟩` are nonnegative. -/
theorem lehmannW_nonneg {ι κ : Type} [Fintype ι] [DecidableEq ι] [Fintype κ] [DecidableEq κ] (β : ℝ) (u : κ → ι → ℝ) (E : κ → ℝ) (A : Matrix ι ι ℝ) (x : κ × κ) : 0 ≤ lehmannW β u E A Aᵀ x := by
  unfold lehmannW
  have e : u x.2 ⬝ᵥ (Aᵀ *ᵥ u x.1) = u x.1 ⬝ᵥ (A *ᵥ u x.2) := by
    rw [Matrix.mulVec_transpose, dotProduct_comm, ← Matrix.dotProduct_mulVec]
  rw [e]
  have h0 : 0 ≤ ∑ a, Real.exp (-β * E a) := Finset.sum_nonneg fun a _ => (Real.exp_pos _).le
  refine div_nonneg (mul_nonneg (add_pos (Real.exp_pos _) (Real.exp_pos _)).le (mul_self_nonneg _)) h0

/-- The inverse of the Green function of an operator and its adjoint, from its first moments. -/
theorem EigBasis.green_inverse {ι κ : Type} [Fintype ι] [DecidableEq ι] [Fintype κ] [DecidableEq κ] {H : Matrix ι ι ℝ} {u : κ → ι → ℝ} {E : κ → ℝ} (h : EigBasis H u E) (β : ℝ) (A : Matrix ι ι ℝ) {m q : ℝ}
    (h0 : Spec.thermal β H (cplx (A * Aᵀ + Aᵀ * A)) = 1) (h1 : Spec.thermal β H (cplx ((A * H - H * A) * Aᵀ + Aᵀ * (A * H - H * A))) = (m : ℝ))
    (h2 : Spec.thermal β H (cplx (((A * H - H * A) * H - H * (A * H - H * A)) * Aᵀ + Aᵀ * ((A * H - H * A) * H - H * (A * H - H * A)))) = (q : ℝ)) :
    ∃ w' p' : κ × κ → ℝ, (∀ k, 0 ≤ w' k) ∧ ∑ k, w' k = q - m ^ 2 ∧ ∀ z : ℂ, z.im ≠ 0 → ∀ g, IsGreen β H A Aᵀ z g → g⁻¹ = z - m - ∑ k, (w' k : ℂ) / (z - p' k) := by
  rw [h.thermal, ← h.weight_sum] at h0 h1 h2
  rw [Finset.sum_congr rfl fun x _ => h.commW β A Aᵀ x] at h1
  rw [Finset.sum_congr rfl fun x _ => h.commW β (A * H - H * A) Aᵀ x, Finset.sum_congr rfl fun x _ => by rw [h.commW β A Aᵀ x]] at h2
  have g0 : ∑ x, lehmannW β u E A Aᵀ x = 1 := by exact_mod_cast h0
  have g1 : ∑ x, lehmannW β u E A Aᵀ x * (E x.2 - E x.1) = m := by exact_mod_cast h1
  have g2 : ∑ x, lehmannW β u E A Aᵀ x * (E x.2 - E x.1) ^ 2 = q := by
    rw [← Complex.ofReal_injective h2]
    exact Finset.sum_congr rfl fun x _ => by ring
  obtain ⟨w', p', a1, a2, a3⟩ := inverse_poles (fun x => lehmannW β u E A Aᵀ x) (fun x => E x.2 - E x.1) (lehmannW_nonneg β u E A) g0
  refine ⟨w', p', a1, by rw [a2, g1, g2], fun z hz g hg => ?_⟩
  rw [(h.green_pairs β A Aᵀ hz g).mp hg, a3 z hz, g1]

/-- **C176** The self-energy of the impurity object is a constant plus a sum of poles, with the spectral weight `U² n (1 - n)` for every broadening; `n` is the
occupation of the impurity with the other spin. -/
theorem C176_sigma (nb : ℕ) (ek0 vk0 : ℕ → ℝ) (hist : List ImpOp) (ek vk : ℕ → ℝ) (mus : List ℝ) (hn : 1 ≤ nb) (hn' : nb ≤ 31) (U : ℝ) (hv : ∀ k < nb, vk k = 0 ∨ 1 / 10 ^ 7 < |vk k|)
    {es : Espace (ℕ × ℕ)} (hes : EigenEspace (nb + 1) ((impAfter nb ek0 vk0 hist ek vk mus).args (nb + 1) U).ham es) {occ : List OccSct} (hocc : List.Forall₂ OccView es occ) (egs' : ℝ) :
    ∃ g Nu Nd As, buildGfExact junk (nb + 1) es beta egs 0 false = .ok g ∧ getOccupation occ egs' beta (nb + 1) = .ok (Nu, Nd, As) ∧ ∀ eta : ℝ, 0 < eta →
      Integrable (fun e : ℝ => -((impAfter nb ek0 vk0 hist ek vk mus).sigma (nb + 1) (fun z => g.call z.re z.im) (e + Complex.I * eta)).im / Real.pi) ∧
      ∫ e : ℝ, -((impAfter nb ek0 vk0 hist ek vk mus).sigma (nb + 1) (fun z => g.call z.re z.im) (e + Complex.I * eta)).im / Real.pi = U ^ 2 * (Nd 0 * (1 - Nd 0)) := by
  set I := impAfter nb ek0 vk0 hist ek vk mus with hI
  have ho : (I.args (nb + 1) U).OnsiteOnly := ⟨fun i j hi hj hij => (impAfter_only nb ek0 vk0 hist ek vk mus U).U i j hi hj fun hh => hij (hh.1.trans hh.2.symm), rfl, rfl⟩
  have hpos : 0 < (I.args (nb + 1) U).n := Nat.succ_pos nb
  obtain ⟨g, hg, hG⟩ := C92_gf_exact (junk := junk) (beta := beta) (egs := egs) (n := nb + 1) (by omega) hes (Nat.succ_pos nb)
  obtain ⟨Nu, Nd, As, hocc', hnn⟩ := C101_get_occupation hes hocc egs' beta
  refine ⟨g, Nu, Nd, As, hg, hocc', fun eta he => ?_⟩
  have hT : (ann ℝ (orb false (0 : Fin (nb + 1))))ᵀ = cre ℝ (orb false (0 : Fin (nb + 1))) := rfl
  obtain ⟨w', p', b1, b2, b3⟩ := hes.basis.green_inverse beta (ann ℝ (orb false (0 : Fin (nb + 1))))
    (m := hartreeLevel (I.args (nb + 1) U) Nu Nd false 0) (q := _) (by rw [hT, ann_cre_anticomm, if_pos rfl, cplx_one, gibbs_trace_pos hes.basis])
    (by rw [hT]; exact thermal_moment ho.Jx ho.Jp hes false ⟨0, hpos⟩ hnn) (by rw [hT]; exact thermal_second ho hes false ⟨0, hpos⟩ hnn)
  have e : hartreeLevel (I.args (nb + 1) U) Nu Nd false 0 = I.H 0 0 + U * Nd 0 := by
    unfold hartreeLevel
    rw [Finset.sum_eq_zero fun j _ => ?_]
    · simp [Imp.args, VArg.array]
    · by_cases h : (0 : ℕ) = j
      · simp [h]
      · simp [Imp.args, VArg.array, Ne.symm h]
  have e2 : ∀ M : Matrix (Fin (nb + 1)) (Fin (nb + 1)) ℝ, M = siam (I.H 0 0) (fun k : Fin nb => ek k) (fun k : Fin nb => vk k) →
      (∑ j : Fin (nb + 1), if (0 : Fin (nb + 1)) ≠ j then M 0 j ^ 2 else 0) = ∑ k : Fin nb, vk k ^ 2 := by
    rintro M rfl
    rw [Fin.sum_univ_succ]
    simp [siam, Fin.succ_ne_zero, eq_comm]
  have e3 := e2 _ ((impAfter_oneBody nb ek0 vk0 hist ek vk mus U false).trans (by rw [(kept_of_large nb hv).1]))
  have e4 : (I.args (nb + 1) U).V.U.getD 0 0 0 = U := by simp [Imp.args, VArg.array]
  have hsum : ∑ k, w' k - ∑ k : Fin nb, vk k ^ 2 = U ^ 2 * (Nd 0 * (1 - Nd 0)) := by
    rw [b2]
    refine Eq.trans (congrArg (fun x => _ + x + _ - _ - _) e3) ?_
    change hartreeLevel (I.args (nb + 1) U) Nu Nd false 0 ^ 2 + _ + (I.args (nb + 1) U).V.U.getD 0 0 0 ^ 2 * _ - _ - _ = _
    rw [e4]
    simp only [Bool.false_eq_true, if_false]
    ring
  have key : ∀ x : ℝ, -(I.sigma (nb + 1) (fun z => g.call z.re z.im) (x + Complex.I * eta)).im / Real.pi =
      -(∑ k, (w' k : ℂ) / ((x : ℂ) + Complex.I * eta - p' k)).im / Real.pi - -(∑ k : Fin nb, ((vk k ^ 2 : ℝ) : ℂ) / ((x : ℂ) + Complex.I * eta - ek k)).im / Real.pi := fun x => by
    have hz : ((x : ℂ) + Complex.I * eta).im ≠ 0 := by simpa using he.ne'
    have hg' := (hG x eta he.ne' _).mpr rfl
    have h5 := b3 _ hz _ (by rw [hT]; exact hg')
    unfold Imp.sigma
    rw [impAfter_freeInv]
    have e6 : ((x : ℂ) + Complex.I * eta).re = x := by simp
    have e7 : ((x : ℂ) + Complex.I * eta).im = eta := by simp
    simp only [e6, e7]
    rw [h5, e]
    unfold hybridisation
    have e8 : (x : ℂ) + Complex.I * eta - (I.H 0 0 : ℝ) - ∑ k : Fin nb, (vk k : ℂ) ^ 2 / ((x : ℂ) + Complex.I * eta - ek k) -
        ((x : ℂ) + Complex.I * eta - ((I.H 0 0 + U * Nd 0 : ℝ) : ℂ) - ∑ k, (w' k : ℂ) / ((x : ℂ) + Complex.I * eta - p' k)) =
        ((U * Nd 0 : ℝ) : ℂ) + ∑ k, (w' k : ℂ) / ((x : ℂ) + Complex.I * eta - p' k) - ∑ k : Fin nb, ((vk k ^ 2 : ℝ) : ℂ) / ((x : ℂ) + Complex.I * eta - ek k) := by
      push_cast
      ring
    rw [e8, Complex.sub_im, Complex.add_im, Complex.ofReal_im]
    ring
  simp only [key]
  obtain ⟨i1, i2⟩ := pole_integral w' p' he
  obtain ⟨j1, j2⟩ := pole_integral (fun k : Fin nb => vk k ^ 2) (fun k : Fin nb => ek k) he
  refine ⟨i1.sub j1, ?_⟩
  rw [integral_sub i1 j1, i2, j2, hsum]

/-- Non-vacuity: an impurity coupled to two bath sites, `U = 2`; the self-energy, the elements of the matrix Green function and a run of `build_espace`. -/
example : ∃ es occ g Nu Nd As, EigenEspace 3 ((impAfter 2 (fun _ => 0) (fun _ => 0) [] (fun k => k) (fun _ => 1 / 2) [3]).args 3 2).ham es ∧ List.Forall₂ OccView es occ ∧
    buildGfExact junk 3 es beta egs 0 false = .ok g ∧ getOccupation occ 0 beta 3 = .ok (Nu, Nd, As) ∧ ∀ eta : ℝ, 0 < eta →
      ∫ e : ℝ, -((impAfter 2 (fun _ => 0) (fun _ => 0) [] (fun k => k) (fun _ => 1 / 2) [3]).sigma 3 (fun z => g.call z.re z.im) (e + Complex.I * eta)).im / Real.pi = 2 ^ 2 * (Nd 0 * (1 - Nd 0)) := by
  obtain ⟨es, hes⟩ := eigenEspace_exists (impAfter_valid 2 (fun _ => 0) (fun _ => 0) [] (fun k => k) (fun _ => 1 / 2) [3] (by norm_num) (by norm_num) 2)
  have hv : List.Forall₂ OccView es (es.map fun p => OccSct.ofSct p.2) := by
    rw [List.forall₂_map_right_iff]
    exact List.forall₂_same.mpr fun p _ => OccSct.ofSct_view p
  obtain ⟨g, Nu, Nd, As, h1, h2, h3⟩ := C176_sigma (junk := junk) (beta := beta) (egs := egs) 2 (fun _ => 0) (fun _ => 0) [] (fun k => k) (fun _ => 1 / 2) [3] (by norm_num) (by norm_num) 2
    (fun k _ => Or.inr (by rw [abs_of_pos] <;> norm_num)) hes hv 0
  exact ⟨es, _, g, Nu, Nd, As, hes, hv, h1, h2, fun eta he => (h3 eta he).2⟩

example : ∃ es e0 g, BuildEspace 64 ((impAfter 2 (fun _ => 0) (fun _ => 0) [] (fun k => k) (fun _ => 1 / 2) [3]).args 3 2) none (.ok (es, e0)) ∧
    buildGfExact junk 3 es beta egs 0 false = .ok g ∧ ∀ eta : ℝ, 0 < eta → ∫ e : ℝ, -(g.call e eta).im / Real.pi = 1 := by
  have hv := impAfter_valid 2 (fun _ => 0) (fun _ => 0) [] (fun k => k) (fun _ => 1 / 2) [3] (by norm_num) (by norm_num) 2
  obtain ⟨⟨es, e0⟩, h⟩ := (buildEspace_none_ok (w := 64) hv (by change 3 ≤ 64; norm_num)).1
  obtain ⟨g, h1, h2⟩ := C176_gf_exact (junk := junk) (beta := beta) (egs := egs) hv (by change 3 ≤ 64; norm_num) h (pos := 0) (by change 0 < 3; norm_num)
  exact ⟨es, e0, g, h, h1, fun eta he => (h2 eta he).2.1⟩

end Edpyt
