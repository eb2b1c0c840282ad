import Verif.Props.ZeroFermi
import Verif.Props.ThermalGf
import Verif.Props.Observs
import Verif.Proof.Amplitude
import Verif.Spec.ThermalOcc
/-!
Property C101: integrating the exact Green function and averaging the number operator give the same occupation.
-/
namespace Edpyt
open Spec Matrix

section
variable {ι : Type} [Fintype ι] [DecidableEq ι] {H : Matrix ι ι ℝ} {κ : Type} [Fintype κ] [DecidableEq κ] {u : κ → ι → ℝ} {E : κ → ℝ}

theorem EigBasis.closure (h : EigBasis H u E) (A B : Matrix ι ι ℝ) (x : ι → ℝ) :
    ∑ b, (x ⬝ᵥ (A *ᵥ u b)) * (u b ⬝ᵥ (B *ᵥ x)) = x ⬝ᵥ ((A * B) *ᵥ x) := by
  conv_rhs => rw [← Matrix.mulVec_mulVec, ← h.expand (B *ᵥ x), Matrix.mulVec_sum, dotProduct_sum]
  refine Finset.sum_congr rfl fun b _ => ?_
  rw [Matrix.mulVec_smul, dotProduct_smul, smul_eq_mul, mul_comm]

/-- The weight of the pair of eigenstates `a`, `b` in the spectral function. -/
noncomputable def lehmannW (β : ℝ) (u : κ → ι → ℝ) (E : κ → ℝ) (A B : Matrix ι ι ℝ) (x : κ × κ) : ℝ :=
  (Real.exp (-β * E x.1) + Real.exp (-β * E x.2)) * ((u x.1 ⬝ᵥ (A *ᵥ u x.2)) * (u x.2 ⬝ᵥ (B *ᵥ u x.1))) / ∑ a, Real.exp (-β * E a)

theorem EigBasis.green_pairs (h : EigBasis H u E) (β : ℝ) (A B : Matrix ι ι ℝ) {z : ℂ} (hz : z.im ≠ 0) (g : ℂ) :
    IsGreen β H A B z g ↔ g = ∑ x : κ × κ, (lehmannW β u E A B x : ℂ) / (z - ((E x.2 - E x.1 : ℝ) : ℂ)) := by
  rw [h.green β A B hz, Fintype.sum_prod_type, Finset.sum_div]
  apply Eq.congr rfl
  refine Finset.sum_congr rfl fun a _ => ?_
  rw [Finset.sum_div]
  refine Finset.sum_congr rfl fun b _ => ?_
  unfold lehmannW
  push_cast
  rw [div_eq_mul_inv, div_eq_mul_inv, div_eq_mul_inv]
  ring

theorem sum_exp_pos [Nonempty κ] (β : ℝ) (E : κ → ℝ) : 0 < ∑ a, Real.exp (-β * E a) :=
  Finset.sum_pos (fun _ _ => Real.exp_pos _) Finset.univ_nonempty

/-- Detailed balance: the weights times the Fermi function are the thermal average of `B A`. -/
theorem EigBasis.fermi_sum (h : EigBasis H u E) (β : ℝ) (A B : Matrix ι ι ℝ) :
    ∑ x : κ × κ, lehmannW β u E A B x * fermiOcc β (E x.2 - E x.1) =
      (∑ b, Real.exp (-β * E b) * (u b ⬝ᵥ ((B * A) *ᵥ u b))) / ∑ a, Real.exp (-β * E a) := by
  rw [Fintype.sum_prod_type, Finset.sum_comm, Finset.sum_div]
  refine Finset.sum_congr rfl fun b _ => ?_
  rw [← h.closure B A (u b), Finset.mul_sum, Finset.sum_div]
  refine Finset.sum_congr rfl fun a _ => ?_
  have key : (Real.exp (-β * E a) + Real.exp (-β * E b)) * fermiOcc β (E b - E a) = Real.exp (-β * E b) := by
    unfold fermiOcc
    rw [mul_one_div, div_eq_iff (by positivity), mul_add, mul_one, ← Real.exp_add]
    congr 2; ring
  rw [← key]
  unfold lehmannW
  ring

theorem EigBasis.weight_sum (h : EigBasis H u E) (β : ℝ) (A B : Matrix ι ι ℝ) :
    ∑ x : κ × κ, lehmannW β u E A B x = (∑ b, Real.exp (-β * E b) * (u b ⬝ᵥ ((A * B + B * A) *ᵥ u b))) / ∑ a, Real.exp (-β * E a) := by
  have h1 : ∀ x : κ × κ, lehmannW β u E A B x = Real.exp (-β * E x.1) * ((u x.1 ⬝ᵥ (A *ᵥ u x.2)) * (u x.2 ⬝ᵥ (B *ᵥ u x.1))) / (∑ a, Real.exp (-β * E a)) +
      Real.exp (-β * E x.2) * ((u x.2 ⬝ᵥ (B *ᵥ u x.1)) * (u x.1 ⬝ᵥ (A *ᵥ u x.2))) / (∑ a, Real.exp (-β * E a)) := by
    intro x; unfold lehmannW; ring
  rw [Finset.sum_congr rfl fun x _ => h1 x, Finset.sum_add_distrib, Fintype.sum_prod_type, Fintype.sum_prod_type_right, Finset.sum_div, ← Finset.sum_add_distrib]
  refine Finset.sum_congr rfl fun b _ => ?_
  rw [Matrix.add_mulVec, dotProduct_add, ← h.closure A B, ← h.closure B A, mul_add, add_div, Finset.mul_sum, Finset.mul_sum, Finset.sum_div, Finset.sum_div]
end

/-- `integrate_gf` evaluates its argument away from the real axis only. -/
theorem integrateGf_congr {kB T : ℝ} (hk : 0 < kB) (hT : 0 < T) (mu : ℝ) {f g : ℂ → ℂ} (hfg : ∀ z : ℂ, z.im ≠ 0 → f z = g z) {nzp : ℕ} {rho : ℝ} :
    IntegrateGf kB f mu T nzp rho ↔ IntegrateGf kB g mu T nzp rho := by
  unfold IntegrateGf
  refine exists_congr fun zp => exists_congr fun Rp => and_congr_right fun h => ?_
  obtain ⟨w, V, hE, rfl, rfl⟩ := h
  rw [reshape_A, reshape_B] at hE
  simp only
  rw [hfg (Complex.I * (10 ^ 10 : ℝ)) (by norm_num [Complex.ofReal_im, Complex.ofReal_re])]
  have hfold : ∀ (L : List ℕ) (s : ℂ) (F G : ℕ → ℂ), (∀ i ∈ L, F i = G i) → L.foldl (fun s i => s + F i) s = L.foldl (fun s i => s + G i) s := by
    intro L
    induction L with
    | nil => intros; rfl
    | cons x L ih =>
      intro s F G h
      simp only [List.foldl_cons]
      rw [h x (by simp), ih _ F G fun i hi => h i (by simp [hi])]
  rw [hfold (List.range nzp) 0 _ (fun i => g _ * _)]
  intro i hi
  rw [List.mem_range] at hi
  rw [hfg]
  have hw := hE.ne_zero ⟨i, by omega⟩
  have hz := (zfPoles_eq w V (i := i) (by omega)).1
  rw [List.getElem?_map, List.getElem?_map, List.getElem?_range hi]
  simp only [Option.map_some, Option.getD_some, hz]
  have : ((mu : ℂ) + Complex.I * ((-(1 / w ⟨i, by omega⟩) : ℝ) : ℂ) / ((1 / (kB * T) : ℝ) : ℂ)) = (mu : ℂ) + Complex.I * ((-(1 / w ⟨i, by omega⟩) / (1 / (kB * T)) : ℝ) : ℂ) := by
    push_cast; ring
  rw [this]
  simp only [Complex.add_im, Complex.ofReal_im, Complex.mul_im, Complex.I_re, Complex.I_im, Complex.ofReal_re]
  simp only [zero_mul, one_mul, zero_add]
  have : kB * T ≠ 0 := by positivity
  simp [hw, hk.ne', hT.ne']

/-- The error of `integrate_gf` for poles of size at most `W`. -/
noncomputable def integrateErr (kB T W : ℝ) (nzp : ℕ) : ℝ :=
  1 / 2 * (W ^ 2 / (10 ^ 20 + W ^ 2)) + 1 / 2 * (W / (2 * (kB * T)) *
    ((∏ k ∈ Finset.range (2 * nzp), (W / (2 * (kB * T))) ^ 2 / (2 * (k : ℝ) + 1) ^ 2) * (1 / (2 * ((2 * nzp : ℕ) : ℝ) + 1))))

theorem integrateErr_mono {kB T : ℝ} (hk : 0 < kB) (hT : 0 < T) {W e : ℝ} (h : |e| ≤ W) (nzp : ℕ) :
    1 / 2 * (e ^ 2 / (10 ^ 20 + e ^ 2)) + 1 / 2 * (|e / (2 * (kB * T))| *
          ((∏ k ∈ Finset.range (2 * nzp), (e / (2 * (kB * T))) ^ 2 / (2 * (k : ℝ) + 1) ^ 2) * (1 / (2 * ((2 * nzp : ℕ) : ℝ) + 1)))) ≤ integrateErr kB T W nzp := by
  have hW : 0 ≤ W := (abs_nonneg e).trans h
  have h2 : e ^ 2 ≤ W ^ 2 := sq_le_sq' (by linarith [neg_abs_le e]) ((le_abs_self e).trans h)
  unfold integrateErr
  have hkT : 0 < 2 * (kB * T) := by positivity
  have hx : |e / (2 * (kB * T))| ≤ W / (2 * (kB * T)) := by
    rw [abs_div, abs_of_pos hkT]
    exact div_le_div_of_nonneg_right h hkT.le
  have hx2 : (e / (2 * (kB * T))) ^ 2 ≤ (W / (2 * (kB * T))) ^ 2 := by
    rw [div_pow, div_pow]
    exact div_le_div_of_nonneg_right h2 (by positivity)
  refine add_le_add (mul_le_mul_of_nonneg_left ?_ (by norm_num)) (mul_le_mul_of_nonneg_left ?_ (by norm_num))
  · rw [div_le_div_iff₀ (by positivity) (by positivity)]
    nlinarith
  · refine mul_le_mul hx (mul_le_mul_of_nonneg_right ?_ (by positivity)) (by positivity) (by positivity)
    exact Finset.prod_le_prod (fun k _ => by positivity) fun k _ => div_le_div_of_nonneg_right hx2 (by positivity)

theorem integrateErr_tendsto {kB T : ℝ} (W : ℝ) :
    Filter.Tendsto (integrateErr kB T W) Filter.atTop (nhds (1 / 2 * (W ^ 2 / (10 ^ 20 + W ^ 2)))) := by
  have h2 : Filter.Tendsto (fun n : ℕ => 2 * n) Filter.atTop Filter.atTop := Filter.tendsto_id.const_mul_atTop' (by norm_num)
  have := ((((tanhBound_tendsto (W / (2 * (kB * T)))).comp h2).const_mul (W / (2 * (kB * T)))).const_mul (1 / 2)).const_add (1 / 2 * (W ^ 2 / (10 ^ 20 + W ^ 2)))
  simp only [mul_zero, add_zero] at this
  exact this

variable {n junk : ℕ} {es : Espace (ℕ × ℕ)} {egs : ℝ}

/-- All excitation energies of the espace are at most `W`. -/
def SpreadLe (es : Espace (ℕ × ℕ)) (W : ℝ) : Prop :=
  ∀ p ∈ es, ∀ p' ∈ es, ∀ E ∈ p.2.eigvals, ∀ E' ∈ p'.2.eigvals, |E - E'| ≤ W

theorem SpreadLe.esVal (hes : CompleteEspace n es) {W : ℝ} (hW : SpreadLe es W) (a b : EigIdx n) : |esVal n es b - esVal n es a| ≤ W := by
  have key : ∀ a : EigIdx n, ∃ p ∈ es, Edpyt.esVal n es a ∈ p.2.eigvals := by
    rintro ⟨⟨u, d⟩, k⟩
    obtain ⟨up, dw, hm, -, -, -, -, hl⟩ := hes.at (u := u) (d := d) (by have := u.2; omega) (by have := d.2; omega)
    refine ⟨_, hm, ?_⟩
    unfold Edpyt.esVal
    have hk : (k : ℕ) < (sctAt es ((u : ℕ), (d : ℕ))).eigvals.length := by rw [hl]; exact k.2
    simp only [List.getElem?_eq_getElem hk, Option.getD_some]
    exact List.getElem_mem _
  obtain ⟨p, hp, hE⟩ := key b
  obtain ⟨p', hp', hE'⟩ := key a
  exact hW p hp p' hp' _ hE _ hE'

theorem adjoint_dot {ι : Type} [Fintype ι] (A : Matrix ι ι ℝ) (x y : ι → ℝ) : x ⬝ᵥ (A *ᵥ y) = y ⬝ᵥ (Aᵀ *ᵥ x) := by
  rw [Matrix.mulVec_transpose, dotProduct_comm y, ← Matrix.dotProduct_mulVec]

/-- Any Green function that agrees off the real axis with the thermal one is integrated to the thermal occupation. -/
theorem integrateGf_thermal {H : Matrix (Finset (Fin (n + n))) (Finset (Fin (n + n))) ℝ} (hes : EigenEspace n H es) (s : Bool) (k : Fin n) {kB T : ℝ}
    (hk : 0 < kB) (hT : 0 < T) {W : ℝ} (hW : SpreadLe es W) {gf : ℂ → ℂ}
    (hg : ∀ z : ℂ, z.im ≠ 0 → IsGreen (1 / (kB * T)) H (ann ℝ (orb s k)) (cre ℝ (orb s k)) z (gf z)) {nzp : ℕ} (hn : 0 < nzp) :
    (∃ rho, IntegrateGf kB gf 0 T nzp rho) ∧
    ∀ rho, IntegrateGf kB gf 0 T nzp rho → ‖(rho : ℂ) - thermalOcc (1 / (kB * T)) H s k‖ ≤ integrateErr kB T W nzp := by
  set β := 1 / (kB * T) with hβ
  have hb := hes.basis
  set a := lehmannW β (esKet n es) (esVal n es) (ann ℝ (orb s k)) (cre ℝ (orb s k)) with ha
  set e : EigIdx n × EigIdx n → ℝ := fun x => esVal n es x.2 - esVal n es x.1 with he
  have heq : ∀ z : ℂ, z.im ≠ 0 → gf z = ∑ x, (a x : ℂ) / (z - (e x : ℂ)) := fun z hz => (hb.green_pairs β _ _ hz _).mp (hg z hz)
  obtain ⟨⟨rho, h1⟩, h2⟩ := C100_integrate_gf hk hT 0 a e hn
  refine ⟨⟨rho, (integrateGf_congr hk hT 0 heq).mpr h1⟩, fun rho h => ?_⟩
  have h3 := h2 rho ((integrateGf_congr hk hT 0 heq).mp h)
  have hne : Nonempty (EigIdx n) := by
    rw [← Fintype.card_pos_iff, hb.card]; exact Fintype.card_pos
  have hZ := sum_exp_pos β (esVal n es)
  have hocc : thermalOcc β H s k = ((∑ x, a x * fermiOcc β (e x) : ℝ) : ℂ) := by
    unfold thermalOcc
    rw [hb.thermal β, ha, he, hb.fermi_sum β]; rfl
  have hpos : ∀ x, 0 ≤ a x := by
    intro x
    rw [ha]; unfold lehmannW
    rw [adjoint_dot (ann ℝ (orb s k))]
    refine div_nonneg (mul_nonneg (by positivity) ?_) hZ.le
    exact mul_self_nonneg _
  have hsum : ∑ x, a x = 1 := by
    rw [ha, hb.weight_sum β, ann_cre_anticomm, if_pos rfl]
    simp only [Matrix.one_mulVec, hb.orth, if_true, mul_one]
    exact div_self hZ.ne'
  rw [hocc, ← Complex.ofReal_sub, Complex.norm_real, Real.norm_eq_abs]
  simp only [sub_zero] at h3
  refine h3.trans ?_
  calc _ ≤ ∑ x, |a x| * integrateErr kB T W nzp := by
        refine Finset.sum_le_sum fun x _ => mul_le_mul_of_nonneg_left ?_ (abs_nonneg _)
        exact integrateErr_mono hk hT (hW.esVal hes.toCompleteEspace _ _) nzp
    _ = integrateErr kB T W nzp := by
        rw [← Finset.sum_mul, Finset.sum_congr rfl fun x _ => abs_of_nonneg (hpos x), hsum, one_mul]

/-- **C101** `integrate_gf` applied to the Green function of `build_gf_exact`: for every complete eigen-espace of a Hamiltonian `H`, site, temperature
and number of points the call returns, and what it returns differs from the thermal occupation `tr(e^{-βH} n)/tr(e^{-βH})` by at most `integrateErr`. -/
theorem C101_integrate_gf_exact (hn32 : n ≤ 32) {H : Matrix (Finset (Fin (n + n))) (Finset (Fin (n + n))) ℝ} (hes : EigenEspace n H es) {pos : ℕ} (hpos : pos < n)
    {kB T : ℝ} (hk : 0 < kB) (hT : 0 < T) {W : ℝ} (hW : SpreadLe es W) {nzp : ℕ} (hn : 0 < nzp) :
    ∃ g, buildGfExact junk n es (1 / (kB * T)) egs pos false = .ok g ∧
      (∃ rho, IntegrateGf kB (fun z => g.call z.re z.im) 0 T nzp rho) ∧
      ∀ rho, IntegrateGf kB (fun z => g.call z.re z.im) 0 T nzp rho →
        ‖(rho : ℂ) - thermalOcc (1 / (kB * T)) H false ⟨pos, hpos⟩‖ ≤ integrateErr kB T W nzp := by
  obtain ⟨g, h1, h2⟩ := C92_gf_exact (junk := junk) (beta := 1 / (kB * T)) (egs := egs) hn32 hes hpos
  refine ⟨g, h1, integrateGf_thermal hes false ⟨pos, hpos⟩ hk hT hW (fun z hz => ?_) hn⟩
  have := (h2 z.re z.im hz _).mpr rfl
  rwa [mul_comm Complex.I, Complex.re_add_im] at this

/-- **C101** the error vanishes, up to the `1e10` that stands for infinity, as the number of points grows. -/
theorem C101_error_limit {kB T : ℝ} (W : ℝ) :
    Filter.Tendsto (integrateErr kB T W) Filter.atTop (nhds (1 / 2 * (W ^ 2 / (10 ^ 20 + W ^ 2)))) := integrateErr_tendsto W

theorem ket_congr {up dw : List ℕ} {v w : ℕ → ℝ} (h : ∀ r < up.length * dw.length, v r = w r) : ket n up dw v = ket n up dw w := by
  funext S
  unfold ket
  refine Finset.sum_congr rfl fun iu _ => Finset.sum_congr rfl fun id _ => ?_
  rw [h]
  calc (iu : ℕ) + up.length * id < up.length * (id + 1) := by have := iu.2; rw [mul_add]; omega
    _ ≤ up.length * dw.length := Nat.mul_le_mul_left _ id.2

theorem OccView.ok {p : (ℕ × ℕ) × Sct} {s : OccSct} (h : OccView p s) {nup ndw : ℕ} {up dw : List ℕ} (hok : SctOk n nup ndw p.2 up dw) : OccOk n nup ndw s := by
  have e1 : s.up = up := by rw [h.up, hok.states]; rfl
  have e2 : s.dw = dw := by rw [h.dw, hok.states]; rfl
  exact ⟨by rw [e1]; exact hok.hup, by rw [e2]; exact hok.hdw, ⟨by rw [e1, e2, h.vals, h.shape, hok.d], h.lay⟩⟩

theorem OccView.psi {p : (ℕ × ℕ) × Sct} {s : OccSct} (h : OccView p s) {nup ndw : ℕ} {up dw : List ℕ} (hok : SctOk n nup ndw p.2 up dw) {j : ℕ}
    (hj : j < p.2.eigvals.length) : EvecArr.psi s.eigvecs n s.up s.dw s.eigvals.length j = p.2.ket n j := by
  have e1 : s.up = up := by rw [h.up, hok.states]; rfl
  have e2 : s.dw = dw := by rw [h.dw, hok.states]; rfl
  rw [hok.ket_eq]
  unfold EvecArr.psi
  rw [e1, e2, h.vals, ← hok.d]
  refine ket_congr fun r hr => ?_
  exact h.elem r (by rw [hok.d]; exact hr) j hj

theorem sum_espace (hes : CompleteEspace n es) (F : ℝ → (Finset (Fin (n + n)) → ℝ) → ℝ) :
    ∑ x, F (esVal n es x) (esKet n es x) = (es.map fun p => ∑ k ∈ Finset.range p.2.eigvals.length, F (p.2.eigvals[k]?.getD 0) (p.2.ket n k)).sum := by
  have h3 := sum_sigma_sectors n (fun q k => F ((sctAt es q).eigvals[k]?.getD 0) ((sctAt es q).ket n k))
  refine Eq.trans h3 ?_
  rw [← (hes.keys.map _).sum_eq, List.map_map]
  congr 1
  apply List.map_congr_left
  rintro ⟨⟨u, d⟩, s⟩ hp
  have hb := mem_ndindex2.mp (hes.keys.mem_iff.mp (List.mem_map_of_mem (f := Prod.fst) hp))
  obtain ⟨up, dw, hm, hget, -, -, -, hl⟩ := hes.at (u := u) (d := d) (by simp at hb; omega) (by simp at hb; omega)
  have hs : sctAt es (u, d) = s := by
    have := dictGet_mem hes.nodup hp
    rw [hget] at this
    exact Except.ok.inj this
  simp only [Function.comp_apply, hs]
  rw [hs] at hl
  rw [hl]

/-- **C101** `get_occupation` computes the thermal occupations of the Hamiltonian whose eigenstates it is given, for both spins, every site and every
reference energy. -/
theorem C101_get_occupation {H : Matrix (Finset (Fin (n + n))) (Finset (Fin (n + n))) ℝ} (hes : EigenEspace n H es) {occ : List OccSct}
    (hocc : List.Forall₂ OccView es occ) (egs beta : ℝ) :
    ∃ U D As, getOccupation occ egs beta n = .ok (U, D, As) ∧ ∀ k : Fin n,
      (U k : ℂ) = thermalOcc beta H false k ∧ (D k : ℂ) = thermalOcc beta H true k := by
  have hok : ∀ s ∈ occ, ∃ nup ndw, OccOk n nup ndw s := by
    intro s hs
    obtain ⟨p, hp, h⟩ : ∃ p ∈ es, OccView p s := by
      clear hes
      induction hocc with
      | nil => cases hs
      | cons hv _ ih =>
        rcases List.mem_cons.mp hs with rfl | hs
        · exact ⟨_, by simp, hv⟩
        · obtain ⟨p, hp, h⟩ := ih hs
          exact ⟨p, by simp [hp], h⟩
    obtain ⟨up, dw, h1, -⟩ := hes.ok p hp
    exact ⟨_, _, h.ok h1⟩
  obtain ⟨U, D, As, h1, h2⟩ := C43_thermal egs beta occ hok
  refine ⟨U, D, As, h1, ?_⟩
  have hsum : ∀ (f : OccSct → ℝ) (F : ℝ → (Finset (Fin (n + n)) → ℝ) → ℝ),
      (∀ p ∈ es, ∀ s, OccView p s → f s = ∑ k ∈ Finset.range p.2.eigvals.length, F (p.2.eigvals[k]?.getD 0) (p.2.ket n k)) →
      (occ.map f).sum = ∑ x, F (esVal n es x) (esKet n es x) := by
    intro f F h
    rw [sum_espace hes.toCompleteEspace]
    congr 1
    have : ∀ (es : Espace (ℕ × ℕ)) (occ : List OccSct), List.Forall₂ OccView es occ →
        (∀ p ∈ es, ∀ s, OccView p s → f s = ∑ k ∈ Finset.range p.2.eigvals.length, F (p.2.eigvals[k]?.getD 0) (p.2.ket n k)) →
        occ.map f = es.map fun p => ∑ k ∈ Finset.range p.2.eigvals.length, F (p.2.eigvals[k]?.getD 0) (p.2.ket n k) := by
      intro es occ h
      induction h with
      | nil => intro _; rfl
      | cons hv _ ih =>
        intro h'
        rw [List.map_cons, List.map_cons, h' _ (by simp) _ hv, ih fun p hp => h' p (by simp [hp])]
    exact this es occ hocc h
  have hne : Nonempty (EigIdx n) := by
    rw [← Fintype.card_pos_iff, hes.basis.card]; exact Fintype.card_pos
  have hexp : ∀ E : ℝ, Real.exp (-beta * (E - egs)) = Real.exp (beta * egs) * Real.exp (-beta * E) := by
    intro E; rw [← Real.exp_add]; congr 1; ring
  have hZ : (occ.map (boltzZ egs beta)).sum = Real.exp (beta * egs) * ∑ x, Real.exp (-beta * esVal n es x) := by
    rw [hsum (boltzZ egs beta) (fun E _ => Real.exp (-beta * (E - egs))) ?_, Finset.mul_sum]
    · exact Finset.sum_congr rfl fun x _ => hexp _
    · intro p _ s hv
      unfold boltzZ
      rw [Finset.sum_range]
      have hlen : s.eigvals.length = p.2.eigvals.length := by rw [hv.vals]
      refine Fintype.sum_equiv (finCongr hlen) _ _ fun j => ?_
      have hj : p.2.eigvals[(j : ℕ)]?.getD 0 = s.eigvals[j] := by rw [← hv.vals]; simp
      simp [hj]
  have hO : ∀ (b : Bool) (k : Fin n), (occ.map (boltzOcc egs beta n b k)).sum =
      Real.exp (beta * egs) * ∑ x, Real.exp (-beta * esVal n es x) * (esKet n es x ⬝ᵥ (num ℝ (orb b k) *ᵥ esKet n es x)) := by
    intro b k
    rw [hsum (boltzOcc egs beta n b k) (fun E x => Real.exp (-beta * (E - egs)) * (x ⬝ᵥ (num ℝ (orb b k) *ᵥ x))) ?_, Finset.mul_sum]
    · exact Finset.sum_congr rfl fun x _ => by rw [hexp, mul_assoc]
    · intro p hp s hv
      obtain ⟨up, dw, hk, -⟩ := hes.ok p hp
      unfold boltzOcc
      rw [Finset.sum_range]
      have hlen : s.eigvals.length = p.2.eigvals.length := by rw [hv.vals]
      refine Fintype.sum_equiv (finCongr hlen) _ _ fun j => ?_
      rw [hv.psi hk (by have := j.2; omega)]
      have hj : p.2.eigvals[(j : ℕ)]?.getD 0 = s.eigvals[j] := by rw [← hv.vals]; simp
      simp [hj]
  have fin : ∀ (b : Bool) (k : Fin n), (((occ.map (boltzOcc egs beta n b k)).sum / (occ.map (boltzZ egs beta)).sum : ℝ) : ℂ) = thermalOcc beta H b k := by
    intro b k
    rw [hO, hZ, mul_div_mul_left _ _ (Real.exp_pos _).ne']
    unfold thermalOcc
    rw [hes.basis.thermal]
  exact fun k => ⟨by rw [(h2 k).1, fin], by rw [(h2 k).2, fin]⟩

/-- **C101** the two routes to the occupation agree: integrating the Green function of `build_gf_exact` along the contour, and averaging the number
operator with `get_occupation`, over the same espace. -/
theorem C101_routes_agree (hn32 : n ≤ 32) {H : Matrix (Finset (Fin (n + n))) (Finset (Fin (n + n))) ℝ} (hes : EigenEspace n H es) {occ : List OccSct}
    (hocc : List.Forall₂ OccView es occ) (egs egs' : ℝ) {kB T : ℝ} (hk : 0 < kB) (hT : 0 < T) {W : ℝ} (hW : SpreadLe es W) {nzp : ℕ} (hn : 0 < nzp) {pos : ℕ} (hpos : pos < n) :
    ∃ g U D As, buildGfExact junk n es (1 / (kB * T)) egs pos false = .ok g ∧ getOccupation occ egs' (1 / (kB * T)) n = .ok (U, D, As) ∧
      ∀ rho, IntegrateGf kB (fun z => g.call z.re z.im) 0 T nzp rho → |rho - U pos| ≤ integrateErr kB T W nzp := by
  obtain ⟨g, h1, -, h2⟩ := C101_integrate_gf_exact (junk := junk) (egs := egs) hn32 hes hpos hk hT hW hn
  obtain ⟨U, D, As, h3, h4⟩ := C101_get_occupation hes hocc egs' (1 / (kB * T))
  refine ⟨g, U, D, As, h1, h3, fun rho h => ?_⟩
  have := h2 rho h
  rw [← (h4 ⟨pos, hpos⟩).1, ← Complex.ofReal_sub, Complex.norm_real, Real.norm_eq_abs] at this
  exact this

/-- The Fortran ordered view of a sector. -/
def OccSct.ofSct (s : Sct) : OccSct :=
  ⟨s.eigvals, ⟨[s.d, s.eigvals.length], .F, fun i => (s.eigvecs[i / s.d]?.getD 0) (i % s.d)⟩, s.states.ups, s.states.dws⟩

theorem OccSct.ofSct_view (p : (ℕ × ℕ) × Sct) : OccView p (OccSct.ofSct p.2) := by
  refine ⟨rfl, rfl, rfl, rfl, by simp [OccSct.ofSct], fun r hr k _ => ?_⟩
  simp only [OccSct.ofSct, NdArr.elem]
  rw [Nat.add_mul_div_left _ _ (by omega), Nat.div_eq_of_lt hr, Nat.zero_add, Nat.add_mul_mod_self_left, Nat.mod_eq_of_lt hr]

theorem exists_spread (es : Espace (ℕ × ℕ)) : ∃ W, SpreadLe es W := by
  let L := es.flatMap fun p => p.2.eigvals
  refine ⟨2 * (L.map fun x => |x|).sum, fun p hp p' hp' E hE E' hE' => ?_⟩
  have key : ∀ x ∈ L, |x| ≤ (L.map fun x => |x|).sum := fun x hx =>
    List.single_le_sum (l := L.map fun x => |x|) (by simp) |x| (List.mem_map_of_mem hx)
  have h1 := key E (List.mem_flatMap.mpr ⟨p, hp, hE⟩)
  have h2 := key E' (List.mem_flatMap.mpr ⟨p', hp', hE'⟩)
  exact (abs_sub E E').trans (by linarith)

/-- Non-vacuity: the two-site example, at any temperature and with one hundred points. -/
example (kB T : ℝ) (hk : 0 < kB) (hT : 0 < T) : ∃ es W g U D As, SpreadLe es W ∧ buildGfExact junk 2 es (1 / (kB * T)) 0 0 false = .ok g ∧
    getOccupation (es.map fun p => OccSct.ofSct p.2) 0 (1 / (kB * T)) 2 = .ok (U, D, As) ∧
      ∀ rho, IntegrateGf kB (fun z => g.call z.re z.im) 0 T 100 rho → |rho - U 0| ≤ integrateErr kB T W 100 := by
  obtain ⟨es, h⟩ := exampleArgs_eigenEspace
  obtain ⟨W, hW⟩ := exists_spread es
  have hocc : List.Forall₂ OccView es (es.map fun p => OccSct.ofSct p.2) := by
    rw [List.forall₂_map_right_iff]
    exact List.forall₂_same.mpr fun p _ => OccSct.ofSct_view p
  obtain ⟨g, U, D, As, h1, h2, h3⟩ := C101_routes_agree (junk := junk) (by norm_num) h hocc 0 0 hk hT hW (nzp := 100) (by norm_num) (pos := 0) (by norm_num)
  exact ⟨es, W, g, U, D, As, hW, h1, h2, h3⟩

end Edpyt
