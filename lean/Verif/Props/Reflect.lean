import Verif.Proof.Dilation
import Verif.Model.IntegrateGf
import Verif.Props.Gf2
import Verif.Props.Nano
import Verif.Model.GfLanczos
import Verif.Model.ImpSolve
/-!
# C195: one set of poles, symmetric and causal matrices, conjugate values at conjugate energies
-/
namespace Edpyt
open Spec Matrix

variable {junk : ℕ} {es : Espace (ℕ × ℕ)} {egs beta : ℝ} {n : ℕ}

/-- **C195** The matrix that `build_gf2_exact` returns for the complete espace has one finite set of poles `ω x`, each the energy of adding an electron of the spin `s`, and residues
that are products of amplitudes, one amplitude per site and pole, which are orthonormal. -/
theorem C195_poles (hn : n ≤ 32) {H : Matrix (Finset (Fin (n + n))) (Finset (Fin (n + n))) ℝ} (hes : EigenEspace n H es) (s : Bool) :
    ∃ G, buildGf2Exact junk n es beta egs s = .ok G ∧ ∃ (m : ℕ) (ω : Fin m → ℝ) (A : Fin m → Fin n → ℝ), (∀ x, AddEnergy es s (ω x)) ∧
      (∀ i j, ∑ x, A x i * A x j = if i = j then 1 else 0) ∧
      ∀ (e eta : ℝ), eta ≠ 0 → ∀ i j : Fin n, (G i j).call e eta = ∑ x, ((A x i * A x j : ℝ) : ℂ) / (e + Complex.I * eta - (ω x : ℂ)) := by
  obtain ⟨G, h1, h2⟩ := C93_gf2_exact (junk := junk) (beta := beta) (egs := egs) hn hes s
  obtain ⟨A, ha, hA, hG⟩ := green_dilation hes.basis beta (c := fun i : Fin n => ann ℝ (orb s i)) (anti_orb s)
  classical
  let X := {x : EigIdx n × EigIdx n // ∃ i, A x i ≠ 0}
  let f : Fin (Fintype.card X) ≃ X := (Fintype.equivFin X).symm
  have key : ∀ {K : Type} [AddCommMonoid K] (F : EigIdx n × EigIdx n → K), (∀ x, (∀ i, A x i = 0) → F x = 0) → ∑ x, F (f x).1 = ∑ x, F x := fun F hF => by
    rw [f.sum_comp (fun x : X => F x.1), ← Finset.sum_subtype (Finset.univ.filter fun x => ∃ i, A x i ≠ 0) (by simp) F]
    refine Finset.sum_filter_of_ne fun x _ hx => ?_
    by_contra hcon
    push Not at hcon
    exact hx (hF x hcon)
  refine ⟨G, h1, Fintype.card X, fun x => esVal n es (f x).1.2 - esVal n es (f x).1.1, fun x i => A (f x).1 i, fun x => ?_, fun i j => ?_, fun e eta he i j => ?_⟩
  · obtain ⟨i, hi⟩ := (f x).2
    exact hes.addEnergy s i (ha _ i hi)
  · rw [key (fun x => A x i * A x j) (fun x hx => by rw [hx i, zero_mul])]
    exact hA i j
  · rw [key (fun x => ((A x i * A x j : ℝ) : ℂ) / (e + Complex.I * eta - ((esVal n es x.2 - esVal n es x.1 : ℝ) : ℂ))) (fun x hx => by rw [hx i, zero_mul]; simp)]
    exact hG _ (by simpa using he) i j _ ((h2 i j e eta he _).mpr rfl)

/-- **C195** The matrix that `build_gf2_exact` returns is symmetric, takes the conjugate value at the conjugate energy, has a negative definite imaginary part above the real axis,
and is bounded by `1 / |eta|` as an operator, so that each element is; `(Im G_ij)² ≤ Im G_ii Im G_jj`. -/
theorem C195_matrix (hn : n ≤ 32) {H : Matrix (Finset (Fin (n + n))) (Finset (Fin (n + n))) ℝ} (hes : EigenEspace n H es) (s : Bool) :
    ∃ G, buildGf2Exact junk n es beta egs s = .ok G ∧ ∀ (e eta : ℝ), eta ≠ 0 →
      (∀ i j : Fin n, (G i j).call e eta = (G j i).call e eta) ∧
      (∀ i j : Fin n, (G i j).call e (-eta) = (starRingEnd ℂ) ((G i j).call e eta)) ∧
      (0 < eta → ∀ v : Fin n → ℂ, v ≠ 0 → (star v ⬝ᵥ ((Matrix.of fun i j : Fin n => (G i j).call e eta) *ᵥ v)).im < 0) ∧
      (∀ u v : Fin n → ℂ, ‖star u ⬝ᵥ ((Matrix.of fun i j : Fin n => (G i j).call e eta) *ᵥ v)‖ ^ 2 ≤ (∑ i, Complex.normSq (u i)) * (∑ i, Complex.normSq (v i)) / eta ^ 2) ∧
      (∀ i j : Fin n, ‖(G i j).call e eta‖ ≤ 1 / |eta|) ∧
      ∀ i j : Fin n, ((G i j).call e eta).im ^ 2 ≤ ((G i i).call e eta).im * ((G j j).call e eta).im := by
  obtain ⟨G, h1, m, ω, A, -, hA, hG⟩ := C195_poles (junk := junk) (beta := beta) (egs := egs) hn hes s
  refine ⟨G, h1, fun e eta he => ?_⟩
  have hz : ((e : ℂ) + Complex.I * (eta : ℂ)).im = eta := by simp
  have hM : ∀ i j, (Matrix.of fun i j : Fin n => (G i j).call e eta) i j = ∑ x, ((A x i * A x j : ℝ) : ℂ) / (((e : ℂ) + Complex.I * (eta : ℂ)) - (ω x : ℂ)) := hG e eta he
  have hb : ∀ u v : Fin n → ℂ, ‖star u ⬝ᵥ ((Matrix.of fun i j : Fin n => (G i j).call e eta) *ᵥ v)‖ ^ 2 ≤ (∑ i, Complex.normSq (u i)) * (∑ i, Complex.normSq (v i)) / eta ^ 2 := fun u v => by
    have := dilation_bound hA (by rw [hz]; exact he) hM u v
    rwa [hz] at this
  have hd : ∀ x : Fin m, 0 < Complex.normSq ((e : ℂ) + Complex.I * (eta : ℂ) - (ω x : ℂ)) := fun x => Complex.normSq_pos.mpr fun h0 => by
    have := congrArg Complex.im h0
    simp at this
    exact he this
  have him : ∀ i j : Fin n, ((G i j).call e eta).im = -eta * ∑ x, A x i * A x j / Complex.normSq ((e : ℂ) + Complex.I * (eta : ℂ) - (ω x : ℂ)) := fun i j => by
    rw [hG e eta he, Complex.im_sum, Finset.mul_sum]
    refine Finset.sum_congr rfl fun x _ => ?_
    rw [Complex.div_im]
    simp
    ring
  refine ⟨fun i j => ?_, fun i j => ?_, fun hp v hv => dilation_neg hA (by rw [hz]; exact hp) hM hv, hb, fun i j => ?_, fun i j => ?_⟩
  · rw [hG e eta he, hG e eta he]
    exact Finset.sum_congr rfl fun x _ => by rw [mul_comm (A x i)]
  · rw [hG e eta he, hG e (-eta) (neg_ne_zero.mpr he), map_sum]
    refine Finset.sum_congr rfl fun x _ => ?_
    simp only [map_div₀, map_sub, map_add, map_mul, Complex.conj_ofReal, Complex.conj_I]
    push_cast
    ring
  · have h := hb (Pi.single i 1) (Pi.single j 1)
    rw [Matrix.mulVec_single_one, ← Pi.single_star, star_one, single_one_dotProduct, Matrix.col_apply, Matrix.of_apply,
      Finset.sum_eq_single i (fun k _ hk => by rw [Pi.single_eq_of_ne hk]; simp) (fun h => absurd (Finset.mem_univ _) h),
      Finset.sum_eq_single j (fun k _ hk => by rw [Pi.single_eq_of_ne hk]; simp) (fun h => absurd (Finset.mem_univ _) h), Pi.single_eq_same, Pi.single_eq_same, map_one, one_mul,
      ← sq_abs eta, show (1 : ℝ) / |eta| ^ 2 = (1 / |eta|) ^ 2 by rw [div_pow, one_pow]] at h
    exact (pow_le_pow_iff_left₀ (norm_nonneg _) (by positivity) two_ne_zero).mp h
  · rw [him, him, him]
    have hcs : (∑ x, A x i * A x j / Complex.normSq ((e : ℂ) + Complex.I * (eta : ℂ) - (ω x : ℂ))) ^ 2 ≤
        (∑ x, A x i * A x i / Complex.normSq ((e : ℂ) + Complex.I * (eta : ℂ) - (ω x : ℂ))) * ∑ x, A x j * A x j / Complex.normSq ((e : ℂ) + Complex.I * (eta : ℂ) - (ω x : ℂ)) := by
      have := Finset.sum_mul_sq_le_sq_mul_sq Finset.univ (fun x => A x i / ‖(e : ℂ) + Complex.I * (eta : ℂ) - (ω x : ℂ)‖) (fun x => A x j / ‖(e : ℂ) + Complex.I * (eta : ℂ) - (ω x : ℂ)‖)
      simp only [div_pow, div_mul_div_comm, ← sq, ← Complex.normSq_eq_norm_sq] at this
      simpa only [← sq] using this
    nlinarith [sq_nonneg eta]

theorem zip_conj (e eta : ℝ) : ∀ l q : List ℝ, (List.zipWith (fun (l q : ℝ) => ((e + Complex.I * (-eta : ℝ) : ℂ) - (l : ℂ))⁻¹ * (q : ℂ)) l q).sum =
    (starRingEnd ℂ) (List.zipWith (fun (l q : ℝ) => ((e + Complex.I * eta : ℂ) - (l : ℂ))⁻¹ * (q : ℂ)) l q).sum
  | [], _ => by simp
  | _ :: _, [] => by simp
  | a :: l, b :: q => by
    rw [List.zipWith_cons_cons, List.zipWith_cons_cons, List.sum_cons, List.sum_cons, map_add, zip_conj e eta l q]
    simp

theorem cfCalc_conj (jk : ℝ) (z : ℂ) (a b : List ℝ) : cfCalc jk ((starRingEnd ℂ) z) a b = (starRingEnd ℂ) (cfCalc jk z a b) := by
  unfold cfCalc
  suffices h : ∀ (l : List ℕ) (r : ℂ), l.foldl (fun r i => ((b[i]?.getD jk : ℝ) : ℂ) / ((starRingEnd ℂ) z - ((a[i]?.getD jk : ℝ) : ℂ) - r)) ((starRingEnd ℂ) r) =
      (starRingEnd ℂ) (l.foldl (fun r i => ((b[i]?.getD jk : ℝ) : ℂ) / (z - ((a[i]?.getD jk : ℝ) : ℂ) - r)) r) by
    have := h (List.range a.length).reverse 0
    rwa [map_zero] at this
  intro l
  induction l with
  | nil => exact fun _ => rfl
  | cons i l ih =>
    intro r
    rw [List.foldl_cons, List.foldl_cons, ← ih]
    congr 1
    simp

theorem energy_conj (e eta : ℝ) : (e : ℂ) + Complex.I * ((-eta : ℝ) : ℂ) = (starRingEnd ℂ) (e + Complex.I * eta) := by simp

/-- **C195** The Green function of `build_gf_exact`, and every element of that of `build_gf2_exact`: the value at the conjugate energy is the conjugate value. -/
theorem C195_exact (g : GfEx) (e eta : ℝ) : g.call e (-eta) = (starRingEnd ℂ) (g.call e eta) := by
  unfold GfEx.call
  rw [map_div₀, Complex.conj_ofReal, zip_conj]

/-- **C195** The same of the Green functions of `build_gf_lanczos` and `build_gf_offdiag`, whichever representation, and however early the recurrences stopped. -/
theorem C195_lanczos (jk : ℝ) (g : GfL) (e eta : ℝ) : g.call jk e (-eta) = (starRingEnd ℂ) (g.call jk e eta) := by
  unfold GfL.call
  rw [map_div₀, Complex.conj_ofReal, map_list_sum, List.map_map]
  congr 3
  funext f
  cases f with
  | cf a b => simp only [Function.comp, GfFn.eval, cfEval]; rw [energy_conj, cfCalc_conj]
  | sp l q => simp only [Function.comp, GfFn.eval, spEval]; rw [zip_conj]

/-- **C195** The same of the matrix of `build_gf2_lanczos` when its diagonal and upper triangle are filled, which is symmetric as well. -/
theorem C195_gf2_lanczos (jk : ℝ) (empty empty' : ℕ → ℕ → ℂ) {gf : ℕ → ℕ → Option GfL} (hgf : ∀ i j, i ≤ j → j < n → ∃ g, gf i j = some g) (e eta : ℝ) :
    ∃ G G', gf2Evaluate empty n (gArrOf jk gf) e eta = .ok G ∧ gf2Evaluate empty' n (gArrOf jk gf) e (-eta) = .ok G' ∧
      ∀ i < n, ∀ j < n, G' i j = (starRingEnd ℂ) (G i j) ∧ G i j = G j i := by
  classical
  haveI : Nonempty GfL := ⟨⟨[], 0⟩⟩
  choose! g hg using hgf
  have hf : ∀ i j, i ≤ j → j < n → gArrOf jk gf i j = some ((g i j).call jk) := fun i j hij hj => by
    unfold gArrOf
    rw [hg i j hij hj]
    rfl
  obtain ⟨G, h1, h2, h3, h4⟩ := C41_evaluate (e := e) (eta := eta) (f := fun i j => (g i j).call jk) empty hf
  obtain ⟨G', h1', h2', h3', h4'⟩ := C41_evaluate (e := e) (eta := -eta) (f := fun i j => (g i j).call jk) empty' hf
  refine ⟨G, G', h1, h1', fun i hi j hj => ⟨?_, h4 i j hi hj⟩⟩
  have key : ∀ i j, i < j → j < n → G' i j = (starRingEnd ℂ) (G i j) := fun i j hij hj => by
    rw [h3' i j hij hj, h3 i j hij hj, C195_lanczos, C195_lanczos, C195_lanczos, map_mul, map_sub, map_sub, map_div₀, map_one, Complex.conj_ofNat]
  rcases lt_trichotomy i j with h | h | h
  · exact key i j h hj
  · subst h
    rw [h2' i hi, h2 i hi, C195_lanczos]
  · rw [h4' i j hi hj, h4 i j hi hj, key j i h hi]

/-- **C195** The hybridisation `Delta(z)`, the free Green function and the self-energy of an impurity object. -/
theorem C195_impurity (nb : ℕ) (s : Imp) {gf : ℂ → ℂ} {z : ℂ} (hgf : gf ((starRingEnd ℂ) z) = (starRingEnd ℂ) (gf z)) :
    deltaEval nb s.ek s.vk ((starRingEnd ℂ) z) = (starRingEnd ℂ) (deltaEval nb s.ek s.vk z) ∧
    s.free (nb + 1) ((starRingEnd ℂ) z) = (starRingEnd ℂ) (s.free (nb + 1) z) ∧
    s.sigma (nb + 1) gf ((starRingEnd ℂ) z) = (starRingEnd ℂ) (s.sigma (nb + 1) gf z) := by
  have hd : deltaEval nb s.ek s.vk ((starRingEnd ℂ) z) = (starRingEnd ℂ) (deltaEval nb s.ek s.vk z) := by
    unfold deltaEval
    suffices h : ∀ (l : List ℕ) (r : ℂ), l.foldl (fun out j => out + ((s.vk j : ℂ) ^ 2) / ((starRingEnd ℂ) z - s.ek j)) ((starRingEnd ℂ) r) =
        (starRingEnd ℂ) (l.foldl (fun out j => out + ((s.vk j : ℂ) ^ 2) / (z - s.ek j)) r) by
      have := h (List.range nb) 0
      rwa [map_zero] at this
    intro l
    induction l with
    | nil => exact fun _ => rfl
    | cons i l ih =>
      intro r
      rw [List.foldl_cons, List.foldl_cons, ← ih]
      congr 1
      simp
  have hf : s.freeInv (nb + 1) ((starRingEnd ℂ) z) = (starRingEnd ℂ) (s.freeInv (nb + 1) z) := by
    unfold Imp.freeInv
    rw [Nat.add_sub_cancel, hd, map_sub, map_sub, Complex.conj_ofReal]
  refine ⟨hd, ?_, ?_⟩
  · unfold Imp.free
    rw [hf, map_inv₀]
  · unfold Imp.sigma
    rw [hf, hgf, map_sub, map_inv₀]

theorem sum_both_signs (F : ℤ → ℂ) : ∀ N : ℕ, ∑ k ∈ Finset.Ico (-(N : ℤ)) N, F k = ∑ i ∈ Finset.range N, (F i + F (-(i : ℤ) - 1))
  | 0 => by simp
  | N + 1 => by
    have h : Finset.Ico (-((N + 1 : ℕ) : ℤ)) ((N + 1 : ℕ) : ℤ) = insert (-(N : ℤ) - 1) (insert (N : ℤ) (Finset.Ico (-(N : ℤ)) N)) := by
      ext k
      simp only [Finset.mem_Ico, Finset.mem_insert]
      push_cast
      omega
    rw [h, Finset.sum_insert (by simp only [Finset.mem_insert, Finset.mem_Ico]; omega), Finset.sum_insert (by simp), sum_both_signs F N, Finset.sum_range_succ]
    ring

/-- **C195** `matsum_gf` adds up positive Matsubara frequencies only. Of a Green function with conjugate values at conjugate energies, its result is the sum over the frequencies of
both signs, `(1/β) Σ_k (f(iω_k) - 1/(iω_k - μ)) + 1/(1 + exp(βμ))`, with the level `μ` that it reads off the last frequency. -/
theorem C195_matsum {f : ℂ → ℂ} (hf : ∀ z, f ((starRingEnd ℂ) z) = (starRingEnd ℂ) (f z)) (nmats : ℕ) {beta : ℝ} (hb : beta ≠ 0) (gfMu mu : ℝ) :
    let w : ℤ → ℂ := fun k => Complex.I * ((2 * k + 1) * Real.pi / beta)
    let m : ℝ := -(f (w nmats)).re * (w nmats).im ^ 2
    ∃ x : ℝ, matsumGf (fun _ z => .ok fun i => f (z i)) gfMu mu (nmats + 1) beta = (.ok x, gfMu) ∧
      (x : ℂ) = 1 / beta * ∑ k ∈ Finset.Ico (-(nmats + 1 : ℤ)) (nmats + 1), (f (w k) - 1 / (w k - m)) + 1 / (1 + Real.exp (beta * m)) := by
  intro w m
  have hw : ∀ i : ℕ, msZ beta i = w i := fun i => by
    simp only [msZ, w]
    push_cast
    ring
  have hwc : ∀ i : ℕ, w (-(i : ℤ) - 1) = (starRingEnd ℂ) (w i) := fun i => by
    simp only [w, map_mul, map_div₀, map_add, Complex.conj_I, Complex.conj_ofReal, Complex.conj_ofNat, map_one, map_intCast, Int.cast_natCast, map_natCast]
    push_cast
    ring
  have hwr : ∀ k : ℤ, w k = Complex.I * (((w k).im : ℝ) : ℂ) := fun k => by
    have : w k = Complex.I * (((2 * k + 1) * Real.pi / beta : ℝ) : ℂ) := by simp only [w]; push_cast; ring
    rw [this]
    simp
  have him : ∀ i : ℕ, (w i).im ≠ 0 := fun i => by
    have : (w i).im = (2 * i + 1) * Real.pi / beta := by
      have : w i = Complex.I * (((2 * i + 1) * Real.pi / beta : ℝ) : ℂ) := by simp only [w]; push_cast; ring
      rw [this]
      simp
    rw [this]
    have : (0 : ℝ) < (2 * i + 1) * Real.pi := by positivity
    exact div_ne_zero this.ne' hb
  have htail : ∀ i : ℕ, -((m : ℂ) + w i) / ((m ^ 2 + (w i).im ^ 2 : ℝ) : ℂ) = 1 / (w i - m) := fun i => by
    have h1 : ((m ^ 2 + (w i).im ^ 2 : ℝ) : ℂ) ≠ 0 := by
      have := sq_pos_of_ne_zero (him i)
      exact_mod_cast (by positivity : (0 : ℝ) < m ^ 2 + (w i).im ^ 2).ne'
    have h2 : w i - m ≠ 0 := fun h0 => by
      have := congrArg Complex.im h0
      rw [Complex.sub_im, Complex.ofReal_im, sub_zero, Complex.zero_im] at this
      exact him i this
    rw [div_eq_div_iff h1 h2]
    have h3 : w i * w i = -(((w i).im : ℝ) : ℂ) ^ 2 := by
      conv_lhs => rw [hwr i]
      linear_combination (((w i).im : ℝ) : ℂ) ^ 2 * Complex.I_mul_I
    push_cast
    linear_combination -h3
  have hfold : ∀ (N : ℕ) (r : ℕ → ℝ), (List.range N).foldl (fun s i => s + r i) 0 = ∑ i ∈ Finset.range N, r i := fun N r => by
    induction N with
    | zero => rfl
    | succ N ih => rw [List.range_succ, List.foldl_append, ih, Finset.sum_range_succ]; rfl
  refine ⟨_, by unfold matsumGf; simp only [Nat.add_eq_zero_iff, one_ne_zero, and_false, if_false]; rfl, ?_⟩
  unfold msSum
  simp only [Nat.add_sub_cancel, hw]
  change (((List.range (nmats + 1)).foldl (fun (s : ℝ) (i : ℕ) => s + (f (w i) - -((m : ℂ) + w i) / ((m ^ 2 + (w i).im ^ 2 : ℝ) : ℂ)).re) 0 * 2 / beta + -1 / (1 + Real.exp (-beta * m)) + 1 : ℝ) : ℂ) = _
  rw [hfold (nmats + 1) fun i => (f (w i) - -((m : ℂ) + w i) / ((m ^ 2 + (w i).im ^ 2 : ℝ) : ℂ)).re]
  have hsum := sum_both_signs (fun k => f (w k) - 1 / (w k - m)) (nmats + 1)
  push_cast at hsum
  rw [hsum]
  have hterm : ∀ i : ℕ, f (w i) - 1 / (w i - m) + (f (w (-(i : ℤ) - 1)) - 1 / (w (-(i : ℤ) - 1) - m)) = ((2 * (f (w i) - -((m : ℂ) + w i) / ((m ^ 2 + (w i).im ^ 2 : ℝ) : ℂ)).re : ℝ) : ℂ) := fun i => by
    rw [hwc, hf, htail, show (1 : ℂ) / ((starRingEnd ℂ) (w i) - m) = (starRingEnd ℂ) (1 / (w i - m)) by simp, ← map_sub, Complex.add_conj]
  rw [Finset.sum_congr rfl fun i _ => hterm i, ← Complex.ofReal_sum, ← Finset.mul_sum]
  have hfermi : -1 / (1 + Real.exp (-beta * m)) + 1 = 1 / (1 + Real.exp (beta * m)) := by
    have h1 := Real.exp_pos (beta * m)
    rw [show -beta * m = -(beta * m) by ring, Real.exp_neg]
    field_simp
    ring
  rw [show ∀ S : ℝ, S * 2 / beta + -1 / (1 + Real.exp (-beta * m)) + 1 = 1 / beta * (2 * S) + 1 / (1 + Real.exp (beta * m)) from fun S => by rw [add_assoc, hfermi]; ring]
  push_cast
  rfl

/-- **C195** A lattice of correlated sites with Hermitian Hamiltonian and overlap, a hybridization that takes Hermitian conjugate values at conjugate energies, and self-energies that
take conjugate values there: the local Green functions at the conjugate energies are the conjugates. -/
theorem C195_nano (g : NanoLoc n) {m : ℕ} (hg : g.WF m) (hm : ∀ i ∈ g.idxNeq, i < m) (hH : g.Hᴴ = g.H) (hS : g.Sᴴ = g.S)
    (hD : ∀ z, g.Hybrid ((starRingEnd ℂ) z) = (g.Hybrid z)ᴴ) (sigma : ℕ → ℕ → ℂ) (zs : List ℂ) (hz : zs ≠ []) (hchunk : 2 ≤ m ∨ (m = 1 ∧ zs.length = 1)) (junk junk' : ℕ → ℕ → ℂ)
    (hdet : ∀ c < zs.length, (g.dyson (fun r => sigma r c) (zs[c]?.getD 0)).det ≠ 0) :
    ∃ G G', g.call m sigma zs junk = .ok G ∧ g.call m (fun r c => (starRingEnd ℂ) (sigma r c)) (zs.map (starRingEnd ℂ)) junk' = .ok G' ∧
      ∀ u < g.idxNeq.length, ∀ c < zs.length, G' u c = (starRingEnd ℂ) (G u c) := by
  have key : ∀ c < zs.length, g.dyson (fun r => (starRingEnd ℂ) (sigma r c)) ((zs.map (starRingEnd ℂ))[c]?.getD 0) = (g.dyson (fun r => sigma r c) (zs[c]?.getD 0))ᴴ := by
    intro c hc
    have e1 : (zs.map (starRingEnd ℂ))[c]?.getD 0 = (starRingEnd ℂ) (zs[c]?.getD 0) := by simp [List.getElem?_eq_getElem hc]
    rw [e1]
    unfold NanoLoc.dyson dysonMat
    rw [Matrix.conjTranspose_sub, Matrix.conjTranspose_sub, Matrix.conjTranspose_sub, Matrix.conjTranspose_smul, hH, hS, Matrix.diagonal_conjTranspose, hD]
    congr 3
    simp
  have hdet' : ∀ c < (zs.map (starRingEnd ℂ)).length, (g.dyson (fun r => (starRingEnd ℂ) (sigma r c)) ((zs.map (starRingEnd ℂ))[c]?.getD 0)).det ≠ 0 := by
    intro c hc
    rw [List.length_map] at hc
    rw [key c hc, Matrix.det_conjTranspose]
    exact star_ne_zero.mpr (hdet c hc)
  obtain ⟨G, h1, h2⟩ := call_eq g hg.invLen hg.inv hg.neq hm sigma zs hz hchunk junk hdet
  obtain ⟨G', h3, h4⟩ := call_eq g hg.invLen hg.inv hg.neq hm (fun r c => (starRingEnd ℂ) (sigma r c)) (zs.map (starRingEnd ℂ)) (by simpa using hz) (by simpa using hchunk) junk' hdet'
  refine ⟨G, G', h1, h3, fun u hu c hc => ?_⟩
  have hi : g.idxNeq[u]?.getD 0 < n := by rw [List.getElem?_eq_getElem hu]; exact hg.neq _ (List.getElem_mem hu)
  rw [h4 u hu c (by simpa using hc), h2 u hu c hc, key c hc]
  unfold diagInv
  rw [dif_pos hi, dif_pos hi, ← Matrix.conjTranspose_nonsing_inv]
  rfl

/-- A dimer with repulsion `4`: the matrix at one energy, with all the clauses. -/
example : ∃ es G, EigenEspace 2 exampleArgs.ham es ∧ buildGf2Exact 0 2 es 1 0 true = .ok G ∧
    (G 0 1).call 1 (-1) = (starRingEnd ℂ) ((G 0 1).call 1 1) ∧ (G 0 1).call 1 1 = (G 1 0).call 1 1 ∧ ‖(G 0 1).call 1 1‖ ≤ 1 ∧
      ((G 0 1).call 1 1).im ^ 2 ≤ ((G 0 0).call 1 1).im * ((G 1 1).call 1 1).im := by
  obtain ⟨es, hes⟩ := eigenEspace_exists exampleArgs_valid
  obtain ⟨G, h1, h2⟩ := C195_matrix (n := 2) (junk := 0) (beta := 1) (egs := 0) (by norm_num) hes true
  obtain ⟨a, b, -, -, c, d⟩ := h2 1 1 one_ne_zero
  exact ⟨es, G, hes, h1, b 0 1, a 0 1, by simpa using c 0 1, d 0 1⟩

/-- The same dimer has poles. -/
example : ∃ es, EigenEspace 2 exampleArgs.ham es ∧ ∃ ω, AddEnergy es true ω := by
  obtain ⟨es, hes⟩ := eigenEspace_exists exampleArgs_valid
  obtain ⟨G, h1, m, ω, A, h2, h3, -⟩ := C195_poles (n := 2) (junk := 0) (beta := 1) (egs := 0) (by norm_num) hes true
  refine ⟨es, hes, ?_⟩
  rcases Nat.eq_zero_or_pos m with rfl | hm
  · simpa using h3 0 0
  · exact ⟨ω ⟨0, hm⟩, h2 _⟩

/-- An impurity with one bath site, and the Green function of a single level. -/
example : (⟨fun _ _ => 0, fun _ => 1, fun _ => 2⟩ : Imp).sigma 2 (fun z => (z - 1)⁻¹) ((starRingEnd ℂ) (1 + Complex.I)) =
    (starRingEnd ℂ) ((⟨fun _ _ => 0, fun _ => 1, fun _ => 2⟩ : Imp).sigma 2 (fun z => (z - 1)⁻¹) (1 + Complex.I)) :=
  (C195_impurity 1 ⟨fun _ _ => 0, fun _ => 1, fun _ => 2⟩ (by simp)).2.2

/-- The sum for a single level. -/
example : ∃ x : ℝ, matsumGf (fun _ z => .ok fun i => (z i - 1)⁻¹) 0 0 6 2 = (.ok x, 0) := by
  obtain ⟨x, h, -⟩ := C195_matsum (f := fun z => (z - 1)⁻¹) (by simp) 5 (beta := 2) two_ne_zero 0 0
  exact ⟨x, h⟩

/-- Two coupled sites at two energies. -/
example : ∃ G G', dimerLoc.call 2 (fun _ _ => -Complex.I) [Complex.I, 2 * Complex.I] (fun _ _ => 7) = .ok G ∧
    dimerLoc.call 2 (fun _ _ => (starRingEnd ℂ) (-Complex.I)) ([Complex.I, 2 * Complex.I].map (starRingEnd ℂ)) (fun _ _ => 8) = .ok G' ∧
      ∀ u < 2, ∀ c < 2, G' u c = (starRingEnd ℂ) (G u c) := by
  refine C195_nano dimerLoc dimerLoc_wf (by simp [dimerLoc]) ?_ ?_ ?_ (fun _ _ => -Complex.I) [Complex.I, 2 * Complex.I] (by simp) (Or.inl le_rfl) _ _ fun c hc =>
    C104_nonsingular (dimerLoc_causal ?_ _ (by simp))
  · ext i j; fin_cases i <;> fin_cases j <;> simp [dimerLoc]
  · simp [dimerLoc]
  · simp [dimerLoc]
  · simp only [List.length_cons, List.length_nil] at hc
    interval_cases c <;> simp

end Edpyt
