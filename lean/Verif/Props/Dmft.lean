import Verif.Model.Dmft
import Verif.Proof.Siam
/-!
C48–C51, C74: impurity Hamiltonian, Dyson equations and the self-consistency loop.
-/
namespace Edpyt
open Spec

/-! ### C48 -/

/-- The `(nb+1) × (nb+1)` matrix of an array. -/
def toMat (nb : ℕ) (H : ℕ → ℕ → ℝ) : Matrix (Fin (nb + 1)) (Fin (nb + 1)) ℝ := Matrix.of fun i j => H i j

theorem flat_diag_iff {n i j : ℕ} (hi : i < n) (hj : j < n) :
    ((i * n + j) % (n + 1) = 0 ∧ n + 1 ≤ i * n + j) ↔ (i = j ∧ 1 ≤ i) := by
  constructor
  · rintro ⟨h1, h2⟩
    obtain ⟨q, hq⟩ := Nat.dvd_of_mod_eq_zero h1
    have hqi : q = i := by
      have h3 : i * n + j = q * n + q := by rw [hq]; ring
      rcases lt_trichotomy q i with h | h | h
      · obtain ⟨d, rfl⟩ := Nat.exists_eq_add_of_lt h
        nlinarith
      · exact h
      · obtain ⟨d, rfl⟩ := Nat.exists_eq_add_of_lt h
        nlinarith
    subst hqi
    have h3 : j = q := by nlinarith
    refine ⟨h3.symm, ?_⟩
    by_contra h0
    have : q = 0 := by omega
    subst this
    omega
  · rintro ⟨rfl, h1⟩
    constructor
    · rw [show i * n + i = (n + 1) * i by ring, Nat.mul_mod_right]
    · nlinarith

theorem setFlatDiag_eq {n : ℕ} (H : ℕ → ℕ → ℝ) (ek : ℕ → ℝ) {i j : ℕ} (hi : i < n) (hj : j < n) :
    setFlatDiag n H ek i j = if i = j ∧ 1 ≤ i then ek (i - 1) else H i j := by
  unfold setFlatDiag
  have hlt : i * n + j < n * n := by nlinarith
  by_cases h : i = j ∧ 1 ≤ i
  · obtain ⟨h1, h2⟩ := (flat_diag_iff hi hj).mpr h
    rw [if_pos ⟨hj, h1, h2, hlt⟩, if_pos h]
    obtain ⟨rfl, h3⟩ := h
    rw [show i * n + i = i * (n + 1) by ring, Nat.mul_div_cancel _ (by omega)]
  · rw [if_neg h, if_neg]
    rintro ⟨_, h1, h2, _⟩
    exact h ((flat_diag_iff hi hj).mp ⟨h1, h2⟩)

/-- In every history the elements between different bath sites stay zero. -/
def BathDiag (n : ℕ) (H : ℕ → ℕ → ℝ) : Prop := ∀ i j, 1 ≤ i → i < n → 1 ≤ j → j < n → i ≠ j → H i j = 0

theorem step_bathDiag {n : ℕ} {s : Imp} (h : BathDiag n s.H) (op : ImpOp) : BathDiag n (s.step n op).H := by
  intro i j hi hin hj hjn hij
  cases op with
  | fit ek vk =>
    simp only [Imp.step]
    rw [setFlatDiag_eq _ _ hin hjn, if_neg (fun h => hij h.1)]
    unfold setArms
    rw [if_neg (by omega), if_neg (by omega)]
    exact h i j hi hin hj hjn hij
  | update mu =>
    simp only [Imp.step]
    rw [if_neg (by omega)]
    exact h i j hi hin hj hjn hij
  | resetBath ek0 vk0 => exact h i j hi hin hj hjn hij

theorem run_bathDiag {n : ℕ} {s : Imp} (h : BathDiag n s.H) (ops : List ImpOp) : BathDiag n (s.run n ops).H := by
  induction ops generalizing s with
  | nil => exact h
  | cons op ops ih => exact ih (step_bathDiag h op)

theorem toMat_siam {nb : ℕ} {H : ℕ → ℕ → ℝ} {e0 : ℝ} {ek vk : ℕ → ℝ} (h00 : H 0 0 = e0) (h0 : ∀ k < nb, H 0 (k + 1) = vk k ∧ H (k + 1) 0 = vk k)
    (hd : ∀ k < nb, H (k + 1) (k + 1) = ek k) (hb : BathDiag (nb + 1) H) :
    toMat nb H = siam e0 (fun k : Fin nb => ek k) (fun k : Fin nb => vk k) := by
  ext i j
  unfold toMat siam
  rw [Matrix.of_apply, Matrix.of_apply]
  refine Fin.cases ?_ (fun k => ?_) i
  · refine Fin.cases ?_ (fun l => ?_) j
    · exact h00
    · simpa using (h0 l l.2).1
  · refine Fin.cases ?_ (fun l => ?_) j
    · simpa using (h0 k k.2).2
    · simp only [Fin.cases_succ, Fin.val_succ]
      by_cases hkl : k = l
      · subst hkl; rw [if_pos rfl, hd k k.2]
      · rw [if_neg hkl]
        exact hb _ _ (by omega) (by omega) (by omega) (by omega) (fun h => hkl (Fin.ext (by omega)))

/-- C48: after any history of calls that ends with a `fit` and any number of `update`s, the one-body matrix of the impurity
object is the impurity Hamiltonian with exactly the fitted levels and couplings, and impurity level `-mu`. -/
theorem C48_hamiltonian (nb : ℕ) (ek0 vk0 : ℕ → ℝ) (hist : List ImpOp) (ek vk : ℕ → ℝ) (mus : List ℝ) :
    let s := Imp.run (nb + 1) (Imp.init ek0 vk0) (hist ++ .fit ek vk :: mus.map ImpOp.update)
    toMat nb s.H = siam (s.H 0 0) (fun k : Fin nb => ek k) (fun k : Fin nb => vk k) ∧ s.ek = ek ∧ s.vk = vk ∧
      ∀ h : mus ≠ [], s.H 0 0 = -mus.getLast h := by
  intro s
  have hb : BathDiag (nb + 1) s.H := run_bathDiag (fun i j _ _ _ _ _ => rfl) _
  set s0 := Imp.run (nb + 1) (Imp.init ek0 vk0) hist with hs0
  have hs : s = Imp.run (nb + 1) (Imp.step (nb + 1) s0 (.fit ek vk)) (mus.map ImpOp.update) := by
    simp only [s, hs0, Imp.run, List.foldl_append, List.foldl_cons]
  have key : ∀ (ms : List ℝ) (t : Imp), (∀ i j, (i ≠ 0 ∨ j ≠ 0) → (Imp.run (nb + 1) t (ms.map ImpOp.update)).H i j = t.H i j) ∧
      (Imp.run (nb + 1) t (ms.map ImpOp.update)).ek = t.ek ∧ (Imp.run (nb + 1) t (ms.map ImpOp.update)).vk = t.vk ∧
      ∀ h : ms ≠ [], (Imp.run (nb + 1) t (ms.map ImpOp.update)).H 0 0 = -ms.getLast h := by
    intro ms
    induction ms with
    | nil => intro t; exact ⟨fun _ _ _ => rfl, rfl, rfl, fun h => absurd rfl h⟩
    | cons m ms ih =>
      intro t
      obtain ⟨h1, h2, h3, h4⟩ := ih (t.step (nb + 1) (.update m))
      refine ⟨fun i j hij => ?_, h2, h3, fun _ => ?_⟩
      · have := h1 i j hij
        simp only [Imp.step] at this
        rw [if_neg (by omega)] at this
        exact this
      · by_cases hm : ms = []
        · subst hm; simp [Imp.run, Imp.step]
        · rw [List.getLast_cons hm]; exact h4 hm
  obtain ⟨h1, h2, h3, h4⟩ := key mus (Imp.step (nb + 1) s0 (.fit ek vk))
  rw [← hs] at h1 h2 h3 h4
  refine ⟨toMat_siam rfl (fun k hk => ?_) (fun k hk => ?_) hb, h2, h3, h4⟩
  · rw [h1 _ _ (by omega), h1 _ _ (by omega)]
    simp only [Imp.step]
    rw [setFlatDiag_eq _ _ (by omega) (by omega), setFlatDiag_eq _ _ (by omega) (by omega), if_neg (by omega), if_neg (by omega)]
    unfold setArms
    rw [if_neg (by omega), if_pos (by omega), if_pos (by omega)]
    simp
  · rw [h1 _ _ (by omega)]
    simp only [Imp.step]
    rw [setFlatDiag_eq _ _ (by omega) (by omega), if_pos (by omega)]
    simp

theorem deltaEval_eq (nb : ℕ) (ek vk : ℕ → ℝ) (z : ℂ) :
    deltaEval nb ek vk z = hybridisation (fun k : Fin nb => ek k) (fun k : Fin nb => vk k) z := by
  unfold deltaEval hybridisation
  rw [← Finset.sum_range (fun k => ((vk k : ℂ) ^ 2) / (z - ek k))]
  induction nb with
  | zero => simp
  | succ n ih => rw [List.range_succ, List.foldl_append, ih, Finset.sum_range_succ]; rfl

/-- C48: off the real axis the non-interacting Green function reported by the object is the impurity element of the resolvent
of its one-body matrix, after every such history. -/
theorem C48_green (nb : ℕ) (ek0 vk0 : ℕ → ℝ) (hist : List ImpOp) (ek vk : ℕ → ℝ) (mus : List ℝ) (z : ℂ) (hz : z.im ≠ 0) :
    let s := Imp.run (nb + 1) (Imp.init ek0 vk0) (hist ++ .fit ek vk :: mus.map ImpOp.update)
    s.free (nb + 1) z = impurityGreen (toMat nb s.H) z := by
  intro s
  obtain ⟨h1, h2, h3, _⟩ := C48_hamiltonian nb ek0 vk0 hist ek vk mus
  have hn := siam_nonreal (s.H 0 0) (fun k : Fin nb => ek k) (fun k : Fin nb => vk k) hz
  rw [h1, siam_green hn.1 hn.2]
  unfold Imp.free Imp.freeInv
  rw [h2, h3, Nat.add_sub_cancel, deltaEval_eq]

/-- C48: on the real axis the same holds away from the poles and zeros. -/
theorem C48_green_real (nb : ℕ) (ek0 vk0 : ℕ → ℝ) (hist : List ImpOp) (ek vk : ℕ → ℝ) (mus : List ℝ) (z : ℂ) :
    let s := Imp.run (nb + 1) (Imp.init ek0 vk0) (hist ++ .fit ek vk :: mus.map ImpOp.update)
    (∀ k < nb, z ≠ ek k) → s.freeInv (nb + 1) z ≠ 0 → s.free (nb + 1) z = impurityGreen (toMat nb s.H) z := by
  intro s hz hD
  obtain ⟨h1, h2, h3, _⟩ := C48_hamiltonian nb ek0 vk0 hist ek vk mus
  unfold Imp.free
  unfold Imp.freeInv at hD ⊢
  rw [h2, h3, Nat.add_sub_cancel, deltaEval_eq] at hD ⊢
  rw [h1, siam_green (fun k => hz k k.2) hD]

/-- C48: the matrix of the distributional exact diagonalisation, `build_siam`, for any array of the right form that is
overwritten: its impurity Green function is `1/(z - e0 - Σ vk2/(z - ek))`. -/
theorem C48_build_siam (nb : ℕ) (H : ℕ → ℕ → ℝ) (hH : BathDiag (nb + 1) H) (e0 : ℝ) (ek vk2 : ℕ → ℝ) (hv : ∀ k < nb, 0 ≤ vk2 k) (z : ℂ)
    (hz : z.im ≠ 0) :
    impurityGreen (toMat nb (buildSiam (nb + 1) H e0 ek vk2)) z = (z - e0 - ∑ k : Fin nb, (vk2 k : ℂ) / (z - ek k))⁻¹ ∧
      BathDiag (nb + 1) (buildSiam (nb + 1) H e0 ek vk2) := by
  have hb : BathDiag (nb + 1) (buildSiam (nb + 1) H e0 ek vk2) := by
    intro i j hi hin hj hjn hij
    unfold buildSiam
    rw [if_neg (by omega), setFlatDiag_eq _ _ hin hjn, if_neg (fun h => hij h.1)]
    unfold setArms
    rw [if_neg (by omega), if_neg (by omega)]
    exact hH i j hi hin hj hjn hij
  refine ⟨?_, hb⟩
  have hm : toMat nb (buildSiam (nb + 1) H e0 ek vk2) = siam e0 (fun k : Fin nb => ek k) (fun k : Fin nb => -Real.sqrt (vk2 k)) := by
    refine toMat_siam (vk := fun k => -Real.sqrt (vk2 k)) ?_ (fun k hk => ?_) (fun k hk => ?_) hb
    · simp [buildSiam]
    · unfold buildSiam
      simp only
      rw [if_neg (by omega), if_neg (by omega), setFlatDiag_eq _ _ (by omega) (by omega), setFlatDiag_eq _ _ (by omega) (by omega),
        if_neg (by omega), if_neg (by omega)]
      unfold setArms
      rw [if_neg (by omega), if_pos (by omega), if_pos (by omega)]
      simp
    · unfold buildSiam
      rw [if_neg (by omega), setFlatDiag_eq _ _ (by omega) (by omega), if_pos (by omega)]
      simp
  have hn := siam_nonreal e0 (fun k : Fin nb => ek k) (fun k : Fin nb => -Real.sqrt (vk2 k)) hz
  rw [hm, siam_green hn.1 hn.2]
  unfold hybridisation
  congr 2
  refine Finset.sum_congr rfl fun k _ => ?_
  congr 1
  rw [← Complex.ofReal_pow, neg_sq, Real.sq_sqrt (hv k k.2)]

/-- A concrete impurity with two bath sites. -/
example : impurityGreen (toMat 2 (buildSiam 3 (fun _ _ => 0) 0 (fun k => k) (fun _ => 4))) Complex.I
    = (Complex.I - (0 : ℝ) - ∑ k : Fin 2, ((4 : ℝ) : ℂ) / (Complex.I - ((k : ℕ) : ℝ)))⁻¹ :=
  (C48_build_siam 2 (fun _ _ => 0) (fun _ _ _ _ _ _ _ => rfl) 0 (fun k => k) (fun _ => 4) (fun _ _ => by norm_num) Complex.I (by simp)).1

/-- After `reset_bath` the Hamiltonian and the bath parameters disagree until the next `fit`: the Green function reported by
the object is then not the resolvent of its matrix. -/
theorem C48_reset_bath_out_of_sync :
    let s := Imp.run 2 (Imp.init (fun _ => 0) (fun _ => 1)) [.fit (fun _ => 0) (fun _ => 1), .update 0, .resetBath (fun _ => 0) (fun _ => 2)]
    s.free 2 Complex.I ≠ impurityGreen (toMat 1 s.H) Complex.I := by
  intro s
  obtain ⟨h1, _, _, h4⟩ := C48_hamiltonian 1 (fun _ => 0) (fun _ => 1) [] (fun _ => 0) (fun _ => 1) [0]
  have h0 : s.H 0 0 = 0 := by simp [s, Imp.run, Imp.step]
  have hm : toMat 1 s.H = siam (s.H 0 0) (fun k : Fin 1 => (0 : ℝ)) (fun k : Fin 1 => (1 : ℝ)) := h1
  have hn := siam_nonreal (s.H 0 0) (fun k : Fin 1 => (0 : ℝ)) (fun k : Fin 1 => (1 : ℝ)) (z := Complex.I) (by simp)
  rw [hm, siam_green hn.1 hn.2]
  unfold Imp.free Imp.freeInv hybridisation
  rw [h0]
  have he : s.ek = fun _ => 0 := rfl
  have hv : s.vk = fun _ => 2 := rfl
  rw [he, hv]
  intro h
  have h' := inv_injective h
  simp [deltaEval, List.range_succ] at h'
  have := congrArg Complex.re h'
  norm_num at this

/-! ### C49 -/

/-- C49: inserting the self-energy `1/free - 1/gf` in the impurity Green function gives back `gf`. -/
theorem C49_impurity (n : ℕ) (s : Imp) (gf : ℂ → ℂ) (z : ℂ) : s.call n gf z = gf z ∧ s.sigma n gf z = (s.free n z)⁻¹ - (gf z)⁻¹ := by
  constructor
  · unfold Imp.call Imp.sigma Imp.freeInv
    rw [sub_sub_cancel, inv_inv]
  · unfold Imp.sigma Imp.free
    rw [inv_inv]

/-- C49: the hybridisation of a lattice given by a hybridisation is that hybridisation, whatever the self-energy. -/
theorem C49_hybrid (hyb sig : ℂ → ℂ) (mu z : ℂ) :
    Loc.delta { gfhybrid hyb with mu := some mu, sigma := some sig } z = .ok (hyb z) := by
  simp only [Loc.delta, Loc.weiss, gfhybrid, bind, Except.bind, pure, Except.pure]
  congr 1
  ring

/-- C49: for every lattice object the Weiss field is `z + mu - Delta(z)`, and `1/G = Weiss - Sigma`. -/
theorem C49_weiss (inv : ℂ → (ℂ → ℂ) → ℂ → ℂ) (ed : Option ℂ) (sig : ℂ → ℂ) (mu z : ℂ) :
    ∃ w d g, Loc.weiss ⟨inv, some mu, some sig, ed⟩ z = .ok w ∧ Loc.delta ⟨inv, some mu, some sig, ed⟩ z = .ok d ∧
      Loc.call ⟨inv, some mu, some sig, ed⟩ z = .ok g ∧ w = z + mu - d ∧ g⁻¹ = w - sig z := by
  refine ⟨sig z + inv mu sig z, z + mu - (sig z + inv mu sig z), (inv mu sig z)⁻¹, rfl, rfl, rfl, by ring, ?_⟩
  rw [inv_inv]; ring

/-- C49: at self-consistency the two Green functions agree. If the lattice object (of any kind) has the self-energy and the
chemical potential of the impurity, then the bath reproduces the lattice hybridisation at `z` exactly when the local lattice
Green function at `z` is the impurity Green function. -/
theorem C49_self_consistent (n : ℕ) (s : Imp) (gf : ℂ → ℂ) (inv : ℂ → (ℂ → ℂ) → ℂ → ℂ) (ed : Option ℂ) (z : ℂ) :
    Loc.delta ⟨inv, some (-(s.H 0 0 : ℂ)), some (s.sigma n gf), ed⟩ z = .ok (deltaEval (n - 1) s.ek s.vk z) ↔
      Loc.call ⟨inv, some (-(s.H 0 0 : ℂ)), some (s.sigma n gf), ed⟩ z = .ok (s.call n gf z) := by
  rw [(C49_impurity n s gf z).1]
  simp only [Loc.delta, Loc.weiss, Loc.call, bind, Except.bind, pure, Except.pure, Except.ok.injEq]
  have hs : s.sigma n gf z = z - s.H 0 0 - deltaEval (n - 1) s.ek s.vk z - (gf z)⁻¹ := rfl
  rw [hs, inv_eq_iff_eq_inv]
  constructor <;> intro h <;> linear_combination -h

/-- The lattice objects of `dmft.py` before a chemical potential and a self-energy are set refuse to compute. -/
theorem C49_unset (hyb ht : ℂ → ℂ) (z : ℂ) :
    (gfhybrid hyb).delta z = .error .attributeError ∧ (gfhilbert ht).delta z = .error .attributeError := ⟨rfl, rfl⟩

example : Loc.delta { gfhybrid (fun z => 1 / z) with mu := some 3, sigma := some fun z => z ^ 2 } Complex.I = .ok (1 / Complex.I) :=
  C49_hybrid _ _ _ _

/-! ### C74 -/

/-- C74 is false: `DMFT.initialize` raises `AttributeError` for every lattice object of `dmft.py`, whatever its arguments,
because they have no on-site energy `ed`. -/
theorem C74_refuted (f : ℂ → ℂ) (U : ℂ) (Sigma : ℂ → ℂ) (mu : Option ℂ) :
    dmftInitialize (gfhybrid f) U Sigma mu = .error .attributeError ∧
      dmftInitialize (gfhilbert f) U Sigma mu = .error .attributeError := ⟨rfl, rfl⟩

/-- C74: an object with an `ed` (such as `nano_dmft.Gfloc`, or a subclass) is initialised, the default chemical potential is
`U/2`, and the impurity level becomes `ed - mu`. -/
theorem C74_with_ed_partial (inv : ℂ → (ℂ → ℂ) → ℂ → ℂ) (m s ed) (U : ℂ) (Sigma : ℂ → ℂ) :
    (∀ mu, dmftInitialize ⟨inv, m, s, some ed⟩ U Sigma (some mu) = .ok (⟨inv, some mu, some Sigma, some ed⟩, mu - ed)) ∧
      dmftInitialize ⟨inv, m, s, some ed⟩ U Sigma none = .ok (⟨inv, some (U / 2), some Sigma, some ed⟩, U / 2 - ed) :=
  ⟨fun _ => rfl, rfl⟩

/-! ### C50 -/

/-- The error of call `k`: distance between the new hybridisation and the argument. -/
noncomputable def callErr (step : ℕ → List ℂ → Option ℝ × List ℂ) (arg : ℕ → List ℂ) (k : ℕ) : ℝ := deltaNorm (step k (arg k)).2 (arg k)

theorem dmftCall_eq (tol : ℝ) (maxIter : ℕ) (step : ℕ → List ℂ → Option ℝ × List ℂ) (arg : ℕ → List ℂ) (k it : ℕ)
    (ho : (step k (arg k)).1.isSome) :
    dmftCall tol maxIter (step k) it (arg k) = if callErr step arg k < tol then (it, .converged)
      else if it + 1 > maxIter then (it + 1, .failed) else (it + 1, .value (step k (arg k)).2) := by
  obtain ⟨o, ho⟩ := Option.isSome_iff_exists.mp ho
  simp only [dmftCall, clampNonCausal]
  rw [ho]
  rfl

theorem drive_skip (tol : ℝ) (maxIter : ℕ) (step : ℕ → List ℂ → Option ℝ × List ℂ) (arg : ℕ → List ℂ)
    (ho : ∀ k, (step k (arg k)).1.isSome) (m : ℕ) : ∀ (fuel k it : ℕ), it + m ≤ maxIter → (∀ j < m, ¬ callErr step arg (k + j) < tol) →
    dmftDrive tol maxIter step arg (fuel + m) k it = dmftDrive tol maxIter step arg fuel (k + m) (it + m) := by
  induction m with
  | zero => intro fuel k it _ _; rfl
  | succ m ih =>
    intro fuel k it hm he
    rw [show fuel + (m + 1) = (fuel + m) + 1 by ring, dmftDrive, dmftCall_eq _ _ _ _ _ _ (ho k), if_neg (by simpa using he 0 (by omega)),
      if_neg (by omega)]
    simp only
    rw [ih fuel (k + 1) (it + 1) (by omega) (fun j hj => by rw [show k + 1 + j = k + (j + 1) by ring]; exact he (j + 1) (by omega)),
      show k + 1 + m = k + (m + 1) by ring, show it + 1 + m = it + (m + 1) by ring]

/-- C50: for every sequence of arguments a driver chooses and every sequence of solver results: the first call `k ≤ max_iter`
whose error is below `tol` raises `Converged`, and no earlier call raises. -/
theorem C50_converged (tol : ℝ) (maxIter : ℕ) (step : ℕ → List ℂ → Option ℝ × List ℂ) (arg : ℕ → List ℂ)
    (ho : ∀ k, (step k (arg k)).1.isSome) (k : ℕ) (hk : k ≤ maxIter) (hc : callErr step arg k < tol)
    (hb : ∀ j < k, ¬ callErr step arg j < tol) (fuel : ℕ) :
    dmftDrive tol maxIter step arg (fuel + 1 + k) 0 0 = some (k + 1, .converged) := by
  rw [drive_skip tol maxIter step arg ho k (fuel + 1) 0 0 (by omega) (by simpa using hb), dmftDrive, dmftCall_eq _ _ _ _ _ _ (ho _),
    if_pos (by simpa using hc)]
  simp

/-- C50: if none of the first `max_iter + 1` calls has an error below `tol`, call number `max_iter + 1` raises
`FailedToConverge`. -/
theorem C50_failed (tol : ℝ) (maxIter : ℕ) (step : ℕ → List ℂ → Option ℝ × List ℂ) (arg : ℕ → List ℂ)
    (ho : ∀ k, (step k (arg k)).1.isSome) (hb : ∀ j ≤ maxIter, ¬ callErr step arg j < tol) (fuel : ℕ) :
    dmftDrive tol maxIter step arg (fuel + 1 + maxIter) 0 0 = some (maxIter + 1, .failed) := by
  rw [drive_skip tol maxIter step arg ho maxIter (fuel + 1) 0 0 (by omega) (fun j hj => by simpa using hb j (by omega)), dmftDrive,
    dmftCall_eq _ _ _ _ _ _ (ho _), if_neg (by simpa using hb maxIter le_rfl), if_pos (by omega)]
  simp

/-- C50: every run ends with one of the two verdicts after at most `max_iter + 1` calls, and the verdict is `Converged` exactly
when the last call has an error below `tol`. -/
theorem C50_verdict (tol : ℝ) (maxIter : ℕ) (step : ℕ → List ℂ → Option ℝ × List ℂ) (arg : ℕ → List ℂ)
    (ho : ∀ k, (step k (arg k)).1.isSome) :
    ∃ k ≤ maxIter, ∃ out, (∀ fuel, dmftDrive tol maxIter step arg (fuel + 1 + k) 0 0 = some (k + 1, out)) ∧
      ((out = .converged ∧ callErr step arg k < tol) ∨ (out = .failed ∧ k = maxIter ∧ ¬ callErr step arg k < tol)) := by
  classical
  by_cases h : ∃ k, k ≤ maxIter ∧ callErr step arg k < tol
  · have hs := Nat.find_spec h
    refine ⟨Nat.find h, hs.1, .converged, fun fuel => C50_converged tol maxIter step arg ho _ hs.1 hs.2 (fun j hj hc => ?_) fuel, .inl ⟨rfl, hs.2⟩⟩
    exact Nat.find_min h hj ⟨by omega, hc⟩
  · push Not at h
    exact ⟨maxIter, le_rfl, .failed, fun fuel => C50_failed tol maxIter step arg ho (fun j hj => not_lt.mpr (h j hj)) fuel,
      .inr ⟨rfl, rfl, not_lt.mpr (h _ le_rfl)⟩⟩

/-- The counter is not reset: after a failed run (counter `max_iter + 1`) another run of the same object ends at its first call. -/
theorem C50_second_run (tol : ℝ) (maxIter : ℕ) (step : ℕ → List ℂ → Option ℝ × List ℂ) (arg : ℕ → List ℂ)
    (ho : ∀ k, (step k (arg k)).1.isSome) (fuel : ℕ) :
    dmftDrive tol maxIter step arg (fuel + 1) 0 (maxIter + 1) = some (1, if callErr step arg 0 < tol then .converged else .failed) := by
  rw [dmftDrive, dmftCall_eq _ _ _ _ _ _ (ho _)]
  by_cases h : callErr step arg 0 < tol
  · simp [h]
  · simp [h]

theorem deltaNorm_self (l : List ℂ) : deltaNorm l l = 0 := by
  have : (List.zipWith (fun a b => Complex.normSq (a - b)) l l).sum = 0 := by
    induction l with
    | nil => rfl
    | cons a l ih => rw [List.zipWith_cons_cons, List.sum_cons, ih]; simp
  rw [deltaNorm, this, Real.sqrt_zero]

/-- A step that reproduces its argument converges in the first call. -/
example : dmftDrive 1 20 (fun _ d => (some 1, d)) (fun _ => [Complex.I, 1]) 5 0 0 = some (1, .converged) :=
  C50_converged 1 20 (fun _ d => (some 1, d)) (fun _ => [Complex.I, 1]) (fun _ => rfl) 0 (by omega)
    (by simp only [callErr]; rw [deltaNorm_self]; norm_num) (fun j hj => absurd hj (by omega)) 4

/-! ### C75 -/

/-- C75 is false: without an `occupancy_goal` and with `adjust_mu=False` (the defaults) the occupation is `None`, and every
call ends with a `TypeError` while printing it, before the convergence test: neither verdict is ever reached. -/
theorem C75_refuted (tol : ℝ) (maxIter : ℕ) (step : ℕ → List ℂ → Option ℝ × List ℂ) (arg : ℕ → List ℂ)
    (ho : ∀ k, (step k (arg k)).1 = none) (fuel it : ℕ) :
    dmftDrive tol maxIter step arg (fuel + 1) 0 it = some (1, .typeError) := by
  have : dmftCall tol maxIter (step 0) it (arg 0) = (it, .typeError) := by
    simp only [dmftCall, clampNonCausal]
    rw [ho]
  rw [dmftDrive, this]

example : dmftDrive 1 20 (fun _ d => (none, d)) (fun _ => [Complex.I, 1]) 5 0 0 = some (1, .typeError) :=
  C75_refuted 1 20 (fun _ d => (none, d)) (fun _ => [Complex.I, 1]) (fun _ => rfl) 4 0

/-- C75: with an occupation to print (an `occupancy_goal`, or `adjust_mu=True`) the `TypeError` does not occur. -/
theorem C75_with_goal_partial (tol : ℝ) (maxIter : ℕ) (step : ℕ → List ℂ → Option ℝ × List ℂ) (arg : ℕ → List ℂ)
    (ho : ∀ k, (step k (arg k)).1.isSome) :
    ∃ k ≤ maxIter, ∃ out, (out = .converged ∨ out = .failed) ∧
      ∀ fuel, dmftDrive tol maxIter step arg (fuel + 1 + k) 0 0 = some (k + 1, out) := by
  obtain ⟨k, hk, out, h, hv⟩ := C50_verdict tol maxIter step arg ho
  exact ⟨k, hk, out, hv.imp And.left And.left, h⟩

/-! ### C51 -/

/-- C51 is false: the assignment goes to a copy, so a hybridisation with a positive imaginary part reaches the solver
unchanged. -/
theorem C51_refuted : ∃ delta : List ℂ, (∃ d ∈ delta, 0 < d.im) ∧ (clampNonCausal delta).2 = delta :=
  ⟨[Complex.I], ⟨Complex.I, by simp, by simp⟩, rfl⟩

/-- C51: the values are the intended ones (`imag = -1e-20`, same real part) when all are causal already; in general the array
is left as it was, so `step` gets the caller's values. -/
theorem C51_causal_partial (delta : List ℂ) (h : ∀ d ∈ delta, ¬ 0 < d.im) :
    (clampNonCausal delta).2 = delta.map (fun d => if 0 < d.im then (⟨d.re, -1e-20⟩ : ℂ) else d) ∧
      ∀ d ∈ (clampNonCausal delta).2, d.im ≤ 0 := by
  refine ⟨?_, fun d hd => not_lt.mp (h d hd)⟩
  have : delta.map (fun d => if 0 < d.im then (⟨d.re, -1e-20⟩ : ℂ) else d) = delta.map id :=
    List.map_congr_left fun d hd => by rw [if_neg (h d hd)]; rfl
  rw [this, List.map_id]
  rfl

end Edpyt
