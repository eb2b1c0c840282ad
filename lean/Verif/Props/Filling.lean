import Verif.Props.Variational
import Verif.Props.OccupationGf
import Verif.Proof.Filling
/-!
# C128: the filling as a function of the chemical potential
-/
namespace Edpyt
open Spec Matrix

/-! ## Specification -/

/-- `x` is the total number of electrons that `get_occupation` reports at inverse temperature `beta`, after `build_espace` with the chemical potential
`mu`. -/
def Spec.TotalOcc (w : ℕ) (a : HamArgs) (beta mu x : ℝ) : Prop :=
  ∃ es E occ egs U D As, BuildEspace w { a with mu := mu } none (.ok (es, E)) ∧ List.Forall₂ OccView es occ ∧ getOccupation occ egs beta a.n = .ok (U, D, As) ∧
    x = ∑ k ∈ Finset.range a.n, (U k + D k)

/-! ## The particle number of eigenvectors -/

variable {a : HamArgs} {w : ℕ} {es es' : Espace (ℕ × ℕ)}

/-- The number of electrons of a configuration. -/
def numE {n : ℕ} (S : Finset (Fin (n + n))) : ℝ := ∑ s : Bool, ∑ i : Fin n, if orb s i ∈ S then 1 else 0

theorem numE_eq {n : ℕ} (S : Finset (Fin (n + n))) : numE S = ((spinCount false S + spinCount true S : ℤ) : ℝ) := by
  unfold numE spinCount
  rw [Fintype.sum_bool, add_comm]
  simp only [Bool.false_eq_true, if_false, if_true, Int.cast_add, Int.cast_natCast]
  congr 1 <;> rw [Finset.sum_boole] <;> rfl

theorem SctOk.number {n p q : ℕ} {s : Sct} {up dw : List ℕ} (h : SctOk n p q s up dw) (k : ℕ) : Matrix.diagonal (numE (n := n)) *ᵥ s.ket n k = ((p + q : ℕ) : ℝ) • s.ket n k := by
  funext S
  rw [Matrix.mulVec_diagonal, Pi.smul_apply, smul_eq_mul, h.ket_eq]
  by_cases hS : Spec.ket n up dw (s.eigvecs[k]?.getD 0) S = 0
  · rw [hS, mul_zero, mul_zero]
  · obtain ⟨h1, h2⟩ := ket_support h.hup h.hdw _ hS
    rw [numE_eq, h1, h2]
    push_cast
    rfl

theorem EigenEspace.number {n : ℕ} {H : Matrix (Finset (Fin (n + n))) (Finset (Fin (n + n))) ℝ} (h : EigenEspace n H es) (k : EigIdx n) :
    Matrix.diagonal (numE (n := n)) *ᵥ esKet n es k = ((k.1.1 + k.1.2 : ℕ) : ℝ) • esKet n es k := by
  obtain ⟨up, dw, -, -, hok, -⟩ := h.toCompleteEspace.at (u := k.1.1) (d := k.1.2) (by have := k.1.1.2; omega) (by have := k.1.2.2; omega)
  exact hok.number _

/-- Shifting the chemical potential adds the number operator. -/
theorem hamH_mu (a : HamArgs) (mu : ℝ) : a.hamH a.H mu = a.ham + (mu - a.mu) • Matrix.diagonal (numE (n := a.n)) := by
  rw [withH_ham mu fun _ _ _ _ => rfl]
  congr 1
  rw [← Matrix.diagonal_smul]
  congr 1
  funext S
  rw [Pi.smul_apply, smul_eq_mul, numE, Finset.mul_sum]
  refine Finset.sum_congr rfl fun s _ => ?_
  rw [Finset.mul_sum]
  exact Finset.sum_congr rfl fun i _ => by ring

theorem EigenEspace.shift_mu (h : EigenEspace a.n a.ham es) (mu : ℝ) :
    EigBasis (a.hamH a.H mu) (esKet a.n es) fun k => esVal a.n es k + (mu - a.mu) * ((k.1.1 + k.1.2 : ℕ) : ℝ) := by
  refine ⟨h.basis.card, h.basis.orth, fun k => ?_⟩
  rw [hamH_mu, Matrix.add_mulVec, h.basis.eig, Matrix.smul_mulVec, h.number, smul_smul, add_smul]

/-! ## C128 -/

theorem withMu_valid (ha : a.Valid) (mu : ℝ) : (a.withH a.H mu).Valid := ⟨ha.two_le, ha.le, ha.hU, ha.symmH, ha.symmX, ha.symmP, ha.hJ⟩

theorem thermal_total {n : ℕ} {H : Matrix (Finset (Fin (n + n))) (Finset (Fin (n + n))) ℝ} {κ : Type} [Fintype κ] [DecidableEq κ] {u : κ → Finset (Fin (n + n)) → ℝ} {E N : κ → ℝ}
    (h : EigBasis H u E) (hN : ∀ k, Matrix.diagonal (numE (n := n)) *ᵥ u k = N k • u k) (β : ℝ) :
    ∑ k : Fin n, (thermalOcc β H false k + thermalOcc β H true k) = (((∑ k, Real.exp (-β * E k) * N k) / ∑ k, Real.exp (-β * E k) : ℝ) : ℂ) := by
  have e : ∀ (s : Bool) (i : Fin n), thermalOcc β H s i = (((∑ k, Real.exp (-β * E k) * (u k ⬝ᵥ (num ℝ (orb s i) *ᵥ u k))) / ∑ k, Real.exp (-β * E k) : ℝ) : ℂ) := fun s i => h.thermal β _
  simp only [e]
  rw [Finset.sum_add_distrib, ← Complex.ofReal_sum, ← Complex.ofReal_sum, ← Complex.ofReal_add, ← Finset.sum_div, ← Finset.sum_div, ← add_div]
  congr 2
  rw [Finset.sum_comm, add_comm, Finset.sum_comm, ← Finset.sum_add_distrib]
  refine Finset.sum_congr rfl fun k _ => ?_
  rw [← Finset.mul_sum, ← Finset.mul_sum, ← mul_add]
  congr 1
  have hn : u k ⬝ᵥ Matrix.diagonal (numE (n := n)) *ᵥ u k = N k := by rw [hN, dotProduct_smul, h.orth, if_pos rfl, smul_eq_mul, mul_one]
  rw [← hn]
  have hd : Matrix.diagonal (numE (n := n)) = ∑ s : Bool, ∑ i : Fin n, num ℝ (orb s i) := by
    simp only [num_diagonal, diagonal_sum]
    rfl
  rw [hd, Matrix.sum_mulVec, dotProduct_sum, Fintype.sum_bool]
  simp only [Matrix.sum_mulVec, dotProduct_sum]

/-- The total as a function of the chemical potential, in terms of the spectrum at one chemical potential. -/
theorem totalOcc_iff (ha : a.Valid) (hw : a.n ≤ w) (h0 : EigenEspace a.n a.ham es) (beta mu x : ℝ) :
    TotalOcc w a beta mu x ↔ x = expAvg (fun k : EigIdx a.n => Real.exp (-beta * esVal a.n es k)) (fun k => ((k.1.1 + k.1.2 : ℕ) : ℝ)) (-beta * (mu - a.mu)) := by
  have key : ∀ es1 E1 occ egs U D As, BuildEspace w (a.withH a.H mu) none (.ok (es1, E1)) → List.Forall₂ OccView es1 occ → getOccupation occ egs beta a.n = .ok (U, D, As) →
      ∑ k ∈ Finset.range a.n, (U k + D k) = expAvg (fun k : EigIdx a.n => Real.exp (-beta * esVal a.n es k)) (fun k => ((k.1.1 + k.1.2 : ℕ) : ℝ)) (-beta * (mu - a.mu)) := by
    intro es1 E1 occ egs U D As hb hv ho
    have hw' : (a.withH a.H mu).n ≤ w := hw
    have h1 : EigenEspace a.n (a.hamH a.H mu) es1 := buildEspace_eigen (withMu_valid ha mu) hw' hb
    obtain ⟨U', D', As', ho', hU⟩ := C101_get_occupation h1 hv egs beta
    rw [ho] at ho'
    obtain ⟨rfl, rfl, rfl⟩ : U = U' ∧ D = D' ∧ As = As' := by simpa using ho'
    have ht := thermal_total (h0.shift_mu mu) h0.number beta
    rw [← Complex.ofReal_inj, Finset.sum_range fun k => U k + D k, Complex.ofReal_sum]
    rw [show ∑ k : Fin a.n, ((U k + D k : ℝ) : ℂ) = ∑ k : Fin a.n, (thermalOcc beta (a.hamH a.H mu) false k + thermalOcc beta (a.hamH a.H mu) true k) from
      Finset.sum_congr rfl fun k _ => by rw [Complex.ofReal_add, (hU k).1, (hU k).2], ht]
    unfold expAvg
    have e : ∀ k : EigIdx a.n, Real.exp (-beta * (esVal a.n es k + (mu - a.mu) * ((k.1.1 + k.1.2 : ℕ) : ℝ))) = Real.exp (-beta * esVal a.n es k) * Real.exp (-beta * (mu - a.mu) * ((k.1.1 + k.1.2 : ℕ) : ℝ)) := fun k => by
      rw [← Real.exp_add]; ring_nf
    simp only [e]
  constructor
  · rintro ⟨es1, E1, occ, egs, U, D, As, hb, hv, ho, rfl⟩
    exact key es1 E1 occ egs U D As hb hv ho
  · rintro rfl
    have hw' : (a.withH a.H mu).n ≤ w := hw
    obtain ⟨⟨es1, E1⟩, hb⟩ := (buildEspace_none_ok (withMu_valid ha mu) hw').1
    have hv : List.Forall₂ OccView es1 (es1.map fun p => OccSct.ofSct p.2) := by
      rw [List.forall₂_map_right_iff]
      exact List.forall₂_same.mpr fun p _ => OccSct.ofSct_view p
    have h1 : EigenEspace a.n (a.hamH a.H mu) es1 := buildEspace_eigen (withMu_valid ha mu) hw' hb
    obtain ⟨U, D, As, ho, -⟩ := C101_get_occupation h1 hv 0 beta
    exact ⟨es1, E1, _, 0, U, D, As, hb, hv, ho, (key es1 E1 _ 0 U D As hb hv ho).symm⟩

/-- **C128** the total number of electrons depends only on the arguments: it is the same for every run of the diagonalisation. -/
theorem C128_total (ha : a.Valid) (hw : a.n ≤ w) (beta mu : ℝ) : ∃! x, TotalOcc w a beta mu x := by
  obtain ⟨es, h0⟩ := eigenEspace_exists ha
  exact ⟨_, (totalOcc_iff ha hw h0 beta mu _).mpr rfl, fun x hx => (totalOcc_iff ha hw h0 beta mu x).mp hx⟩

section
variable {n : ℕ}
/-- The vacuum. -/
def idxVac : EigIdx n := ⟨(0, 0), ⟨0, by simp⟩⟩
/-- The full configuration. -/
def idxFull : EigIdx n := ⟨(Fin.last n, Fin.last n), ⟨0, by simp⟩⟩
instance : Nonempty (EigIdx n) := ⟨idxVac⟩
end

/-- **C128** at positive temperature, raising `mu` strictly lowers the total number of electrons: `mu` is added to the levels. -/
theorem C128_antitone (ha : a.Valid) (hw : a.n ≤ w) {beta mu mu' x x' : ℝ} (hb : 0 < beta) (hmu : mu < mu') (h : TotalOcc w a beta mu x) (h' : TotalOcc w a beta mu' x') : x' < x := by
  obtain ⟨es, h0⟩ := eigenEspace_exists ha
  rw [(totalOcc_iff ha hw h0 beta mu x).mp h, (totalOcc_iff ha hw h0 beta mu' x').mp h']
  refine expAvg_strictMono (fun k => Real.exp_pos _) (k0 := idxVac) (k1 := idxFull) ?_ ?_
  · have := ha.two_le
    have : (0 : ℝ) < a.n := by exact_mod_cast (by omega : 0 < a.n)
    simp only [idxVac, idxFull, Fin.val_zero, Fin.val_last]
    push_cast
    linarith
  · nlinarith

/-- **C128** every filling strictly between empty and full is reached at exactly one `mu`. -/
theorem C128_filling (ha : a.Valid) (hw : a.n ≤ w) {beta x : ℝ} (hb : 0 < beta) (hx : 0 < x) (hx' : x < 2 * a.n) : ∃! mu, TotalOcc w a beta mu x := by
  obtain ⟨es, h0⟩ := eigenEspace_exists ha
  obtain ⟨t, ht, hu⟩ := expAvg_surj (w := fun k : EigIdx a.n => Real.exp (-beta * esVal a.n es k)) (N := fun k => ((k.1.1 + k.1.2 : ℕ) : ℝ)) (M := 2 * a.n) (fun k => Real.exp_pos _)
    (fun k => ⟨Nat.cast_nonneg _, by
      have h1 := k.1.1.2
      have h2 := k.1.2.2
      have : (k.1.1 + k.1.2 : ℕ) ≤ 2 * a.n := by omega
      exact_mod_cast this⟩) (k0 := idxVac) (k1 := idxFull) (by simp [idxVac]) (by simp only [idxFull, Fin.val_last]; push_cast; ring) hx hx'
  refine ⟨a.mu - t / beta, (totalOcc_iff ha hw h0 _ _ _).mpr ?_, fun mu hmu => ?_⟩
  · rw [show -beta * (a.mu - t / beta - a.mu) = t by field_simp; ring]
    exact ht.symm
  · have := hu _ ((totalOcc_iff ha hw h0 _ _ _).mp hmu).symm
    rw [← this]
    field_simp
    ring

theorem shift_mem {n p q : ℕ} {H : Matrix (Finset (Fin (n + n))) (Finset (Fin (n + n))) ℝ} (h : EigenEspace n H es) {s : Sct} {up dw : List ℕ} (hok : SctOk n p q s up dw)
    (hp : p ≤ n) (hq : q ≤ n) {k : ℕ} (hk1 : s.ket n k ⬝ᵥ s.ket n k = 1) {E : ℝ} (hE : H *ᵥ s.ket n k = E • s.ket n k) : E ∈ (sctAt es (p, q)).eigvals := by
  have hx : ∃ i, esKet n es i ⬝ᵥ s.ket n k ≠ 0 := by
    by_contra hc
    push Not at hc
    have := (h.basis.quad (s.ket n k)).2
    rw [hk1] at this
    simp [hc] at this
  obtain ⟨i, hi⟩ := hx
  obtain ⟨up', dw', hm, -, hok', -, -, hlen⟩ := h.toCompleteEspace.at (u := i.1.1) (d := i.1.2) (by have := i.1.1.2; omega) (by have := i.1.2.2; omega)
  have hv : esVal n es i = E := by
    have h1 : esKet n es i ⬝ᵥ H *ᵥ s.ket n k = E * (esKet n es i ⬝ᵥ s.ket n k) := by rw [hE, dotProduct_smul, smul_eq_mul]
    rw [h.basis.apply, dotProduct_sum] at h1
    have h2 : ∑ j, esKet n es i ⬝ᵥ (esVal n es j * (esKet n es j ⬝ᵥ s.ket n k)) • esKet n es j = esVal n es i * (esKet n es i ⬝ᵥ s.ket n k) := by
      rw [Finset.sum_eq_single i]
      · rw [dotProduct_smul, h.basis.orth, if_pos rfl, smul_eq_mul, mul_one]
      · intro j _ hj
        rw [dotProduct_smul, h.basis.orth, if_neg (Ne.symm hj), smul_zero]
      · simp
    exact mul_right_cancel₀ hi (h2.symm.trans h1)
  have hS : ∃ S, esKet n es i S ≠ 0 ∧ s.ket n k S ≠ 0 := by
    by_contra hc
    push Not at hc
    refine hi (Finset.sum_eq_zero fun S _ => ?_)
    by_cases h0 : esKet n es i S = 0
    · rw [h0, zero_mul]
    · rw [hc S h0, mul_zero]
  obtain ⟨S, h1, h2⟩ := hS
  unfold esKet at h1
  rw [hok'.ket_eq] at h1
  rw [hok.ket_eq] at h2
  have c1 := ket_support hok'.hup hok'.hdw _ h1
  have c2 := ket_support hok.hup hok.hdw _ h2
  have e1 : (i.1.1 : ℕ) = p := by have := c1.1.symm.trans c2.1; exact_mod_cast this
  have e2 : (i.1.2 : ℕ) = q := by have := c1.2.symm.trans c2.2; exact_mod_cast this
  rw [← hv, ← e1, ← e2]
  unfold esVal
  rw [List.getElem?_eq_getElem (by rw [hlen]; exact i.2.2)]
  exact List.getElem_mem _

/-- **C128** the levels of a sector with `p` and `q` electrons move rigidly with `mu`, by `mu (p + q)`. -/
theorem C128_levels (ha : a.Valid) (hw : a.n ≤ w) {mu : ℝ} {E E' : WithTop ℝ} (h : BuildEspace w a none (.ok (es, E))) (h' : BuildEspace w { a with mu := mu } none (.ok (es', E')))
    {p q : ℕ} {s s' : Sct} (hs : ((p, q), s) ∈ es) (hs' : ((p, q), s') ∈ es') (x : ℝ) : x ∈ s.eigvals ↔ x + (mu - a.mu) * (p + q) ∈ s'.eigvals := by
  have hw' : (a.withH a.H mu).n ≤ w := hw
  have h0 : EigenEspace a.n a.ham es := buildEspace_eigen ha hw h
  have h1 : EigenEspace a.n (a.hamH a.H mu) es' := buildEspace_eigen (withMu_valid ha mu) hw' h'
  have hq : p ≤ a.n ∧ q ≤ a.n := by
    have := mem_ndindex2.mp (h0.keys.mem_iff.mp (List.mem_map.mpr ⟨_, hs, rfl⟩))
    simp only at this
    omega
  have es1 : sctAt es (p, q) = s := by unfold sctAt; rw [dictGet_mem h0.toCompleteEspace.nodup hs]
  have es2 : sctAt es' (p, q) = s' := by unfold sctAt; rw [dictGet_mem h1.toCompleteEspace.nodup hs']
  obtain ⟨up, dw, hok, -⟩ := h0.ok _ hs
  obtain ⟨up', dw', hok', -⟩ := h1.ok _ hs'
  constructor
  · intro hx
    obtain ⟨k, hk, rfl⟩ := List.getElem_of_mem hx
    rw [← es2]
    refine shift_mem h1 hok hq.1 hq.2 (k := k) ((h0.subEspace.sct _ hs).ket_norm hk) ?_
    rw [hamH_mu, Matrix.add_mulVec, h0.eig _ hs k hk, Matrix.smul_mulVec, hok.number, smul_smul, ← add_smul, List.getElem?_eq_getElem hk, Option.getD_some]
    push_cast
    rfl
  · intro hx
    obtain ⟨k, hk, hk'⟩ := List.getElem_of_mem hx
    rw [← es1]
    refine shift_mem h0 hok' hq.1 hq.2 (k := k) ((h1.subEspace.sct _ hs').ket_norm hk) ?_
    have := h1.eig _ hs' k hk
    rw [hamH_mu, Matrix.add_mulVec, Matrix.smul_mulVec, hok'.number, smul_smul, List.getElem?_eq_getElem hk, Option.getD_some, hk'] at this
    rw [eq_sub_of_add_eq this, ← sub_smul]
    push_cast
    congr 1
    ring

/-- Non-vacuity: for the two-site arguments of `hotImp` one electron per orbital pair is reached at exactly one `mu`, and the ground state energy is attained. -/
example : hotArgs.Valid ∧ (∃ es E, BuildEspace 64 hotArgs none (.ok (es, ((E : ℝ) : WithTop ℝ)))) ∧ ∃! mu, TotalOcc 64 hotArgs 1 mu 2 := by
  have hw : hotArgs.n ≤ 64 := by have := hotArgs_valid.le; omega
  have h2 : (2 : ℝ) ≤ hotArgs.n := by exact_mod_cast hotArgs_valid.two_le
  refine ⟨hotArgs_valid, ?_, C128_filling hotArgs_valid hw one_pos two_pos (by linarith)⟩
  obtain ⟨⟨es, E⟩, h⟩ := (buildEspace_none_ok hotArgs_valid hw).1
  obtain ⟨E0, rfl, -⟩ := buildEspace_least hotArgs_valid hw h
  exact ⟨es, E0, h⟩

end Edpyt
