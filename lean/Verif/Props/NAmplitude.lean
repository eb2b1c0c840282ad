import Verif.Props.NLevels
import Verif.Props.NScreen
import Verif.Proof.Amplitude
/-!
Property C170: the elements of `cotnl.build_transition_elements` are second-order amplitudes.
-/
namespace Edpyt
open Spec Matrix

/-! ## Specification -/

/-- `v` is the amplitude for an electron of spin `j` to leave the lead with couplings `a` and for an electron of spin `i` to arrive with energy `ε` in the lead with
couplings `b`, while the state `I` of energy `EI` becomes `F` of energy `EF`: the sum over both orders of the two steps, with the resolvent of `H` between them. In
the first order the dot has the energy `ε + EF` in between, in the second one `EI - ε`. -/
def Spec.IsTransfer (n : ℕ) (H : Matrix (Finset (Fin (n + n))) (Finset (Fin (n + n))) ℝ) (i j : Bool) (b a : List ℝ) (EF EI ε : ℝ)
    (F I : Finset (Fin (n + n)) → ℝ) (v : ℝ) : Prop :=
  ∃ ve vh, v = ve + vh ∧
    IsAmplitude ((ε + EF) • (1 : Matrix _ _ ℝ) - H) F (annSum (n := n) i fun m => b[(m : ℕ)]?.getD 0) (creSum j fun m => a[(m : ℕ)]?.getD 0) I ve ∧
    IsAmplitude ((ε - EI) • (1 : Matrix _ _ ℝ) + H) F (creSum (n := n) j fun m => a[(m : ℕ)]?.getD 0) (annSum i fun m => b[(m : ℕ)]?.getD 0) I vh

/-! ## Sums over the intermediate states -/

theorem map_eigvals (l : List ℝ) {β : Type} (h : ℝ → β) : l.map h = (List.range l.length).map fun j => h (l[j]?.getD 0) := by
  apply List.ext_getElem (by simp)
  intro j h3 h4
  simp only [List.length_map] at h3
  simp [List.getElem?_eq_getElem h3]

theorem zip_three {α β γ : Type} (l : List ℕ) (f : ℕ → α) (g : ℕ → β) (h : ℕ → γ) : (l.map f).zip ((l.map g).zip (l.map h)) = l.map fun j => (f j, g j, h j) := by
  induction l with
  | nil => rfl
  | cons x l ih => simp only [List.map_cons, List.zip_cons_cons, ih]

theorem zip_amp {n : ℕ} {v : List ℝ} (hv : v.length = n) (f : ℕ → ℝ) :
    (List.zipWith (· * ·) ((List.range n).map f) v).sum = ∑ k : Fin n, (v[(k : ℕ)]?.getD 0) * f k := by
  have : dotArr ((List.range n).map f) v = .ok (List.zipWith (· * ·) ((List.range n).map f) v).sum := by rw [dotArr, if_pos (by simp [hv])]
  have := (dotArr_amp (n := n) (s := 1) (f := f) (by simp) this).2
  rw [this, one_mul]

theorem ampGf_up {n : ℕ} (sI sJ : List ℕ) (I J : Sct) (spins fi : ℕ × ℕ) {a b : List ℝ} (ha : a.length = n) (hb : b.length = n) (z : ℝ) :
    ampGf a b z (gf2Up n sI sJ I J spins fi) = ∑ j ∈ Finset.range J.eigvals.length,
      (∑ k : Fin n, (b[(k : ℕ)]?.getD 0) * amplitude n sI sJ I J j fi.1 spins.1 k) * (∑ k : Fin n, (a[(k : ℕ)]?.getD 0) * amplitude n sI sJ I J j fi.2 spins.2 k) *
        (J.eigvals[j]?.getD 0 - I.eigvals[fi.1]?.getD 0 - z)⁻¹ := by
  unfold ampGf rowsOf gf2Up
  simp only [if_true]
  rw [map_eigvals J.eigvals, zip_three, List.map_map, range_sum]
  refine Finset.sum_congr rfl fun j _ => ?_
  simp only [Function.comp]
  rw [zip_amp ha, zip_amp hb]

theorem ampGf_down {n : ℕ} (sK sI : List ℕ) (K I : Sct) (spins fi : ℕ × ℕ) {a b : List ℝ} (ha : a.length = n) (hb : b.length = n) (z : ℝ) :
    ampGf a b z (gf2Down n sK sI K I spins fi) = ∑ k ∈ Finset.range K.eigvals.length,
      (∑ x : Fin n, (a[(x : ℕ)]?.getD 0) * amplitude n sK sI K I fi.1 k spins.1 x) * (∑ x : Fin n, (b[(x : ℕ)]?.getD 0) * amplitude n sK sI K I fi.2 k spins.2 x) *
        (I.eigvals[fi.2]?.getD 0 - K.eigvals[k]?.getD 0 - z)⁻¹ := by
  unfold ampGf rowsOf gf2Down
  simp only [Bool.false_eq_true, if_false]
  rw [map_eigvals K.eigvals, zip_three, List.map_map, range_sum]
  refine Finset.sum_congr rfl fun j _ => ?_
  simp only [Function.comp]
  rw [zip_amp ha, zip_amp hb]

theorem creSum_leadOp (n : ℕ) (σ : Bool) (v : List ℝ) : creSum (n := n) σ (fun m => v[(m : ℕ)]?.getD 0) = leadOp n σ v := rfl

theorem annSum_leadOp (n : ℕ) (σ : Bool) (v : List ℝ) : annSum (n := n) σ (fun m => v[(m : ℕ)]?.getD 0) = (leadOp n σ v)ᵀ := by
  unfold annSum leadOp
  rw [transpose_sum]
  refine Finset.sum_congr rfl fun k _ => ?_
  rw [transpose_smul, cre, transpose_transpose]

theorem leadOp_card {n : ℕ} (σ : Bool) (v : List ℝ) {T S : Finset (Fin (n + n))} (h : leadOp n σ v T S ≠ 0) : T.card = S.card + 1 := by
  unfold leadOp at h
  rw [Matrix.sum_apply] at h
  obtain ⟨k, -, hk⟩ := Finset.exists_ne_zero_of_sum_ne_zero h
  rw [Matrix.smul_apply, smul_eq_mul] at hk
  have hk := right_ne_zero_of_mul hk
  rw [cre_apply] at hk
  split at hk
  · rename_i h1
    split at hk
    · rename_i h2
      rw [h2, Finset.card_insert_of_notMem h1]
    · exact absurd rfl hk
  · exact absurd rfl hk

section
variable {a : HamArgs} {es : Espace ℕ}

/-- Adding an electron changes the number of electrons by one. -/
theorem leadOp_sector (hr : NRun a es) (σ : Bool) (v : List ℝ) {x y : NIdx a.n} (h : nKet a.n es x ⬝ᵥ leadOp a.n σ v *ᵥ nKet a.n es y ≠ 0) : (x.1 : ℕ) = y.1 + 1 := by
  obtain ⟨T, -, hT⟩ := Finset.exists_ne_zero_of_sum_ne_zero h
  have h1 := hr.supp x T (left_ne_zero_of_mul hT)
  have hT2 := right_ne_zero_of_mul hT
  rw [mulVec, dotProduct] at hT2
  obtain ⟨S, -, hS⟩ := Finset.exists_ne_zero_of_sum_ne_zero hT2
  have h2 := hr.supp y S (right_ne_zero_of_mul hS)
  rw [← h1, ← h2]
  exact leadOp_card σ v (left_ne_zero_of_mul hS)

theorem sum_nSector {n : ℕ} {N : ℕ} (hN : N < n + n + 1) (f : NIdx n → ℝ) (hf : ∀ x : NIdx n, (x.1 : ℕ) ≠ N → f x = 0) :
    ∑ x, f x = ∑ k : Fin ((n + n).choose N), f ⟨⟨N, hN⟩, k⟩ := by
  rw [Fintype.sum_sigma, Finset.sum_eq_single (⟨N, hN⟩ : Fin (n + n + 1))]
  · intro b _ hb
    exact Finset.sum_eq_zero fun k _ => hf _ fun h => hb (Fin.ext h)
  · intro h; exact absurd (Finset.mem_univ _) h

/-- The electron part of an element. -/
theorem up_amplitude (hr : NRun a es) {N : ℕ} (hN : N + 1 < a.n + a.n + 1) {sI sJ : List ℕ} (hI : NSctOk a.n N (nSctAt es N) sI) (hJ : NSctOk a.n (N + 1) (nSctAt es (N + 1)) sJ)
    (f i : Fin ((a.n + a.n).choose N)) (σ' σ : Bool) {v w : List ℝ} (hv : v.length = a.n) (hw : w.length = a.n) (z : ℝ)
    (hz : ∀ x : NIdx a.n, (x.1 : ℕ) = N + 1 → z + nVal a.n es ⟨⟨N, by omega⟩, f⟩ ≠ nVal a.n es x) :
    IsAmplitude ((z + nVal a.n es ⟨⟨N, by omega⟩, f⟩) • (1 : Matrix _ _ ℝ) - a.hamN) (nKet a.n es ⟨⟨N, by omega⟩, f⟩)
      (annSum (n := a.n) σ' fun m => w[(m : ℕ)]?.getD 0) (creSum σ fun m => v[(m : ℕ)]?.getD 0) (nKet a.n es ⟨⟨N, by omega⟩, i⟩)
      (-ampGf v w z (gf2Up a.n sI sJ (nSctAt es N) (nSctAt es (N + 1)) (if σ' then 1 else 0, if σ then 1 else 0) (f, i))) := by
  have hb := (hr.basis.shift (z + nVal a.n es ⟨⟨N, by omega⟩, f⟩) (-1)).amplitude (nKet a.n es ⟨⟨N, by omega⟩, f⟩) ((leadOp a.n σ' w)ᵀ) (leadOp a.n σ v)
    (nKet a.n es ⟨⟨N, by omega⟩, i⟩) (by
      intro x hx
      have hne : (x.1 : ℕ) ≠ N + 1 := fun h => hz x h (by linarith)
      constructor
      · by_contra h
        exact hne (leadOp_sector hr σ v h)
      · by_contra h
        rw [dotProduct_mulVec, vecMul_transpose, dotProduct_comm] at h
        exact hne (leadOp_sector hr σ' w h))
  rw [creSum_leadOp, annSum_leadOp, sub_eq_add_neg, ← neg_one_smul ℝ a.hamN]
  convert hb using 1
  rw [sum_nSector hN, ampGf_up _ _ _ _ _ _ hv hw]
  · obtain ⟨-, -, -, hl⟩ := hr.get (N + 1) (by omega)
    rw [hl, Finset.sum_range, ← Finset.sum_neg_distrib]
    refine Finset.sum_congr rfl fun j _ => ?_
    simp only
    rw [dotProduct_mulVec, vecMul_transpose, dotProduct_comm, nKet_amp hr hN hI hJ, nKet_amp hr hN hI hJ]
    rw [← mul_neg, ← inv_neg]
    congr 2
    unfold nVal
    ring
  · intro x hx
    have : nKet a.n es x ⬝ᵥ leadOp a.n σ v *ᵥ nKet a.n es ⟨⟨N, by omega⟩, i⟩ = 0 := by
      by_contra h
      exact hx (leadOp_sector hr σ v h)
    rw [this]; ring

/-- The hole part of an element. -/
theorem down_amplitude (hr : NRun a es) {N : ℕ} (hN : N + 1 < a.n + a.n + 1) {sK sI : List ℕ} (hK : NSctOk a.n N (nSctAt es N) sK) (hI : NSctOk a.n (N + 1) (nSctAt es (N + 1)) sI)
    (f i : Fin ((a.n + a.n).choose (N + 1))) (σ' σ : Bool) {v w : List ℝ} (hv : v.length = a.n) (hw : w.length = a.n) (z : ℝ)
    (hz : ∀ x : NIdx a.n, (x.1 : ℕ) = N → nVal a.n es ⟨⟨N + 1, hN⟩, i⟩ - z ≠ nVal a.n es x) :
    IsAmplitude ((z - nVal a.n es ⟨⟨N + 1, hN⟩, i⟩) • (1 : Matrix _ _ ℝ) + a.hamN) (nKet a.n es ⟨⟨N + 1, hN⟩, f⟩)
      (creSum (n := a.n) σ fun m => v[(m : ℕ)]?.getD 0) (annSum σ' fun m => w[(m : ℕ)]?.getD 0) (nKet a.n es ⟨⟨N + 1, hN⟩, i⟩)
      (-ampGf v w z (gf2Down a.n sK sI (nSctAt es N) (nSctAt es (N + 1)) (if σ then 1 else 0, if σ' then 1 else 0) (f, i))) := by
  have hb := (hr.basis.shift (z - nVal a.n es ⟨⟨N + 1, hN⟩, i⟩) 1).amplitude (nKet a.n es ⟨⟨N + 1, hN⟩, f⟩) (leadOp a.n σ v) ((leadOp a.n σ' w)ᵀ)
    (nKet a.n es ⟨⟨N + 1, hN⟩, i⟩) (by
      intro x hx
      have hne : (x.1 : ℕ) ≠ N := fun h => hz x h (by linarith)
      constructor
      · by_contra h
        rw [dotProduct_mulVec, vecMul_transpose, dotProduct_comm] at h
        exact hne (Nat.succ_injective (leadOp_sector hr σ' w h)).symm
      · by_contra h
        exact hne (Nat.succ_injective (leadOp_sector hr σ v h)).symm)
  rw [creSum_leadOp, annSum_leadOp, ← one_smul ℝ a.hamN]
  convert hb using 1
  rw [sum_nSector (show N < a.n + a.n + 1 by omega), ampGf_down _ _ _ _ _ _ hv hw]
  · obtain ⟨-, -, -, hl⟩ := hr.get N (by omega)
    rw [hl, Finset.sum_range, ← Finset.sum_neg_distrib]
    refine Finset.sum_congr rfl fun j _ => ?_
    simp only
    rw [dotProduct_mulVec (nKet a.n es _) (leadOp a.n σ' w)ᵀ, vecMul_transpose, dotProduct_comm _ (nKet a.n es ⟨⟨N + 1, hN⟩, i⟩), nKet_amp hr hN hK hI, nKet_amp hr hN hK hI]
    rw [← mul_neg, ← inv_neg]
    congr 2
    unfold nVal
    ring
  · intro x hx
    have : nKet a.n es ⟨⟨N + 1, hN⟩, f⟩ ⬝ᵥ leadOp a.n σ v *ᵥ nKet a.n es x = 0 := by
      by_contra h
      exact hx (Nat.succ_injective (leadOp_sector hr σ v h)).symm
    rw [this]; ring

end

/-! ## The dictionary -/

theorem flatD_key {κ α : Type} [DecidableEq κ] : ∀ {D : List (κ × List α)}, (D.map Prod.fst).Nodup → ∀ {p : κ × List α}, p ∈ D →
    (flatD D).filter (fun q => q.1 = p.1) = (↑(p.2.map fun x => (p.1, x)) : Multiset (κ × α))
  | [], _, p, hp => by simp at hp
  | q :: D, hD, p, hp => by
    rw [List.map_cons, List.nodup_cons] at hD
    rw [flatD_cons, Multiset.filter_add]
    rcases List.mem_cons.mp hp with rfl | hp
    · have h1 : (flatD D).filter (fun q => q.1 = p.1) = 0 := by
        rw [Multiset.filter_eq_nil]
        intro x hx e
        obtain ⟨r, hr, e1, -⟩ := mem_flatD.mp hx
        exact hD.1 (by rw [← e, ← e1]; exact List.mem_map_of_mem hr)
      rw [h1, add_zero, Multiset.filter_eq_self]
      intro x hx
      obtain ⟨y, -, rfl⟩ := List.mem_map.mp (Multiset.mem_coe.mp hx)
      rfl
    · rw [flatD_key hD.2 hp]
      have : Multiset.filter (fun r : κ × α => r.1 = p.1) (↑(q.2.map fun x => (q.1, x)) : Multiset (κ × α)) = 0 := by
        rw [Multiset.filter_eq_nil]
        intro x hx e
        obtain ⟨y, -, rfl⟩ := List.mem_map.mp (Multiset.mem_coe.mp hx)
        exact hD.1 (by rw [show q.1 = p.1 from e]; exact List.mem_map_of_mem hp)
      rw [this, zero_add]

theorem filter_sctKey {β : Type} (N : ℤ) (m : ℕ) (F : ℕ × ℕ → β) {fi : ℕ × ℕ} (h : fi ∈ ndindex2 m m) :
    Multiset.filter (fun q : (NId × NId) × β => q.1 = ((N, fi.1), (N, fi.2))) (↑((ndindex2 m m).map fun fi => (((N, fi.1), (N, fi.2)), F fi)) : Multiset ((NId × NId) × β)) =
      {(((N, fi.1), (N, fi.2)), F fi)} := by
  rw [Multiset.filter_coe]
  have h1 := filter_ndindex2 m m (fun fi => ((N, fi.1), (N, fi.2))) (fun x y h => by simpa [Prod.ext_iff] using h) F h
  obtain ⟨x, hx, e⟩ := List.map_eq_singleton_iff.mp h1
  have hm : x ∈ List.filter (fun p : (NId × NId) × β => decide (p.1 = ((N, fi.1), N, fi.2))) (List.map (fun x => (((N, x.1), N, x.2), F x)) (ndindex2 m m)) := by rw [hx]; simp
  have e2 := of_decide_eq_true (List.mem_filter.mp hm).2
  rw [hx, ← e, ← e2]
  rfl

/-- The lists of the dictionary: one element for each pair of spins. -/
theorem cotnlBuild_lists {junk n N : ℕ} (hn : 2 * n ≤ 32) {es : Espace ℕ} {K I J : Sct} {sK sI sJ : List ℕ}
    (hI : dictGet es N = .ok I ∧ NSctOk n N I sI) (hJ : (N : ℤ) + 1 < 2 * n → dictGet es (N + 1) = .ok J ∧ NSctOk n (N + 1) J sJ)
    (hK : (N : ℤ) - 1 > 0 → dictGet es (N - 1) = .ok K ∧ NSctOk n (N - 1) K sK) (egs : Option ℝ) (hc : (N : ℤ) + 1 < 2 * n ∨ (N : ℤ) - 1 > 0) :
    ∃ sd, cotnlBuild junk n es (some (N : ℤ)) egs none = .ok sd ∧ (sd.map Prod.fst).Nodup ∧
      (∀ k, k ∈ sd.map Prod.fst ↔ ∃ fi ∈ ndindex2 I.eigvals.length I.eigvals.length, k = (((N : ℤ), fi.1), ((N : ℤ), fi.2))) ∧
      ∀ p ∈ sd, ∃ fi ∈ ndindex2 I.eigvals.length I.eigvals.length, p.1 = (((N : ℤ), fi.1), ((N : ℤ), fi.2)) ∧
        p.2.Perm ((ndindex2 2 2).map fun spins => sigmaOf n sK sI sJ K I J N spins fi) := by
  obtain ⟨sd, h1, ⟨h2, h2'⟩, h3⟩ := cotnlBuild_full (junk := junk) hn hI hJ hK egs
  have h4 : ndindex2 2 2 = [(0, 0), (0, 1), (1, 0), (1, 1)] := by decide
  have hmem : ∀ q, q ∈ flatD sd ↔ ∃ spins ∈ ndindex2 2 2, ∃ fi ∈ ndindex2 I.eigvals.length I.eigvals.length,
      q = ((((N : ℤ), fi.1), ((N : ℤ), fi.2)), sigmaOf n sK sI sJ K I J N spins fi) := by
    intro q
    rw [h3]
    simp only [if_pos hc, h4, List.map_cons, List.map_nil, List.sum_cons, List.sum_nil, Multiset.mem_add, Multiset.mem_coe, List.mem_map, List.mem_cons, List.not_mem_nil, or_false,
      exists_eq_or_imp, exists_eq_left, Multiset.notMem_zero, eq_comm (a := q)]
  have hkey : ∀ p ∈ sd, ∃ fi ∈ ndindex2 I.eigvals.length I.eigvals.length, p.1 = (((N : ℤ), fi.1), ((N : ℤ), fi.2)) := by
    intro p hp
    obtain ⟨x, hx⟩ := List.exists_mem_of_ne_nil _ (h2' p hp)
    obtain ⟨spins, -, fi, hfi, e⟩ := (hmem (p.1, x)).mp (mem_flatD.mpr ⟨p, hp, rfl, hx⟩)
    exact ⟨fi, hfi, congrArg Prod.fst e⟩
  refine ⟨sd, h1, h2, fun k => ⟨fun hk => ?_, ?_⟩, fun p hp => ?_⟩
  · obtain ⟨p, hp, rfl⟩ := List.mem_map.mp hk
    exact hkey p hp
  · rintro ⟨fi, hfi, rfl⟩
    have := (hmem ((((N : ℤ), fi.1), ((N : ℤ), fi.2)), sigmaOf n sK sI sJ K I J N (0, 0) fi)).mpr ⟨(0, 0), by rw [h4]; simp, fi, hfi, rfl⟩
    obtain ⟨p, hp, e, -⟩ := mem_flatD.mp this
    exact List.mem_map.mpr ⟨p, hp, e⟩
  · obtain ⟨fi, hfi, e⟩ := hkey p hp
    refine ⟨fi, hfi, e, ?_⟩
    have hf := flatD_key h2 hp
    rw [h3, e] at hf
    simp only [if_pos hc, h4, List.map_cons, List.map_nil, List.sum_cons, List.sum_nil, Multiset.filter_add, filter_sctKey (N : ℤ) _ _ hfi, Multiset.filter_zero] at hf
    have := congrArg (Multiset.map Prod.snd) hf
    simp only [Multiset.map_add, Multiset.map_singleton, Multiset.map_zero, Multiset.map_coe, List.map_map] at this
    rw [← Multiset.coe_eq_coe, h4]
    have e2 : List.map (Prod.snd ∘ fun x => ((((N : ℤ), fi.1), ((N : ℤ), fi.2)), x)) p.2 = p.2 := by simp [Function.comp_def]
    rw [e2] at this
    rw [← this]
    rfl

/-! ## The theorem -/

section
variable {a : HamArgs} {es : Espace ℕ}

theorem shaped_up {n : ℕ} (sI sJ : List ℕ) (I J : Sct) (spins fi : ℕ × ℕ) (h : J.eigvals ≠ []) : ShapedGf n (gf2Up n sI sJ I J spins fi) := by
  refine ⟨by simp [gf2Up], by simp [gf2Up], ?_, ?_, by simpa [gf2Up] using h⟩ <;>
  · intro r hr
    obtain ⟨j, -, rfl⟩ := List.mem_map.mp hr
    simp

theorem shaped_down {n : ℕ} (sK sI : List ℕ) (K I : Sct) (spins fi : ℕ × ℕ) (h : K.eigvals ≠ []) : ShapedGf n (gf2Down n sK sI K I spins fi) := by
  refine ⟨by simp [gf2Down], by simp [gf2Down], ?_, ?_, by simpa [gf2Down] using h⟩ <;>
  · intro r hr
    obtain ⟨j, -, rfl⟩ := List.mem_map.mp hr
    simp

theorem NRun.vals_ne (hr : NRun a es) {N : ℕ} (hN : N ≤ a.n + a.n) : (nSctAt es N).eigvals ≠ [] := by
  obtain ⟨-, -, -, hl⟩ := hr.get N hN
  intro h
  rw [h] at hl
  exact absurd hl.symm (Nat.choose_pos hN).ne'

/-- **C170**. For a spectrum of `build_espace(H, V, symmetry='N')` and a number of electrons with at least one more and one less state on each side, the dictionary
of `cotnl.build_transition_elements(n, espace, N)` has the pairs of states of the sector as keys, each with one element for each pair of spins. Calling an element at `z` gives
the square of the amplitude for one electron to leave the lead `extract` and one to arrive with energy `z` in the lead `inject`.
Missing: the sectors next to the empty and the full one, see `C170_refuted`. -/
theorem C170_elements_partial (ha : a.NValid) {w : ℕ} (hw : a.n + a.n ≤ w) {egs : WithTop ℝ} (h : NBuildEspace w a none (.ok (es, egs))) (junk : ℕ) {N : ℕ} (h1 : 1 < N)
    (h2 : N + 1 < 2 * a.n) (e0 : Option ℝ) :
    ∃ sd, cotnlBuild junk a.n es (some (N : ℤ)) e0 none = .ok sd ∧ (sd.map Prod.fst).Nodup ∧
      (∀ k, k ∈ sd.map Prod.fst ↔ ∃ f i : Fin ((a.n + a.n).choose N), k = (((N : ℤ), (f : ℕ)), ((N : ℤ), (i : ℕ)))) ∧
      ∀ p ∈ sd, ∃ f i : Fin ((a.n + a.n).choose N), p.1 = (((N : ℤ), (f : ℕ)), ((N : ℤ), (i : ℕ))) ∧ (p.2.map NSigma.spins).Perm [(0, 0), (0, 1), (1, 0), (1, 1)] ∧
        ∀ s ∈ p.2, ∃ σ' σ : Bool, s.spins = (if σ' then 1 else 0, if σ then 1 else 0) ∧
          s.dE = nVal a.n es ⟨⟨N, by omega⟩, f⟩ - nVal a.n es ⟨⟨N, by omega⟩, i⟩ ∧
          ∀ (z : ℝ) (A : List (List ℝ)) (extract inject : ℕ) (u v : List ℝ), A[extract]? = some u → A[inject]? = some v → u.length = a.n → v.length = a.n →
            (∀ x : NIdx a.n, (x.1 : ℕ) = N + 1 → z + nVal a.n es ⟨⟨N, by omega⟩, f⟩ ≠ nVal a.n es x) →
            (∀ x : NIdx a.n, (x.1 : ℕ) + 1 = N → nVal a.n es ⟨⟨N, by omega⟩, i⟩ - z ≠ nVal a.n es x) →
            ∃ r, s.call z A extract inject = .ok (r ^ 2) ∧
              IsTransfer a.n a.hamN σ' σ v u (nVal a.n es ⟨⟨N, by omega⟩, f⟩) (nVal a.n es ⟨⟨N, by omega⟩, i⟩) z (nKet a.n es ⟨⟨N, by omega⟩, f⟩) (nKet a.n es ⟨⟨N, by omega⟩, i⟩) r := by
  have hr := nRun a ha hw h
  obtain ⟨sI, gI, oI, lI⟩ := hr.get N (by omega)
  obtain ⟨sJ, gJ, oJ, lJ⟩ := hr.get (N + 1) (by omega)
  obtain ⟨sK, gK, oK, lK⟩ := hr.get (N - 1) (by omega)
  have c1 : (N : ℤ) + 1 < 2 * a.n := by omega
  have c2 : (N : ℤ) - 1 > 0 := by omega
  obtain ⟨sd, g1, g2, g3, g4⟩ := cotnlBuild_lists (junk := junk) hr.le ⟨gI, oI⟩ (fun _ => ⟨gJ, oJ⟩) (fun _ => ⟨gK, oK⟩) e0 (Or.inl c1)
  refine ⟨sd, g1, g2, fun k => ?_, fun p hp => ?_⟩
  · rw [g3, lI]
    constructor
    · rintro ⟨fi, hfi, rfl⟩
      obtain ⟨b1, b2⟩ := mem_ndindex2.mp hfi
      exact ⟨⟨fi.1, b1⟩, ⟨fi.2, b2⟩, rfl⟩
    · rintro ⟨f, i, rfl⟩
      exact ⟨(f, i), mem_ndindex2.mpr ⟨f.2, i.2⟩, rfl⟩
  · obtain ⟨fi, hfi, e1, e2⟩ := g4 p hp
    rw [lI] at hfi
    obtain ⟨b1, b2⟩ := mem_ndindex2.mp hfi
    refine ⟨⟨fi.1, b1⟩, ⟨fi.2, b2⟩, e1, ?_, fun s hs => ?_⟩
    · refine (e2.map NSigma.spins).trans ?_
      have h4 : ndindex2 2 2 = [(0, 0), (0, 1), (1, 0), (1, 1)] := by decide
      rw [h4]
      exact List.Perm.refl _
    · obtain ⟨spins, hsp, rfl⟩ := List.mem_map.mp (e2.mem_iff.mp hs)
      obtain ⟨p1, p2⟩ := mem_ndindex2.mp hsp
      have hσ : ∀ s : ℕ, s < 2 → ∃ σ : Bool, s = if σ then 1 else 0 := by
        intro s hs
        interval_cases s
        · exact ⟨false, rfl⟩
        · exact ⟨true, rfl⟩
      obtain ⟨σ', q1⟩ := hσ _ p1
      obtain ⟨σ, q2⟩ := hσ _ p2
      have e3 : spins = (if σ' then 1 else 0, if σ then 1 else 0) := Prod.ext q1 q2
      subst e3
      refine ⟨σ', σ, rfl, rfl, fun z A extract inject u v hu hv lu lv z1 z2 => ?_⟩
      obtain ⟨M, rfl⟩ : ∃ M, N = M + 1 := ⟨N - 1, by omega⟩
      simp only [Nat.add_sub_cancel] at oK gK lK
      refine ⟨-ampSigma u v z (sigmaOf a.n sK sI sJ (nSctAt es (M + 1 - 1)) (nSctAt es (M + 1)) (nSctAt es (M + 1 + 1)) (M + 1) (if σ' then 1 else 0, if σ then 1 else 0) fi), ?_, ?_⟩
      · rw [neg_sq]
        refine sigma_call (n := a.n) ?_ hu hv lu lv z
        intro g hg
        unfold sigmaOf at hg
        rw [if_pos c1, if_pos c2] at hg
        simp only [List.cons_append, List.nil_append, List.mem_cons, List.not_mem_nil, or_false] at hg
        rcases hg with rfl | rfl
        · exact shaped_up _ _ _ _ _ _ (hr.vals_ne (by omega))
        · exact shaped_down _ _ _ _ _ _ (hr.vals_ne (by omega))
      · refine ⟨_, _, ?_, up_amplitude hr (by omega) oI oJ ⟨fi.1, b1⟩ ⟨fi.2, b2⟩ σ' σ lu lv z (by simpa using z1),
          down_amplitude hr (by omega) oK oI ⟨fi.1, b1⟩ ⟨fi.2, b2⟩ σ' σ lu lv z (by
            intro x hx
            exact z2 x (by omega))⟩
        unfold ampSigma sigmaOf
        rw [if_pos c1, if_pos c2]
        simp only [List.cons_append, List.nil_append, List.map_cons, List.map_nil, List.sum_cons, List.sum_nil, Nat.add_sub_cancel, add_zero]
        ring

end

end Edpyt
