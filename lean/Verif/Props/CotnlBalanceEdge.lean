import Verif.Props.CotnlBalance
import Verif.Props.NAmplitudeEdge
/-!
C171: an inelastic transition of `cotnl` that violates detailed balance.
-/
namespace Edpyt
open Spec Matrix

/-- Two uncoupled sites with levels 0 and 1. -/
noncomputable def lvlArgs : HamArgs := { hopArgs with H := fun _ i j => if i = j then (if i = 0 then 0 else 1) else 0 }

theorem lvlArgs_nvalid : lvlArgs.NValid := ⟨hopArgs_nvalid.le, rfl, Or.inl rfl, hopArgs_nvalid.symmX, hopArgs_nvalid.symmP⟩

/-- The energy of an occupation: the electrons on the second site. -/
noncomputable def lvlE (S : Finset (Fin (2 + 2))) : ℝ := (if orb false (1 : Fin 2) ∈ S then 1 else 0) + (if orb true (1 : Fin 2) ∈ S then 1 else 0)

theorem lvl_hamN : lvlArgs.hamN = Matrix.diagonal lvlE := by
  have hz : ∀ (t : Bool → Fin 2 → Fin 2 → ℝ) (z : Fin 2 → ℝ), hubbard (n := 2) (K := ℝ) false t z (fun _ _ => 0) = kinetic t := by
    intro t z
    unfold hubbard onsiteU interSite
    simp
  have hx : spinExchange (K := ℝ) (n := 2) (fun _ _ => 0) = 0 := by unfold spinExchange; simp
  have hp : pairHopping (K := ℝ) (n := 2) (fun _ _ => 0) = 0 := by unfold pairHopping; simp
  have ho : offdiag (n := 2) (optMat (K := ℝ) (some fun _ _ => 0)) = fun _ _ => 0 := by
    funext i j; exact offdiag_zero i j
  unfold HamArgs.hamN
  change hubbard (n := 2) false (fun (_ : Bool) (i j : Fin 2) => if i = j then lvlArgs.H 1 i i + lvlArgs.mu else 0)
      (fun (i : Fin 2) => lvlArgs.z.getD (fun _ => if lvlArgs.hf then 1 else 0) i) (fun _ _ => 0) +
    (spinExchange (offdiag (n := 2) (optMat (K := ℝ) (some fun _ _ => 0))) + pairHopping (offdiag (n := 2) (optMat (K := ℝ) (some fun _ _ => 0)))) = Matrix.diagonal lvlE
  rw [hz, ho, hx, hp, add_zero, add_zero]
  unfold kinetic
  rw [Fintype.sum_bool]
  simp only [Fin.sum_univ_two, lvlArgs, hopArgs, freeArgs]
  simp only [Fin.isValue, if_true, Fin.val_zero, Fin.val_one, add_zero, zero_smul, one_ne_zero, if_false, zero_add, zero_ne_one, one_smul]
  change num ℝ (orb true 1) + num ℝ (orb false 1) = _
  rw [num_diagonal, num_diagonal, Matrix.diagonal_add]
  congr 1
  funext S
  unfold lvlE
  rw [add_comm]

/-- One electron: the states in the order of their energies. -/
noncomputable def lvlOne : EigRes :=
  ([0, 0, 1, 1], [fun r => if r = 0 then 1 else 0, fun r => if r = 2 then 1 else 0, fun r => if r = 1 then 1 else 0, fun r => if r = 3 then 1 else 0])

noncomputable def lvlChoice (es : Espace ℕ) (N : ℕ) : EigRes := if N = 1 then lvlOne else ((nSctAt es N).eigvals, (nSctAt es N).eigvecs)

theorem lvl_one {D : Dense ℝ} (hs : D.size = 4) (hv : ∀ r c, r < 4 → c < 4 → D.val r c = if r = c then (if r = 1 ∨ r = 3 then 1 else 0) else 0) : Eigh D lvlOne.1 lvlOne.2 := by
  refine ⟨by simp [lvlOne, hs], by simp [lvlOne, hs], by norm_num [lvlOne], ?_, ?_⟩
  · intro i j hi hj
    simp only [lvlOne, List.length_cons, List.length_nil] at hi hj
    rw [hs]
    simp only [Finset.sum_range_succ, Finset.sum_range_zero]
    interval_cases i <;> interval_cases j <;> simp [lvlOne]
  · intro i hi hi' r hr
    simp only [lvlOne, List.length_cons, List.length_nil] at hi
    rw [hs] at hr ⊢
    simp only [Finset.sum_range_succ, Finset.sum_range_zero]
    rw [hv r 0 hr (by norm_num), hv r 1 hr (by norm_num), hv r 2 hr (by norm_num), hv r 3 hr (by norm_num)]
    interval_cases i <;> interval_cases r <;> simp [lvlOne]

theorem eigh_transfer {D D' : Dense ℝ} {w : List ℝ} {v : List (ℕ → ℝ)} (h : Eigh D w v) (hs : D'.size = D.size) (hv : ∀ r c, r < D.size → c < D.size → D'.val r c = D.val r c) :
    Eigh D' w v := by
  refine ⟨by rw [h.wlen, hs], by rw [h.vlen, hs], h.sorted, ?_, ?_⟩
  · intro i j hi hj; rw [hs]; exact h.orth i j hi hj
  · intro i hi hi' r hr
    rw [hs] at hr ⊢
    rw [← h.eig i hi hi' r hr]
    exact Finset.sum_congr rfl fun c hc => by rw [hv r c hr (Finset.mem_range.mp hc)]

theorem lvl_run : ∃ es e0, NBuildEspace 64 lvlArgs none (.ok (nChosen 64 2 (lvlChoice es), e0)) := by
  obtain ⟨⟨es, e0⟩, h⟩ := (C168_default_runs lvlArgs_nvalid (w := 64) (by simp [lvlArgs, hopArgs, freeArgs])).2
  obtain ⟨-, hat⟩ := nEspace_at lvlArgs_nvalid (w := 64) (by simp [lvlArgs, hopArgs, freeArgs]) h
  refine ⟨es, _, nChosen_run lvlArgs_nvalid (w := 64) (by simp [lvlArgs, hopArgs, freeArgs]) (ch := lvlChoice es) ?_⟩
  intro N hN D hD
  unfold lvlChoice
  split
  · rename_i h1
    subst h1
    have g1 : gs 64 (lvlArgs.n + lvlArgs.n) 1 = [1, 2, 4, 8] := by change gs 64 4 1 = _; decide
    rw [g1] at hD
    refine lvl_one hD.size fun r c hr hc => ?_
    rw [hD.val r c hr hc, lvl_hamN]
    change Matrix.diagonal lvlE (occF 4 _) (occF 4 _) = _
    rw [Matrix.diagonal_apply]
    have q : ∀ r c : Fin 4, (occF 4 ([1, 2, 4, 8] : List ℕ)[r] = occF 4 ([1, 2, 4, 8] : List ℕ)[c] ↔ r = c) ∧
        (orb false (1 : Fin 2) ∈ occF 4 ([1, 2, 4, 8] : List ℕ)[r] ↔ r = 1) ∧ (orb true (1 : Fin 2) ∈ occF 4 ([1, 2, 4, 8] : List ℕ)[r] ↔ r = 3) := by decide
    have q' := q ⟨r, hr⟩ ⟨c, hc⟩
    unfold lvlE
    simp only [Fin.getElem_fin] at q'
    rw [if_congr q'.1 rfl rfl, if_congr q'.2.1 rfl rfl, if_congr q'.2.2 rfl rfl]
    simp only [Fin.ext_iff]
    clear q q'
    interval_cases r <;> interval_cases c <;> simp
  · obtain ⟨D', -, -, -, -, f1, f2⟩ := hat N hN
    refine eigh_transfer f2 (by rw [hD.size, f1.size]) fun r c hr hc => ?_
    rw [f1.size] at hr hc
    rw [hD.val r c hr hc, f1.val r c hr hc]

theorem lvl_sct {es : Espace ℕ} {N : ℕ} (h : N ≤ 4) : nSctAt (nChosen 64 2 (lvlChoice es)) N = nChosenSct 64 2 (lvlChoice es) N := by
  have := nChosen_get (w := 64) (ch := lvlChoice es) (n := 2) (N := N) h
  unfold nSctAt
  rw [this]

theorem ketN_four (v : ℕ → ℝ) (S : Finset (Fin (2 + 2))) : ketN (2 + 2) [1, 2, 4, 8] v S =
    (if S = occF (2 + 2) 1 then v 0 else 0) + (if S = occF (2 + 2) 2 then v 1 else 0) + (if S = occF (2 + 2) 4 then v 2 else 0) + (if S = occF (2 + 2) 8 then v 3 else 0) := by
  change (∑ a : Fin 4, if S = occF (2 + 2) ([1, 2, 4, 8] : List ℕ)[a] then v a else 0) = _
  rw [Fin.sum_univ_four]
  rfl

theorem lvl_ket (es : Espace ℕ) : nKet 2 (nChosen 64 2 (lvlChoice es)) ⟨⟨1, by norm_num⟩, ⟨0, by decide⟩⟩ = Pi.single {orb false 0} 1 ∧
    nKet 2 (nChosen 64 2 (lvlChoice es)) ⟨⟨1, by norm_num⟩, ⟨2, by decide⟩⟩ = Pi.single {orb false 1} 1 := by
  have g1 : gs 64 (2 + 2) 1 = [1, 2, 4, 8] := by decide
  have o1 : occF (2 + 2) 1 = {orb false (0 : Fin 2)} := by decide
  have o2 : occF (2 + 2) 2 = {orb false (1 : Fin 2)} := by decide
  constructor
  · funext S
    unfold nKet Sct.ketTotal
    simp only
    rw [lvl_sct (by norm_num)]
    simp only [nChosenSct, lvlChoice, if_true, lvlOne, g1]
    rw [ketN_four, Pi.single_apply, o1]
    simp
  · funext S
    unfold nKet Sct.ketTotal
    simp only
    rw [lvl_sct (by norm_num)]
    simp only [nChosenSct, lvlChoice, if_true, lvlOne, g1]
    rw [ketN_four, Pi.single_apply, o2]
    simp

theorem lvl_amp {H : Matrix (Finset (Fin (2 + 2))) (Finset (Fin (2 + 2))) ℝ} (hH : H = Matrix.diagonal lvlE) {z v : ℝ} (hz : z ≠ 0)
    (h : IsAmplitude ((z + 1) • (1 : Matrix _ _ ℝ) - H) (Pi.single {orb false (1 : Fin 2)} 1) (annSum (n := 2) false fun m => ([1, 0] : List ℝ)[(m : ℕ)]?.getD 0)
      (creSum (n := 2) false fun m => ([0, 1] : List ℝ)[(m : ℕ)]?.getD 0) (Pi.single {orb false (0 : Fin 2)} 1) v) : v ^ 2 = (z ^ 2)⁻¹ := by
  have hc : (creSum (n := 2) false fun m => ([0, 1] : List ℝ)[(m : ℕ)]?.getD 0) = cre ℝ (orb false (1 : Fin 2)) := by
    unfold creSum; rw [Fin.sum_univ_two]; simp
  have ha : (annSum (n := 2) false fun m => ([1, 0] : List ℝ)[(m : ℕ)]?.getD 0) = ann ℝ (orb false (0 : Fin 2)) := by
    unfold annSum; rw [Fin.sum_univ_two]; simp
  have e1 : cre ℝ (orb false (1 : Fin 2)) *ᵥ Pi.single {orb false (0 : Fin 2)} 1 = Pi.single {orb false (0 : Fin 2), orb false 1} (1 : ℝ) := by
    rw [mulVec_single_one]
    funext T
    rw [Matrix.col_apply, cre_apply, if_pos (by decide), Pi.single_apply]
    have : insert (orb false (1 : Fin 2)) {orb false (0 : Fin 2)} = ({orb false (0 : Fin 2), orb false 1} : Finset (Fin (2 + 2))) := by decide
    rw [this]
    have : sgn (orb false (1 : Fin 2)) {orb false (0 : Fin 2)} = 1 := by decide
    rw [this]
    split <;> simp
  have e2 : Pi.single {orb false (1 : Fin 2)} 1 ⬝ᵥ (ann ℝ (orb false (0 : Fin 2)) *ᵥ Pi.single {orb false (0 : Fin 2), orb false 1} 1) = -1 := by
    rw [mulVec_single_one, single_one_dotProduct, Matrix.col_apply, ann_apply, if_pos (by decide), if_pos (by decide)]
    have : sgn (orb false (0 : Fin 2)) {orb false (0 : Fin 2), orb false 1} = -1 := by decide
    rw [this]; simp
  have e3 : lvlE {orb false (0 : Fin 2), orb false 1} = 1 := by
    unfold lvlE
    rw [if_pos (by decide), if_neg (by decide), add_zero]
  rw [hc, ha, hH] at h
  have := h.2 (z⁻¹ • Pi.single {orb false (0 : Fin 2), orb false 1} 1) (by
    rw [e1, sub_mulVec, smul_mulVec, one_mulVec, mulVec_smul]
    funext T
    simp only [Pi.sub_apply, Pi.smul_apply, mulVec_diagonal, Pi.single_apply, smul_eq_mul]
    split
    · rename_i hT
      rw [hT, e3]
      simp only [mul_one, one_mul]
      rw [add_mul, one_mul, add_sub_cancel_right, mul_inv_cancel₀ hz]
    · simp)
  rw [mulVec_smul, dotProduct_smul, e2, smul_eq_mul] at this
  rw [← this]
  field_simp

theorem lvl_eig {H : Matrix (Finset (Fin (2 + 2))) (Finset (Fin (2 + 2))) ℝ} (hH : H = Matrix.diagonal lvlE) {v : Finset (Fin (2 + 2)) → ℝ} {c : ℝ} (hv : v ≠ 0)
    (h : H *ᵥ v = c • v) : c = 0 ∨ c = 1 ∨ c = 2 := by
  obtain ⟨S, hS⟩ := Function.ne_iff.mp hv
  have h4 := congrFun h S
  rw [hH, mulVec_diagonal] at h4
  rw [← (mul_right_cancel₀ hS h4 : lvlE S = c)]
  unfold lvlE
  split <;> split <;> norm_num

/-- **C171 refuted** for inelastic transitions with `integrate_method='approximate'`: two uncoupled sites with levels 0 and 1, one electron, at zero bias and temperature 1. An
electron of spin up that enters the second site while the one on the first site leaves is favoured by the rates over the reverse by a factor other than the
Boltzmann factor. -/
theorem C171_refuted : ∃ (a : HamArgs) (es : Espace ℕ) (e0 : WithTop ℝ) (sd : List ((NId × NId) × List NSigma)) (p p' : (NId × NId) × List NSigma) (s t : NSigma),
    a.NValid ∧ NBuildEspace 64 a none (.ok (es, e0)) ∧ cotnlBuild 0 a.n es (some 1) none none = .ok sd ∧ p ∈ sd ∧ p' ∈ sd ∧ p'.1 = p.1.swap ∧ s ∈ p.2 ∧ t ∈ p'.2 ∧
      Mirror s t ∧ s.dE = 1 ∧
      NSigma.approximate [[0, 1], [1, 0]] 1 [0, 0] 0 1 s = .ok (4 / (Real.exp 1 - 1)) ∧
      NSigma.approximate [[0, 1], [1, 0]] 1 [0, 0] 1 0 t = .ok (Real.exp 1 * (4 / 9) / (Real.exp 1 - 1)) ∧
      ¬ CoBalanced (NSigma.approximate [[0, 1], [1, 0]] 1 [0, 0]) 1 [0, 0] 0 1 s t := by
  obtain ⟨es, e0, h⟩ := lvl_run
  have hr := nRun lvlArgs lvlArgs_nvalid (w := 64) (by simp [lvlArgs, hopArgs, freeArgs]) h
  obtain ⟨sI, gI, oI, lI⟩ := hr.get 1 (by simp [lvlArgs, hopArgs, freeArgs])
  obtain ⟨sJ, gJ, oJ, lJ⟩ := hr.get 2 (by simp [lvlArgs, hopArgs, freeArgs])
  have hn : lvlArgs.n = 2 := rfl
  have c1 : ((1 : ℕ) : ℤ) + 1 < 2 * lvlArgs.n := by rw [hn]; norm_num
  have c2 : ¬ ((1 : ℕ) : ℤ) - 1 > 0 := by norm_num
  generalize hes : nChosen 64 2 (lvlChoice es) = es' at *
  obtain ⟨sd, g1, -, g3, g4⟩ := cotnlBuild_lists (junk := 0) (N := 1) hr.le ⟨gI, oI⟩ (fun _ => ⟨gJ, oJ⟩) (fun h => absurd h c2) none (Or.inl c1) (K := nSctAt es' 0) (sK := [])
  have hl : (nSctAt es' 1).eigvals.length = 4 := by rw [lI]; rfl
  have hget : ∀ fi : ℕ × ℕ, fi.1 < 4 → fi.2 < 4 → ∃ p ∈ sd, p.1 = ((1, fi.1), (1, fi.2)) ∧
      sigmaOf lvlArgs.n [] sI sJ (nSctAt es' 0) (nSctAt es' 1) (nSctAt es' 2) 1 (0, 0) fi ∈ p.2 := by
    intro fi h1 h2
    obtain ⟨p, hp, e⟩ := List.mem_map.mp ((g3 ((((1 : ℕ) : ℤ), fi.1), (((1 : ℕ) : ℤ), fi.2))).mpr ⟨fi, by rw [hl, mem_ndindex2]; exact ⟨h1, h2⟩, rfl⟩)
    obtain ⟨fi', -, e', hperm⟩ := g4 p hp
    have : fi' = fi := by
      rw [e] at e'
      simp only [Prod.mk.injEq, true_and] at e'
      exact Prod.ext e'.1.symm e'.2.symm
    subst this
    exact ⟨p, hp, e, hperm.symm.subset (List.mem_map.mpr ⟨(0, 0), by decide, rfl⟩)⟩
  obtain ⟨p, hp, e, hs⟩ := hget (2, 0) (by norm_num) (by norm_num)
  obtain ⟨p', hp', e', ht⟩ := hget (0, 2) (by norm_num) (by norm_num)
  have hm : Mirror (sigmaOf lvlArgs.n [] sI sJ (nSctAt es' 0) (nSctAt es' 1) (nSctAt es' 2) 1 (0, 0) (2, 0))
      (sigmaOf lvlArgs.n [] sI sJ (nSctAt es' 0) (nSctAt es' 1) (nSctAt es' 2) 1 (0, 0) (0, 2)) := sigma_mirror _ _ _ _ _ _ _ _ (0, 0) (2, 0)
  have hvals : (nSctAt es' 1).eigvals = [0, 0, 1, 1] := by
    rw [← hes, lvl_sct (by norm_num)]
    simp [nChosenSct, lvlChoice, lvlOne]
  have hdE : (sigmaOf lvlArgs.n [] sI sJ (nSctAt es' 0) (nSctAt es' 1) (nSctAt es' 2) 1 (0, 0) (2, 0)).dE = 1 := by
    simp [sigmaOf, hvals]
  have hcall : ∀ z : ℝ, z = 1 / 2 ∨ z = -3 / 2 → (sigmaOf lvlArgs.n [] sI sJ (nSctAt es' 0) (nSctAt es' 1) (nSctAt es' 2) 1 (0, 0) (2, 0)).call z [[0, 1], [1, 0]] 0 1 = .ok (z ^ 2)⁻¹ := by
    intro z hz
    have hgf : (sigmaOf lvlArgs.n [] sI sJ (nSctAt es' 0) (nSctAt es' 1) (nSctAt es' 2) 1 (0, 0) (2, 0)).gf2 =
        [gf2Up lvlArgs.n sI sJ (nSctAt es' 1) (nSctAt es' 2) (0, 0) (2, 0)] := by
      simp only [sigmaOf]
      rw [if_pos c1, if_neg c2]; rfl
    have hsh : ∀ g ∈ (sigmaOf lvlArgs.n [] sI sJ (nSctAt es' 0) (nSctAt es' 1) (nSctAt es' 2) 1 (0, 0) (2, 0)).gf2, ShapedGf lvlArgs.n g := by
      rw [hgf]
      intro g hg
      rw [List.mem_singleton] at hg
      subst hg
      exact shaped_up _ _ _ _ _ _ (by rw [ne_eq, ← List.length_eq_zero_iff, lJ]; change ¬ Nat.choose 4 2 = 0; decide)
    rw [sigma_call hsh (a := [0, 1]) (b := [1, 0]) rfl rfl rfl rfl, ampSigma, hgf]
    simp only [List.map_cons, List.map_nil, List.sum_cons, List.sum_nil, add_zero]
    have hnv : nVal lvlArgs.n es' ⟨⟨1, by change 1 < 5; norm_num⟩, ⟨2, by change 2 < Nat.choose 4 1; decide⟩⟩ = 1 := by
      change (nSctAt es' 1).eigvals[2]?.getD 0 = 1
      rw [hvals]; rfl
    have hev : ∀ x : NIdx lvlArgs.n, nVal lvlArgs.n es' x = 0 ∨ nVal lvlArgs.n es' x = 1 ∨ nVal lvlArgs.n es' x = 2 := by
      intro x
      have h1 := hr.basis.eig x
      have h2 := hr.basis.orth x x
      rw [if_pos rfl] at h2
      have h3 : nKet lvlArgs.n es' x ≠ 0 := by
        intro h0
        rw [h0, dotProduct_zero] at h2
        exact zero_ne_one h2
      exact lvl_eig lvl_hamN h3 h1
    have ha := up_amplitude hr (N := 1) (by rw [hn]; norm_num) oI oJ ⟨2, by change 2 < Nat.choose 4 1; decide⟩ ⟨0, by change 0 < Nat.choose 4 1; decide⟩ false false (v := [0, 1]) (w := [1, 0]) rfl rfl z (by
      intro x _ hx
      rw [hnv] at hx
      rcases hev x with e | e | e <;> rw [e] at hx <;> rcases hz with hz | hz <;> rw [hz] at hx <;> norm_num at hx)
    rw [hnv] at ha
    have k := lvl_ket es
    rw [hes] at k
    have k1 : nKet lvlArgs.n es' ⟨⟨1, by change 1 < 5; norm_num⟩, ⟨0, by change 0 < Nat.choose 4 1; decide⟩⟩ = Pi.single {orb false (0 : Fin 2)} 1 := k.1
    have k2 : nKet lvlArgs.n es' ⟨⟨1, by change 1 < 5; norm_num⟩, ⟨2, by change 2 < Nat.choose 4 1; decide⟩⟩ = Pi.single {orb false (1 : Fin 2)} 1 := k.2
    rw [k1, k2] at ha
    have := lvl_amp lvl_hamN (by rcases hz with hz | hz <;> rw [hz] <;> norm_num) ha
    rw [neg_sq] at this
    exact congrArg Except.ok this
  have hrs : NSigma.approximate [[0, 1], [1, 0]] 1 [0, 0] 0 1 (sigmaOf lvlArgs.n [] sI sJ (nSctAt es' 0) (nSctAt es' 1) (nSctAt es' 2) 1 (0, 0) (2, 0)) = .ok (4 / (Real.exp 1 - 1)) := by
    unfold NSigma.approximate
    rw [hdE]
    have := hcall (1 / 2) (Or.inl rfl)
    have hq : (0.5 * (1 + ([0, 0] : List ℝ).sum) : ℝ) = 1 / 2 := by norm_num
    rw [hq, this]
    simp only [getItem, pyIndex, bind, Except.bind, pure, Except.pure]
    norm_num [coG]
    ring
  have hrt : NSigma.approximate [[0, 1], [1, 0]] 1 [0, 0] 1 0 (sigmaOf lvlArgs.n [] sI sJ (nSctAt es' 0) (nSctAt es' 1) (nSctAt es' 2) 1 (0, 0) (0, 2)) =
      .ok (Real.exp 1 * (4 / 9) / (Real.exp 1 - 1)) := by
    have := C171_call hm (hcall (-3 / 2) (Or.inr rfl))
    unfold NSigma.approximate
    rw [hm.dE, hdE]
    rw [hdE] at this
    have hq : (0.5 * (-1 + ([0, 0] : List ℝ).sum) : ℝ) = -3 / 2 + 1 := by norm_num
    rw [hq, this]
    simp only [getItem, pyIndex, bind, Except.bind, pure, Except.pure]
    have hG : coG 1 (-1) = Real.exp 1 / (Real.exp 1 - 1) := by
      have := coG_rev (beta := 1) (w := 1) (by norm_num) (by norm_num)
      rw [this]
      norm_num [coG]
      ring
    norm_num [hG]
    ring
  refine ⟨lvlArgs, es', e0, sd, p, p', _, _, lvlArgs_nvalid, h, g1, hp, hp', by rw [e, e']; rfl, hs, ht, hm, hdE, hrs, hrt, fun hb => ?_⟩
  have := hb _ 0 0 rfl rfl hrs
  rw [hrt, hdE] at this
  injection this with this
  norm_num at this
  have h1 : Real.exp 1 - 1 > 0 := by have := Real.add_one_lt_exp (x := 1) (by norm_num); linarith
  have h2 := Real.exp_pos 1
  field_simp at this
  norm_num at this

/-- Non-vacuity of the elastic theorems: all transitions of two electrons on two sites at level zero. -/
example : ∃ sd p, NBuildEspace 64 hopArgs none (.ok (flatEs, (List.range 5).foldl (fun e q => min (eigMin (mixChoice false q).1) e) ⊤)) ∧
    cotnlBuild 0 hopArgs.n flatEs (some 2) none none = .ok sd ∧ p ∈ sd ∧ p.1 = ((2, 3), (2, 1)) ∧ p.2.length = 4 ∧ ∀ s ∈ p.2, s.dE = 0 := by
  obtain ⟨sd, h1, -, h3, h4⟩ := C170_elements_partial hopArgs_nvalid (w := 64) (by simp [hopArgs, freeArgs]) (mix_run false) 0 (N := 2) (by norm_num)
    (by change 3 < 4; norm_num) none
  obtain ⟨p, hp, e⟩ := List.mem_map.mp ((h3 (((2 : ℕ), 3), ((2 : ℕ), 1))).mpr ⟨⟨3, by change 3 < Nat.choose 4 2; decide⟩, ⟨1, by change 1 < Nat.choose 4 2; decide⟩, rfl⟩)
  obtain ⟨f, i, -, h6, h7⟩ := h4 p hp
  refine ⟨sd, p, mix_run false, h1, hp, e, ?_, fun s hs => ?_⟩
  · have := h6.length_eq
    simpa using this
  · obtain ⟨σ', σ, -, h9, -⟩ := h7 s hs
    rw [h9]
    exact (congrArg₂ (· - ·) (flat_val _) (flat_val _)).trans (sub_self _)

end Edpyt
