import Verif.Props.MinMax
import Verif.Props.NEspace
/-!
C213: every energy that `build_espace` with `symmetry='N'` lists obeys the min-max principle, and is therefore monotone in the levels and in the repulsion.
-/
namespace Edpyt
open Spec Matrix

/-! ## Specification -/

/-- A vector of the Fock space made of configurations with `N` electrons. -/
def Spec.NumberVec (n N : ℕ) (x : Finset (Fin (n + n)) → ℝ) : Prop := ∀ S, x S ≠ 0 → S.card = N

/-- There are `k` linearly independent vectors with `N` electrons such that the mean energy of every combination of them is at most `E`. -/
def Spec.NLowSpace (n N : ℕ) (H : Matrix (Finset (Fin (n + n))) (Finset (Fin (n + n))) ℝ) (k : ℕ) (E : ℝ) : Prop :=
  ∃ v : Fin k → Finset (Fin (n + n)) → ℝ, LinearIndependent ℝ v ∧ (∀ i, NumberVec n N (v i)) ∧
    ∀ c : Fin k → ℝ, (∑ i, c i • v i) ⬝ᵥ H *ᵥ (∑ i, c i • v i) ≤ E * ((∑ i, c i • v i) ⬝ᵥ ∑ i, c i • v i)

variable {a : HamArgs} {w w' N k : ℕ} {es es' : Espace ℕ} {egs egs' : WithTop ℝ} {I J : Sct}

/-! ## Helpers -/

theorem NumberVec.sum {n k : ℕ} {v : Fin k → Finset (Fin (n + n)) → ℝ} (h : ∀ i, NumberVec n N (v i)) (c : Fin k → ℝ) : NumberVec n N (∑ i, c i • v i) := by
  intro S hS
  rw [Finset.sum_apply] at hS
  obtain ⟨i, -, hi⟩ := Finset.exists_ne_zero_of_sum_ne_zero hS
  exact h i S (right_ne_zero_of_mul hi)

theorem nLowSpace_mono {n k : ℕ} {H H' : Matrix (Finset (Fin (n + n))) (Finset (Fin (n + n))) ℝ} {E E' δ : ℝ} (h : NLowSpace n N H k E)
    (hH : ∀ x, NumberVec n N x → x ⬝ᵥ H' *ᵥ x ≤ x ⬝ᵥ H *ᵥ x + δ * (x ⬝ᵥ x)) (hE : E + δ ≤ E') : NLowSpace n N H' k E' := by
  obtain ⟨v, h1, h2, h3⟩ := h
  refine ⟨v, h1, h2, fun c => ?_⟩
  have a1 := hH _ (NumberVec.sum h2 c)
  have a2 := h3 c
  have a3 : 0 ≤ (∑ i, c i • v i) ⬝ᵥ ∑ i, c i • v i := Finset.sum_nonneg fun S _ => mul_self_nonneg _
  nlinarith

theorem nSct_of_mem (ha : a.NValid) (hw : a.n + a.n ≤ w) (h : NBuildEspace w a none (.ok (es, egs))) (hI : (N, I) ∈ es) :
    N ≤ a.n + a.n ∧ I = nSctAt es N ∧ I.eigvals.length = (a.n + a.n).choose N ∧ I.eigvals.Pairwise (· ≤ ·) := by
  obtain ⟨hk, hat⟩ := nEspace_at ha hw h
  have hN : N ≤ a.n + a.n := by
    have : N ∈ es.map Prod.fst := List.mem_map.mpr ⟨_, hI, rfl⟩
    rw [hk, List.mem_range] at this
    omega
  have hnd : (es.map Prod.fst).Nodup := by rw [hk]; exact List.nodup_range
  obtain ⟨D, -, hg, -, -, f1, f2⟩ := hat N hN
  have e : I = nSctAt es N := by
    have := dictGet_mem hnd hI
    rw [hg] at this
    exact (Except.ok.inj this).symm
  refine ⟨hN, e, ?_, (C168_eigenbasis ha hw h).2.2.2.2.1 _ hI⟩
  rw [e, f2.wlen, f1.size, gs_length (by omega)]

/-- The index of the `i`-th level of a sector. -/
def nLvIdx {n N : ℕ} (hN : N ≤ n + n) (i : Fin ((n + n).choose N)) : NIdx n := ⟨⟨N, by omega⟩, i⟩

theorem nLvIdx_inj {n N : ℕ} (hN : N ≤ n + n) (i j : Fin ((n + n).choose N)) : nLvIdx hN i = nLvIdx hN j ↔ i = j := by
  unfold nLvIdx
  simp

theorem nMinmax (ha : a.NValid) (hw : a.n + a.n ≤ w) (h : NBuildEspace w a none (.ok (es, egs))) (hI : (N, I) ∈ es) (hk : k < I.eigvals.length) (E : ℝ) :
    I.eigvals[k] ≤ E ↔ NLowSpace a.n N a.hamN (k + 1) E := by
  obtain ⟨hN, rfl, hlen, hs⟩ := nSct_of_mem ha hw h hI
  obtain ⟨-, -, hB, hsup, -⟩ := C168_eigenbasis ha hw h
  have hval : ∀ i : Fin ((a.n + a.n).choose N), nVal a.n es (nLvIdx hN i) = (nSctAt es N).eigvals[(i : ℕ)]?.getD 0 := fun i => rfl
  have hkv : (nSctAt es N).eigvals[k] = (nSctAt es N).eigvals[k]?.getD 0 := by rw [List.getElem?_eq_getElem hk, Option.getD_some]
  rw [hkv]
  constructor
  · intro hE
    let ι : Fin (k + 1) → Fin ((a.n + a.n).choose N) := fun i => ⟨i, by have := i.2; omega⟩
    have hinj : ∀ i j, ι i = ι j ↔ i = j := fun i j => by simp only [ι, Fin.mk.injEq]; exact Fin.val_inj
    have hco : ∀ (c : Fin (k + 1) → ℝ) (y : NIdx a.n), nKet a.n es y ⬝ᵥ ∑ i, c i • nKet a.n es (nLvIdx hN (ι i)) = ∑ i, if y = nLvIdx hN (ι i) then c i else 0 := fun c y => by
      rw [dotProduct_sum]
      refine Finset.sum_congr rfl fun i _ => ?_
      rw [dotProduct_smul, hB.orth, smul_eq_mul, mul_ite, mul_one, mul_zero]
    refine ⟨fun i => nKet a.n es (nLvIdx hN (ι i)), ?_, fun i S hS => hsup (nLvIdx hN (ι i)) S hS, fun c => ?_⟩
    · rw [Fintype.linearIndependent_iff]
      intro c hc i
      have := hco c (nLvIdx hN (ι i))
      rw [hc, dotProduct_zero, Finset.sum_eq_single i, if_pos rfl] at this
      · exact this.symm
      · intro j _ hj
        rw [if_neg]
        rw [nLvIdx_inj, hinj]
        exact fun e => hj e.symm
      · simp
    · set x := ∑ i, c i • nKet a.n es (nLvIdx hN (ι i)) with hx
      obtain ⟨q1, q2⟩ := hB.quad x
      rw [q1, q2, Finset.mul_sum]
      refine Finset.sum_le_sum fun y _ => ?_
      by_cases hy : ∃ i, y = nLvIdx hN (ι i)
      · obtain ⟨i, rfl⟩ := hy
        refine mul_le_mul_of_nonneg_right ?_ (sq_nonneg _)
        rw [hval]
        exact (sorted_getD hs (Nat.lt_succ_iff.mp i.2) hk).trans hE
      · push Not at hy
        have : nKet a.n es y ⬝ᵥ x = 0 := by
          rw [hco c y]
          exact Finset.sum_eq_zero fun i _ => if_neg (hy i)
        rw [this]; simp
  · rintro ⟨v, hv, hvs, hE⟩
    let ι : Fin k → Fin ((a.n + a.n).choose N) := fun i => ⟨i, by have := i.2; omega⟩
    let f : (Fin (k + 1) → ℝ) →ₗ[ℝ] (Fin k → ℝ) :=
      { toFun := fun c j => nKet a.n es (nLvIdx hN (ι j)) ⬝ᵥ ∑ i, c i • v i
        map_add' := fun c d => by
          funext j
          simp only [Pi.add_apply, add_smul, Finset.sum_add_distrib, dotProduct_add]
        map_smul' := fun r c => by
          funext j
          simp only [Pi.smul_apply, smul_eq_mul, mul_smul, ← Finset.smul_sum, dotProduct_smul, RingHom.id_apply] }
    have hker : LinearMap.ker f ≠ ⊥ := LinearMap.ker_ne_bot_of_finrank_lt (by simp)
    obtain ⟨c, hc, hc0⟩ := Submodule.exists_mem_ne_zero_of_ne_bot hker
    have hf : ∀ j : Fin k, nKet a.n es (nLvIdx hN (ι j)) ⬝ᵥ ∑ i, c i • v i = 0 := fun j => congrFun (LinearMap.mem_ker.mp hc) j
    set x := ∑ i, c i • v i with hx
    have hx0 : x ≠ 0 := fun h0 => hc0 (funext fun i => Fintype.linearIndependent_iff.mp hv c h0 i)
    have hxs : NumberVec a.n N x := NumberVec.sum hvs c
    obtain ⟨q1, q2⟩ := hB.quad x
    have hpos : 0 < x ⬝ᵥ x := by
      refine lt_of_le_of_ne (Finset.sum_nonneg fun S _ => mul_self_nonneg _) fun h0 => hx0 ?_
      exact dotProduct_self_eq_zero.mp h0.symm
    have hlow : (nSctAt es N).eigvals[k]?.getD 0 * (x ⬝ᵥ x) ≤ x ⬝ᵥ a.hamN *ᵥ x := by
      rw [q1, q2, Finset.mul_sum]
      refine Finset.sum_le_sum fun y _ => ?_
      by_cases hy : nKet a.n es y ⬝ᵥ x = 0
      · rw [hy]; simp
      · refine mul_le_mul_of_nonneg_right ?_ (sq_nonneg _)
        obtain ⟨T, -, hT⟩ := Finset.exists_ne_zero_of_sum_ne_zero hy
        have c1 := hsup y T (left_ne_zero_of_mul hT)
        have c2 := hxs T (right_ne_zero_of_mul hT)
        obtain ⟨⟨y1, hy1⟩, l⟩ := y
        have e1 : y1 = N := c1.symm.trans c2
        subst e1
        by_cases hl : (l : ℕ) < k
        · exact absurd (hf ⟨l, hl⟩) hy
        · exact sorted_getD hs (not_lt.mp hl) (by rw [hlen]; exact l.2)
    have := hlow.trans (hE c)
    exact le_of_mul_le_mul_right this hpos

theorem nQuad_between {n : ℕ} {H : Matrix (Finset (Fin (n + n))) (Finset (Fin (n + n))) ℝ} {d : Finset (Fin (n + n)) → ℝ} {lo hi : ℝ}
    (hd : ∀ S, S.card = N → lo ≤ d S ∧ d S ≤ hi) {x : Finset (Fin (n + n)) → ℝ} (hx : NumberVec n N x) :
    x ⬝ᵥ H *ᵥ x ≤ x ⬝ᵥ (H + Matrix.diagonal d) *ᵥ x + -lo * (x ⬝ᵥ x) ∧ x ⬝ᵥ (H + Matrix.diagonal d) *ᵥ x ≤ x ⬝ᵥ H *ᵥ x + hi * (x ⬝ᵥ x) := by
  rw [quad_diagonal]
  have hs : x ⬝ᵥ x = ∑ S, x S ^ 2 := Finset.sum_congr rfl fun S _ => by ring
  have h1 : lo * (x ⬝ᵥ x) ≤ ∑ S, d S * x S ^ 2 := by
    rw [hs, Finset.mul_sum]
    refine Finset.sum_le_sum fun S _ => ?_
    by_cases h0 : x S = 0
    · rw [h0]; simp
    · exact mul_le_mul_of_nonneg_right (hd S (hx S h0)).1 (sq_nonneg _)
  have h2 : ∑ S, d S * x S ^ 2 ≤ hi * (x ⬝ᵥ x) := by
    rw [hs, Finset.mul_sum]
    refine Finset.sum_le_sum fun S _ => ?_
    by_cases h0 : x S = 0
    · rw [h0]; simp
    · exact mul_le_mul_of_nonneg_right (hd S (hx S h0)).2 (sq_nonneg _)
  constructor <;> linarith

theorem nLevels_shift (ha : a.NValid) (hw : a.n + a.n ≤ w) (h : NBuildEspace w a none (.ok (es, egs))) (hI : (N, I) ∈ es) (hk : k < I.eigvals.length) {d : Finset (Fin (a.n + a.n)) → ℝ} {y : ℝ}
    (hy : ∀ E, y ≤ E ↔ NLowSpace a.n N (a.hamN + Matrix.diagonal d) (k + 1) E) {lo hi : ℝ} (hd : ∀ S, S.card = N → lo ≤ d S ∧ d S ≤ hi) : I.eigvals[k] + lo ≤ y ∧ y ≤ I.eigvals[k] + hi := by
  have hm := nMinmax ha hw h hI hk
  constructor
  · have := (hm (y + -lo)).mpr (nLowSpace_mono ((hy y).mp le_rfl) (fun x hx => (nQuad_between (H := a.hamN) hd hx).1) le_rfl)
    linarith
  · exact (hy _).mpr (nLowSpace_mono ((hm _).mp le_rfl) (fun x hx => (nQuad_between (H := a.hamN) hd hx).2) le_rfl)

/-- The Hamiltonians with another interaction array and with other levels. -/
noncomputable def HamArgs.hamNU (a : HamArgs) (U : ℕ → ℕ → ℝ) : Matrix (Finset (Fin (a.n + a.n))) (Finset (Fin (a.n + a.n))) ℝ := (a.withU U).hamN

noncomputable def HamArgs.hamNH (a : HamArgs) (H : ℕ → ℕ → ℕ → ℝ) : Matrix (Finset (Fin (a.n + a.n))) (Finset (Fin (a.n + a.n))) ℝ := ({ a with H := H } : HamArgs).hamN

theorem nHam_withU (a : HamArgs) (U : ℕ → ℕ → ℝ) : a.hamNU U = kinetic (fun (_ : Bool) (i j : Fin a.n) => if i = j then a.H 1 i i + a.mu else 0) +
    (spinExchange (offdiag (n := a.n) (optMat a.V.Jx)) + pairHopping (offdiag (n := a.n) (optMat a.V.Jp))) + Matrix.diagonal (interE a U) := by
  unfold HamArgs.hamNU HamArgs.hamN hubbard
  rw [onsiteU_diagonal, interSite_diagonal]
  have : Matrix.diagonal (interE a U) = Matrix.diagonal (onsiteVal a.hf (fun i j : Fin a.n => U i j)) +
      Matrix.diagonal (interVal (fun i : Fin a.n => (a.z.getD (fun _ => if a.hf then 1 else 0)) i) (fun i j => U i j)) := by
    rw [Matrix.diagonal_add]; rfl
  rw [this]
  have key : ∀ K A B X : Matrix (Finset (Fin (a.n + a.n))) (Finset (Fin (a.n + a.n))) ℝ, K + A + B + X = K + X + (A + B) := fun K A B X => by abel
  exact key _ _ _ _

/-! ## C213 -/

/-- **C213** The `k`-th energy listed for `N` electrons is at most `E` exactly when there are `k + 1` independent vectors with `N` electrons that span a space of mean energies at most `E`. -/
theorem C213_minmax (ha : a.NValid) (hw : a.n + a.n ≤ w) (h : NBuildEspace w a none (.ok (es, egs))) (hI : (N, I) ∈ es) (hk : k < I.eigvals.length) (E : ℝ) :
    I.eigvals[k] ≤ E ↔ NLowSpace a.n N a.hamN (k + 1) E := nMinmax ha hw h hI hk E

/-- **C213** Raising elements of the interaction lowers no level, and raises each at most by the energy of the full configuration. -/
theorem C213_repulsion {U U' : ℕ → ℕ → ℝ} (ha : (a.withU U).NValid) (ha' : (a.withU U').NValid) (hw : a.n + a.n ≤ w) (hw' : a.n + a.n ≤ w') (hf : a.hf = false) (hz : a.z = none)
    (hU : ∀ i < a.n, ∀ j < a.n, U i j ≤ U' i j) (h : NBuildEspace w (a.withU U) none (.ok (es, egs))) (h' : NBuildEspace w' (a.withU U') none (.ok (es', egs'))) (hI : (N, I) ∈ es)
    (hJ : (N, J) ∈ es') (hk : k < I.eigvals.length) (hk' : k < J.eigvals.length) :
    I.eigvals[k] ≤ J.eigvals[k] ∧ J.eigvals[k] ≤ I.eigvals[k] + (∑ i : Fin a.n, (U' i i - U i i) + 1 / 2 * ∑ i : Fin a.n, ∑ j : Fin a.n, if i ≠ j then 4 * (U' i j - U i j) else 0) := by
  have hy : ∀ E, J.eigvals[k] ≤ E ↔ NLowSpace a.n N (a.hamNU U') (k + 1) E := nMinmax ha' hw' h' hJ hk'
  have hadd : a.hamNU U' = a.hamNU U + Matrix.diagonal (fun S => interE a U' S - interE a U S) := by
    rw [nHam_withU, nHam_withU, add_assoc _ (Matrix.diagonal (interE a U)), Matrix.diagonal_add]
    congr 2
    funext S
    ring
  rw [hadd] at hy
  have := nLevels_shift (a := a.withU U) ha hw h hI hk hy fun S _ => interE_bounds hf hz hU S
  exact ⟨by linarith [this.1], this.2⟩

/-- **C213** Moving every level that the run reads (those of spin down) by an amount between `lo` and `hi` moves every energy listed for `N` electrons by an amount between `N lo` and `N hi`. -/
theorem C213_levels {H : ℕ → ℕ → ℕ → ℝ} (ha : a.NValid) (hw : a.n + a.n ≤ w) (hw' : a.n + a.n ≤ w') {lo hi : ℝ}
    (hd : ∀ i, i < a.n → a.H 1 i i + lo ≤ H 1 i i ∧ H 1 i i ≤ a.H 1 i i + hi) (h : NBuildEspace w a none (.ok (es, egs))) (h' : NBuildEspace w' { a with H := H } none (.ok (es', egs')))
    (hI : (N, I) ∈ es) (hJ : (N, J) ∈ es') (hk : k < I.eigvals.length) (hk' : k < J.eigvals.length) : I.eigvals[k] + lo * N ≤ J.eigvals[k] ∧ J.eigvals[k] ≤ I.eigvals[k] + hi * N := by
  have hy : ∀ E, J.eigvals[k] ≤ E ↔ NLowSpace a.n N (a.hamNH H) (k + 1) E :=
    nMinmax (a := { a with H := H }) ⟨ha.le, ha.hU, ha.hJ, ha.symmX, ha.symmP⟩ hw' h' hJ hk'
  have hadd : a.hamNH H = a.hamN + Matrix.diagonal (fun S => ∑ s : Bool, ∑ i : Fin a.n, (H 1 i i - a.H 1 i i) * if orb s i ∈ S then 1 else 0) := by
    have e : kinetic (fun (_ : Bool) (i j : Fin a.n) => if i = j then H 1 i i + a.mu else 0) = kinetic (fun (_ : Bool) (i j : Fin a.n) => if i = j then a.H 1 i i + a.mu else 0) +
        Matrix.diagonal (fun S => ∑ s : Bool, ∑ i : Fin a.n, (H 1 i i - a.H 1 i i) * if orb s i ∈ S then 1 else 0) := by
      rw [← diagonal_sum]
      simp only [← diagonal_sum]
      rw [kinetic_diag fun _ i => H 1 i i + a.mu, kinetic_diag fun _ i => a.H 1 i i + a.mu, ← Finset.sum_add_distrib]
      refine Finset.sum_congr rfl fun s _ => ?_
      rw [← Finset.sum_add_distrib]
      refine Finset.sum_congr rfl fun i _ => ?_
      rw [num_diagonal, ← Matrix.diagonal_smul, ← Matrix.diagonal_smul, Matrix.diagonal_add]
      congr 1
      funext S
      simp only [Pi.smul_apply, smul_eq_mul]
      ring
    unfold HamArgs.hamNH HamArgs.hamN hubbard
    simp only
    rw [e]
    abel
  rw [hadd] at hy
  refine nLevels_shift ha hw h hI hk hy fun S hS => ?_
  have hc : ∑ s : Bool, ∑ i : Fin a.n, (if orb s i ∈ S then 1 else 0 : ℝ) = N := by
    have h1 := card_spinCount S
    rw [spinCount_eq, spinCount_eq] at h1
    rw [Fintype.sum_bool, Finset.sum_boole, Finset.sum_boole, ← hS, add_comm]
    exact_mod_cast h1.symm
  have b : ∀ s (i : Fin a.n), (0 : ℝ) ≤ (if orb s i ∈ S then 1 else 0) := fun s i => by split_ifs <;> norm_num
  rw [← hc, Finset.mul_sum, Finset.mul_sum]
  simp only [Finset.mul_sum]
  exact ⟨Finset.sum_le_sum fun s _ => Finset.sum_le_sum fun i _ => mul_le_mul_of_nonneg_right (by linarith [(hd i i.2).1]) (b _ _),
    Finset.sum_le_sum fun s _ => Finset.sum_le_sum fun i _ => mul_le_mul_of_nonneg_right (by linarith [(hd i i.2).2]) (b _ _)⟩

/-- **C213** A run that asks for some of the energies lists the first of those that a full run lists, sector by sector, so all of the above holds for it too. -/
theorem C213_truncated (ha : a.NValid) (hw : a.n + a.n ≤ w) {neig : List ℕ} (h : NBuildEspace w a (some neig) (.ok (es, egs))) (h' : NBuildEspace w a none (.ok (es', egs')))
    (hI : (N, I) ∈ es) (hJ : (N, J) ∈ es') : I.eigvals = J.eigvals.take (neig[N]?.getD 0) := by
  obtain ⟨-, h1, -⟩ := C168_sectors ha hw neig es egs h
  obtain ⟨-, -, ⟨D, w1, v1, f1, f2, f3, -⟩, -⟩ := h1 _ hI
  obtain ⟨hN, rfl, hlen, -⟩ := nSct_of_mem ha hw h' hJ
  obtain ⟨D', -, -, -, -, g1, g2⟩ := (nEspace_at ha hw h').2 N hN
  have e2 : D.size = D'.size := by rw [f1.size, g1.size]
  have e3 : ∀ r c, r < D.size → c < D.size → D.val r c = D'.val r c := fun r c hr hc => by
    rw [f1.size] at hr hc
    rw [f1.val r c hr hc, g1.val r c hr hc]
  have e4 := f2.unique g2 e2 e3
  rw [← e4]
  exact f3

/-- The hypotheses are met: two sites with pair hopping, with and without repulsion and with shifted levels, two electrons (six energies). -/
example (U : ℕ → ℕ → ℝ) (H : ℕ → ℕ → ℕ → ℝ) : (pairArgs.withU U).NValid ∧ (∃ es egs I, NBuildEspace 64 (pairArgs.withU U) none (.ok (es, egs)) ∧ (2, I) ∈ es ∧ I.eigvals.length = 6) ∧
    ∃ es egs I, NBuildEspace 64 { pairArgs with H := H } none (.ok (es, egs)) ∧ (2, I) ∈ es ∧ I.eigvals.length = 6 := by
  have key : ∀ a : HamArgs, a.NValid → a.n = 2 → ∃ es egs I, NBuildEspace 64 a none (.ok (es, egs)) ∧ (2, I) ∈ es ∧ I.eigvals.length = 6 := by
    intro a ha hn
    obtain ⟨-, ⟨es, egs⟩, h⟩ := C168_default_runs ha (w := 64) (by omega)
    obtain ⟨D, hm, -⟩ := (nEspace_at ha (by omega) h).2 2 (by omega)
    refine ⟨es, egs, _, h, hm, ?_⟩
    rw [(nSct_of_mem ha (by omega) h hm).2.2.1, hn]
    rfl
  have hp := pairArgs_nvalid
  have h1 : (pairArgs.withU U).NValid := ⟨hp.le, rfl, hp.hJ, hp.symmX, hp.symmP⟩
  exact ⟨h1, key _ h1 rfl, key _ ⟨hp.le, hp.hU, hp.hJ, hp.symmX, hp.symmP⟩ rfl⟩

end Edpyt
