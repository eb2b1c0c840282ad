import Verif.Proof.PairBind
import Verif.Props.LiebSpin
/-!
C204: attraction binds electrons into pairs; the ground state of a repulsive lattice is half filled.
-/
namespace Edpyt
open Spec Matrix Lieb PairBind

section
variable {n p q : ℕ}

/-- The vector with given amplitudes, with different numbers of up and down electrons. -/
noncomputable def rectVec (X : Matrix (Conf n p) (Conf n q) ℝ) (S : Finset (Fin (n + n))) : ℝ :=
  if h : (upPart S).card = p ∧ (dwPart S).card = q then X ⟨upPart S, h.1⟩ ⟨dwPart S, h.2⟩ else 0

/-- The amplitudes of a vector. -/
def rectMat (p q : ℕ) (x : Finset (Fin (n + n)) → ℝ) : Matrix (Conf n p) (Conf n q) ℝ := Matrix.of fun A B => x (join A.1 B.1)

theorem rectVec_join (X : Matrix (Conf n p) (Conf n q) ℝ) (A : Conf n p) (B : Conf n q) : rectVec X (join A.1 B.1) = X A B := by
  unfold rectVec
  rw [dif_pos ⟨by rw [upPart_join]; exact A.2, by rw [dwPart_join]; exact B.2⟩]
  congr 1
  · exact Subtype.ext (upPart_join _ _)
  · exact Subtype.ext (dwPart_join _ _)

theorem rectVec_sector (X : Matrix (Conf n p) (Conf n q) ℝ) : SectorVec n p q (rectVec X) := fun S hS => by
  rw [spinCount_parts]
  by_contra hn
  exact hS (dif_neg hn)

theorem rectVec_rectMat {x : Finset (Fin (n + n)) → ℝ} (hx : SectorVec n p q x) : rectVec (rectMat p q x) = x := by
  funext S
  unfold rectVec rectMat
  split_ifs with h
  · rw [Matrix.of_apply, join_parts]
  · by_contra hn
    exact h ((spinCount_parts S p q).mp (hx S (Ne.symm hn)))

theorem rect_sum {f : Finset (Fin (n + n)) → ℝ} (hf : SectorVec n p q f) : ∑ S, f S = ∑ A : Conf n p, ∑ B : Conf n q, f (join A.1 B.1) := by
  have hf' : ∀ A B, f (join A B) ≠ 0 → A.card = p ∧ B.card = q := fun A B h => by
    have := (spinCount_parts _ p q).mp (hf _ h)
    rwa [upPart_join, dwPart_join] at this
  rw [← (split2 n).symm.sum_comp f, Fintype.sum_prod_type]
  show ∑ A, ∑ B, f (join A B) = _
  rw [pair_sum_conf (m := p) (f := fun A => ∑ B, f (join A B)) fun A hA => by
    obtain ⟨B, -, hB⟩ := Finset.exists_ne_zero_of_sum_ne_zero hA
    exact (hf' A B hB).1]
  exact Finset.sum_congr rfl fun A _ => pair_sum_conf fun B hB => (hf' _ _ hB).2
end

variable {a : HamArgs} {w p q : ℕ} {es : Espace (ℕ × ℕ)} {egs : WithTop ℝ} {I J K : Sct}

/-- Shifted occupation of a site. -/
noncomputable def confOcc (a : HamArgs) (p : ℕ) (x : Fin a.n) (A : Conf a.n p) : ℝ := (if x ∈ A.1 then 1 else 0) - pairShift a

theorem oneHop_symm (ha : a.Valid) (ho : a.OnsiteOnly) (hs : a.SpinFree) (B B' : Finset (Fin a.n)) :
    oneHop (kept (n := a.n) a.mu (a.H 0)) B B' = oneHop (kept (n := a.n) a.mu (a.H 0)) B' B := by
  have h1 := ham_pair_join ho hs B B B' B
  have h2 := ham_pair_join ho hs B' B B B
  have h3 : a.ham (join B B) (join B' B) = a.ham (join B' B) (join B B) := congrFun (congrFun (ham_symm ha) (join B' B)) (join B B)
  by_cases hB : B = B'
  · rw [hB]
  rw [h1, h2] at h3
  simpa [hB, Ne.symm hB, eq_comm] using h3

theorem rect_energy (ha : a.Valid) (ho : a.OnsiteOnly) (hs : a.SpinFree) (X : Matrix (Conf a.n p) (Conf a.n q) ℝ) :
    rectVec X ⬝ᵥ a.ham *ᵥ rectVec X = energy (hopR (kept (n := a.n) a.mu (a.H 0)) p) (hopR (kept (n := a.n) a.mu (a.H 0)) q) (confOcc a p) (confOcc a q) (fun i => a.V.U.getD 0 i i) X := by
  unfold dotProduct
  rw [rect_sum (p := p) (q := q) fun S hS => rectVec_sector X S (left_ne_zero_of_mul hS)]
  unfold energy
  refine Finset.sum_congr rfl fun A _ => Finset.sum_congr rfl fun B _ => ?_
  rw [rectVec_join]
  congr 1
  change ∑ S, a.ham (join A.1 B.1) S * rectVec X S = _
  rw [rect_sum (p := p) (q := q) fun S hS => rectVec_sector X S (right_ne_zero_of_mul hS)]
  simp only [rectVec_join, ham_pair_join ho hs, add_mul, Finset.sum_add_distrib]
  congr 1
  · congr 1
    · rw [Matrix.mul_apply]
      refine Finset.sum_congr rfl fun A' _ => ?_
      rw [Finset.sum_eq_single B (fun B' _ hne => by rw [if_neg fun hh => hne (Subtype.ext hh.symm)]; ring) fun hh => absurd (Finset.mem_univ _) hh, if_pos rfl, mul_one]
      rfl
    · rw [Matrix.mul_apply, Finset.sum_eq_single A (fun A' _ hne => Finset.sum_eq_zero fun B' _ => by rw [if_neg fun hh => hne (Subtype.ext hh.symm)]; ring)
        fun hh => absurd (Finset.mem_univ _) hh]
      refine Finset.sum_congr rfl fun B' _ => ?_
      rw [if_pos rfl, one_mul, oneHop_symm ha ho hs, mul_comm]
      rfl
  · rw [Finset.sum_eq_single A (fun A' _ hne => Finset.sum_eq_zero fun B' _ => by rw [if_neg fun hh => hne (Subtype.ext hh.1.symm), zero_mul]) fun hh => absurd (Finset.mem_univ _) hh,
      Finset.sum_eq_single B (fun B' _ hne => by rw [if_neg fun hh => hne (Subtype.ext hh.2.symm), zero_mul]) fun hh => absurd (Finset.mem_univ _) hh, if_pos ⟨rfl, rfl⟩,
      Finset.sum_mul]
    refine Finset.sum_congr rfl fun i _ => ?_
    unfold confOcc
    ring

theorem rect_norm (X : Matrix (Conf a.n p) (Conf a.n q) ℝ) : rectVec X ⬝ᵥ rectVec X = norm2 X := by
  unfold dotProduct
  rw [rect_sum (p := p) (q := q) fun S hS => rectVec_sector X S (left_ne_zero_of_mul hS)]
  simp only [rectVec_join]
  rfl

theorem rect_min (ha : a.Valid) (hw : a.n ≤ w) (ho : a.OnsiteOnly) (hs : a.SpinFree) (h : BuildEspace w a none (.ok (es, egs))) (hI : ((p, q), I) ∈ es) (h0 : 0 < I.eigvals.length)
    (X : Matrix (Conf a.n p) (Conf a.n q) ℝ) : I.eigvals[0] * norm2 X ≤
      energy (hopR (kept (n := a.n) a.mu (a.H 0)) p) (hopR (kept (n := a.n) a.mu (a.H 0)) q) (confOcc a p) (confOcc a q) (fun i => a.V.U.getD 0 i i) X := by
  rw [← rect_energy ha ho hs, ← rect_norm]
  exact pair_sector_min ha hw h hI h0 (rectVec_sector X)

/-- **C204** Attraction binds electrons into pairs: twice the lowest energy of `p` up and `q` down electrons is at least the lowest energy of `p` pairs plus that of `q` pairs. -/
theorem C204_binding (ha : a.Valid) (hw : a.n ≤ w) (ho : a.OnsiteOnly) (hs : a.SpinFree) (hat : ∀ i < a.n, a.V.U.getD 0 i i ≤ 0) (h : BuildEspace w a none (.ok (es, egs)))
    (hI : ((p, q), I) ∈ es) (hJ : ((p, p), J) ∈ es) (hK : ((q, q), K) ∈ es) (hI0 : 0 < I.eigvals.length) (hJ0 : 0 < J.eigvals.length) (hK0 : 0 < K.eigvals.length) :
    J.eigvals[0] + K.eigvals[0] ≤ (2 : ℝ) * I.eigvals[0] := by
  have hsym : ∀ m, (hopR (kept (n := a.n) a.mu (a.H 0)) m)ᵀ = hopR (kept (n := a.n) a.mu (a.H 0)) m := fun m => by
    ext A B
    exact oneHop_symm ha ho hs B.1 A.1
  obtain ⟨_, x, hx0, hxs, hxe⟩ := lowest_vec ha hw h hI
  have hxm := rectVec_rectMat hxs
  refine mean_bound (X := rectMat p q x) (hsym p) (hsym q) (fun i : Fin a.n => hat i i.2) (rect_min ha hw ho hs h hJ hJ0) (rect_min ha hw ho hs h hK hK0) (rect_min ha hw ho hs h hI hI0) (fun hz => ?_) ?_
  · apply hx0
    rw [← hxm, hz]
    funext S
    unfold rectVec
    split_ifs <;> rfl
  · rw [← rect_energy ha ho hs, ← rect_norm, hxm, hxe, dotProduct_smul, smul_eq_mul]

/-- **C204** The reported ground-state energy of a cluster with attraction is that of a sector in which all electrons are paired. -/
theorem C204_ground_paired (ha : a.Valid) (hw : a.n ≤ w) (ho : a.OnsiteOnly) (hs : a.SpinFree) (hat : ∀ i < a.n, a.V.U.getD 0 i i ≤ 0) (h : BuildEspace w a none (.ok (es, egs))) :
    ∃ m I, ((m, m), I) ∈ es ∧ ∃ E ∈ I.eigvals, egs = (E : ℝ) := by
  obtain ⟨E, hE, ⟨⟨⟨p, q⟩, I⟩, hI, hmem⟩, hle⟩ := buildEspace_least ha hw h
  have hes := buildEspace_eigen ha hw h
  obtain ⟨-, hp, hq⟩ := sctAt_of_mem hes hI
  obtain ⟨-, -, hJ, -, -, -, -, hl⟩ := hes.toCompleteEspace.at hp hp
  have hJ0 : 0 < (sctAt es (p, p)).eigvals.length := by rw [hl]; exact Nat.mul_pos (Nat.choose_pos hp) (Nat.choose_pos hp)
  obtain ⟨-, -, hK, -, -, -, -, hl'⟩ := hes.toCompleteEspace.at hq hq
  have hK0 : 0 < (sctAt es (q, q)).eigvals.length := by rw [hl']; exact Nat.mul_pos (Nat.choose_pos hq) (Nat.choose_pos hq)
  have hI0 := List.length_pos_of_mem hmem
  have h1 := C204_binding ha hw ho hs hat h hI hJ hK hI0 hJ0 hK0
  have h2 : I.eigvals[0] ≤ E := by
    obtain ⟨j, hj, rfl⟩ := List.getElem_of_mem hmem
    rcases Nat.eq_zero_or_pos j with rfl | hj0
    · exact le_rfl
    · exact List.pairwise_iff_getElem.mp (buildEspace_sorted ha hw h hI) 0 j hI0 hj hj0
  have h3 : E ≤ (sctAt es (p, p)).eigvals[0] := hle ⟨_, hJ, List.getElem_mem hJ0⟩
  have h4 : E ≤ (sctAt es (q, q)).eigvals[0] := hle ⟨_, hK, List.getElem_mem hK0⟩
  exact ⟨p, _, hJ, _, List.getElem_mem hJ0, by rw [hE, WithTop.coe_inj]; linarith⟩

/-- **C204** The reported ground-state energy of a lattice with repulsion whose sites split into two sublattices, in the half-filled form with zero levels, is that of a sector with one electron
per site. -/
theorem C204_ground_half {η : ℕ → ℤ} (ha : a.Valid) (hw : a.n ≤ w) (ho : a.OnsiteOnly) (hs : a.SpinFree) (hre : ∀ i < a.n, 0 ≤ a.V.U.getD 0 i i) (hhf : a.hf = true)
    (hη : ∀ i < a.n, η i = 1 ∨ η i = -1) (hl : ∀ i < a.n, a.H 1 i i + a.mu = 0) (hb : ∀ i j, i < a.n → j < a.n → i ≠ j → η i = η j → a.H 1 i j = 0)
    (h : BuildEspace w a none (.ok (es, egs))) : ∃ p q I, p + q = a.n ∧ ((p, q), I) ∈ es ∧ ∃ E ∈ I.eigvals, egs = (E : ℝ) := by
  have hv : (attractiveTwin a).Valid := ⟨ha.two_le, ha.le, rfl, ha.symmH, by simp [attractiveTwin, withModel, VArg.array], by simp [attractiveTwin, withModel, VArg.array], fun _ => rfl⟩
  have ho' : (attractiveTwin a).OnsiteOnly := ⟨fun i j hi hj hij => by
    show -(a.V.U.getD 0 i j) = 0
    rw [ho.U i j hi hj hij, neg_zero], rfl, rfl⟩
  obtain ⟨⟨es', E'⟩, h'⟩ := (buildEspace_none_ok (w := w) hv hw).1
  have hes := buildEspace_eigen ha hw h
  have hes' := buildEspace_eigen hv hw h'
  obtain ⟨m, J, hJ, F, hF, hEF⟩ := C204_ground_paired hv hw ho' hs (fun i hi => by
    show -(a.V.U.getD 0 i i) ≤ 0
    linarith [hre i hi]) h'
  obtain ⟨-, hm, -⟩ := sctAt_of_mem hes' hJ
  have hm' : m ≤ a.n := hm
  obtain ⟨-, -, hI, -, -, -, -, -⟩ := hes.toCompleteEspace.at (u := m) (d := a.n - m) hm' (by omega)
  have lev : ∀ {p q : ℕ} {I J : Sct}, q ≤ a.n → ((p, q), I) ∈ es → ((p, a.n - q), J) ∈ es' → I.eigvals = J.eigvals := fun _ hI hJ =>
    C196_bipartite_levels ha hw hw hhf hη ho.Jx ho.Jp ho.U hl hb h h' hI hJ
  have e1 := lev (by omega) hI (by rw [show a.n - (a.n - m) = m by omega]; exact hJ)
  refine ⟨m, a.n - m, _, by omega, hI, F, by rw [e1]; exact hF, ?_⟩
  obtain ⟨E, hE, ⟨⟨⟨p, q⟩, I'⟩, hI', hmem⟩, hle⟩ := buildEspace_least ha hw h
  obtain ⟨E'', hE'', -, hle'⟩ := buildEspace_least hv hw h'
  have hFE : E'' = F := by rw [hE''] at hEF; exact_mod_cast hEF
  obtain ⟨-, hp, hq⟩ := sctAt_of_mem hes hI'
  obtain ⟨-, -, hJ', -, -, -, -, -⟩ := hes'.toCompleteEspace.at (u := p) (d := a.n - q) hp (Nat.sub_le _ _)
  have e2 := lev hq hI' hJ'
  have h1 : E ≤ F := hle ⟨_, hI, by rw [e1]; exact hF⟩
  have h2 : F ≤ E := by
    rw [← hFE]
    exact hle' ⟨_, hJ', by rw [← e2]; exact hmem⟩
  rw [hE, le_antisymm h1 h2]

/-- **C204** With repulsion on every site of a connected lattice, the reported ground-state energy is the lowest level of every half-filled sector whose polarisation does not exceed the
difference of the sublattices. -/
theorem C204_ground_state {η : ℕ → ℤ} (ht : TwoSublattice a η) (hw : a.n ≤ w) (h : BuildEspace w a none (.ok (es, egs))) (hpq : p + q = a.n) (hI : ((p, q), I) ∈ es) (hI0 : 0 < I.eigvals.length)
    (hd : |(p : ℤ) - q| ≤ |∑ i ∈ Finset.range a.n, η i|) : egs = (I.eigvals[0] : ℝ) := by
  obtain ⟨p', q', J, hpq', hJ, E, hE, he⟩ := C204_ground_half ht.valid hw ht.local_ ht.free (fun i hi => (ht.rep i hi).le) ht.hf ht.sign ht.level ht.bip h
  obtain ⟨E', hE', -, hle⟩ := buildEspace_least ht.valid hw h
  have hEE : E' = E := by rw [hE'] at he; exact_mod_cast he
  have h1 : E ≤ I.eigvals[0] := by rw [← hEE]; exact hle ⟨_, hI, List.getElem_mem hI0⟩
  have hJ0 := List.length_pos_of_mem hE
  have h2 : I.eigvals[0] ≤ E := by
    by_cases hd' : |(p' : ℤ) - q'| ≤ |∑ i ∈ Finset.range a.n, η i|
    · rw [C203_multiplet ht hw h hpq hpq' hI hJ hI0 hJ0 hd hd']
      obtain ⟨j, hj, rfl⟩ := List.getElem_of_mem hE
      rcases Nat.eq_zero_or_pos j with rfl | hj0
      · exact le_rfl
      · exact List.pairwise_iff_getElem.mp (buildEspace_sorted ht.valid hw h hJ) 0 j hJ0 hj hj0
    · exact (C203_above ht hw h hpq hpq' hI hJ hI0 hd (not_le.mp hd') hE).le
  rw [he, le_antisymm h1 h2]

/-- Non-vacuity: pairs on the attractive triangle, and the ground state of the star. -/
example : ∃ es egs I J K, BuildEspace 64 boundTriangle none (.ok (es, egs)) ∧ ((2, 1), I) ∈ es ∧ ((2, 2), J) ∈ es ∧ ((1, 1), K) ∈ es ∧
    ∃ (hI : 0 < I.eigvals.length) (hJ : 0 < J.eigvals.length) (hK : 0 < K.eigvals.length), J.eigvals[0] + K.eigvals[0] ≤ (2 : ℝ) * I.eigvals[0] := by
  have hw : boundTriangle.n ≤ 64 := by simp [boundTriangle]
  have ho : boundTriangle.OnsiteOnly := ⟨fun i j _ _ hij => by simp [boundTriangle, VArg.array, hij], rfl, rfl⟩
  obtain ⟨⟨⟨es, egs⟩, h⟩, -⟩ := buildEspace_none_ok boundTriangle_valid hw
  have hes := buildEspace_eigen boundTriangle_valid hw h
  obtain ⟨-, -, hI, -, -, -, -, hl⟩ := hes.toCompleteEspace.at (u := 2) (d := 1) (by simp [boundTriangle]) (by simp [boundTriangle])
  obtain ⟨-, -, hJ, -, -, -, -, hl'⟩ := hes.toCompleteEspace.at (u := 2) (d := 2) (by simp [boundTriangle]) (by simp [boundTriangle])
  obtain ⟨-, -, hK, -, -, -, -, hl''⟩ := hes.toCompleteEspace.at (u := 1) (d := 1) (by simp [boundTriangle]) (by simp [boundTriangle])
  have e1 : 0 < (sctAt es (2, 1)).eigvals.length := by rw [hl]; simp [boundTriangle, Nat.choose]
  have e2 : 0 < (sctAt es (2, 2)).eigvals.length := by rw [hl']; simp [boundTriangle, Nat.choose]
  have e3 : 0 < (sctAt es (1, 1)).eigvals.length := by rw [hl'']; simp [boundTriangle, Nat.choose]
  exact ⟨es, egs, _, _, _, h, hI, hJ, hK, e1, e2, e3, C204_binding boundTriangle_valid hw ho (fun _ _ _ _ => rfl) (fun i _ => by
    show (if i = i then -((i : ℝ) + 1) else 0) ≤ 0
    rw [if_pos rfl]; have : (0 : ℝ) ≤ i := Nat.cast_nonneg i; linarith) h hI hJ hK e1 e2 e3⟩

example : ∃ es egs I, BuildEspace 64 starArgs none (.ok (es, egs)) ∧ ((2, 2), I) ∈ es ∧ ∃ h0 : 0 < I.eigvals.length, egs = (I.eigvals[0] : ℝ) := by
  have hw : starArgs.n ≤ 64 := by simp [starArgs]
  obtain ⟨⟨⟨es, egs⟩, h⟩, -⟩ := buildEspace_none_ok starArgs_half.valid hw
  have hes := buildEspace_eigen starArgs_half.valid hw h
  obtain ⟨-, -, hI, -, -, -, -, hl⟩ := hes.toCompleteEspace.at (u := 2) (d := 2) (by simp [starArgs]) (by simp [starArgs])
  have e1 : 0 < (sctAt es (2, 2)).eigvals.length := by rw [hl]; simp [starArgs, Nat.choose]
  exact ⟨es, egs, _, h, hI, e1, C204_ground_state starArgs_half hw h rfl hI e1 (by simp)⟩

end Edpyt
