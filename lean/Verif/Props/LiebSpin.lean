import Verif.Proof.PairTurn
import Verif.Props.Lieb
import Verif.Props.GreenStable
/-!
C203: the spin of the half-filled ground state (Lieb).
-/
namespace Edpyt
open Spec Matrix Lieb

section
variable {n : ℕ} {η : Fin n → ℤ}

theorem pairOut_counts (hη : ∀ i, η i * η i = 1) {T S : Finset (Fin (n + n))} (h : pairOut η T S ≠ 0) : spinCount false T + 1 = spinCount false S ∧ spinCount true T + 1 = spinCount true S := by
  unfold pairOut shibaConj at h
  rw [Matrix.mul_apply] at h
  obtain ⟨V, -, hV⟩ := Finset.exists_ne_zero_of_sum_ne_zero h
  have h1 := left_ne_zero_of_mul hV
  have h2 : shiba η S V ≠ 0 := right_ne_zero_of_mul hV
  rw [Matrix.mul_apply] at h1
  obtain ⟨U, -, hU⟩ := Finset.exists_ne_zero_of_sum_ne_zero h1
  obtain ⟨a1, a2⟩ := shiba_counts hη (left_ne_zero_of_mul hU)
  obtain ⟨b1, b2⟩ := shiba_counts hη h2
  have g := grade_spinTurn (n := n) false U V (right_ne_zero_of_mul hU)
  have g1 := g false
  have g2 := g true
  simp only [if_true, Bool.true_eq_false, if_false] at g1 g2
  constructor <;> omega

theorem pairOut_sector (hη : ∀ i, η i * η i = 1) {u : ℕ} {x : Finset (Fin (n + n)) → ℝ} (hx : SectorVec n (u + 1) (u + 1) x) : SectorVec n u u (pairOut η *ᵥ x) := fun T hT => by
  obtain ⟨S, -, hS⟩ := Finset.exists_ne_zero_of_sum_ne_zero (show ∑ S, pairOut η T S * x S ≠ 0 from hT)
  obtain ⟨h1, h2⟩ := pairOut_counts hη (left_ne_zero_of_mul hS)
  obtain ⟨h3, h4⟩ := hx S (right_ne_zero_of_mul hS)
  push_cast at h3 h4
  constructor <;> omega

theorem pairIn_sector (hη : ∀ i, η i * η i = 1) {u : ℕ} {x : Finset (Fin (n + n)) → ℝ} (hx : SectorVec n u u x) : SectorVec n (u + 1) (u + 1) ((pairOut η)ᵀ *ᵥ x) := fun T hT => by
  obtain ⟨S, -, hS⟩ := Finset.exists_ne_zero_of_sum_ne_zero (show ∑ S, pairOut η S T * x S ≠ 0 from hT)
  obtain ⟨h1, h2⟩ := pairOut_counts hη (left_ne_zero_of_mul hS)
  obtain ⟨h3, h4⟩ := hx S (right_ne_zero_of_mul hS)
  push_cast
  constructor <;> omega

/-- Destroying a pair is injective when more than half of the sites hold one. -/
theorem pairOut_inj (hη : ∀ i, η i * η i = 1) {u : ℕ} (hu : n < 2 * u) {x : Finset (Fin (n + n)) → ℝ} (hx : SectorVec n u u x) (h0 : pairOut η *ᵥ x = 0) : x = 0 := by
  have h1 : spinTurn false *ᵥ ((shiba η)ᵀ *ᵥ x) = 0 := by
    have : (shiba η)ᵀ *ᵥ (pairOut η *ᵥ x) = 0 := by rw [h0, Matrix.mulVec_zero]
    rw [pairOut, shibaConj, Matrix.mulVec_mulVec, Matrix.mul_assoc, ← Matrix.mul_assoc, shiba_orth hη, Matrix.one_mul, ← Matrix.mulVec_mulVec] at this
    exact this
  have hc : ∀ S, ((shiba η)ᵀ *ᵥ x) S ≠ 0 → spinCount false S = u ∧ spinCount true S = (n : ℤ) - u := fun S hS => by
    obtain ⟨T, -, hT⟩ := Finset.exists_ne_zero_of_sum_ne_zero (show ∑ T, shiba η T S * x T ≠ 0 from hS)
    obtain ⟨h2, h3⟩ := shiba_counts hη (left_ne_zero_of_mul hT)
    obtain ⟨h4, h5⟩ := hx T (right_ne_zero_of_mul hT)
    constructor <;> omega
  have h2 := spinTurn_inj false (fun S hS => (hc S hS).1) (fun S hS => (hc S hS).2) (by omega) h1
  have : shiba η *ᵥ ((shiba η)ᵀ *ᵥ x) = 0 := by rw [h2, Matrix.mulVec_zero]
  rwa [Matrix.mulVec_mulVec, shiba_orth' hη, Matrix.one_mulVec] at this

/-- A sector vector with amplitudes of one sign on the paired states overlaps the reference state. -/
theorem refOverlap_ne {u : ℕ} (hu : u ≤ n) {x : Finset (Fin (n + n)) → ℝ} (h : (∀ A : Finset (Fin n), A.card = u → 0 < x (join A A)) ∨ ∀ A : Finset (Fin n), A.card = u → x (join A A) < 0) :
    refOverlap η u x ≠ 0 := by
  have hne : (Finset.powersetCard u (Finset.univ : Finset (Fin n))).Nonempty := Finset.powersetCard_nonempty.mpr (by simpa using hu)
  have hp : ∀ T : Finset (Fin n), (0 : ℝ) < refAmp η T := fun T => by exact_mod_cast refAmp_pos T
  rcases h with h | h
  · exact (Finset.sum_pos (fun T hT => mul_pos (hp T) (h T (Finset.mem_powersetCard_univ.mp hT))) hne).ne'
  · exact (Finset.sum_neg (fun T hT => mul_neg_of_pos_of_neg (hp T) (h T (Finset.mem_powersetCard_univ.mp hT))) hne).ne
end

section
variable {b : HamArgs} {η : Fin b.n → ℤ} {w u p q : ℕ} {es : Espace (ℕ × ℕ)} {egs : WithTop ℝ} {I J : Sct}

/-- The vector stored for the lowest level of a sector. -/
theorem lowest_vec (hb : b.Valid) (hw : b.n ≤ w) (h : BuildEspace w b none (.ok (es, egs))) (hI : ((p, q), I) ∈ es) :
    ∃ h0 : 0 < I.eigvals.length, ∃ x : Finset (Fin (b.n + b.n)) → ℝ, x ≠ 0 ∧ SectorVec b.n p q x ∧ b.ham *ᵥ x = I.eigvals[0] • x := by
  have hes := buildEspace_eigen hb hw h
  obtain ⟨e, hp, hq⟩ := sctAt_of_mem hes hI
  obtain ⟨up, dw, -, -, -, -, -, hlen⟩ := hes.toCompleteEspace.at hp hq
  have hpos : 0 < b.n.choose p * b.n.choose q := Nat.mul_pos (Nat.choose_pos hp) (Nat.choose_pos hq)
  rw [e] at hlen
  have hk : 0 < I.eigvals.length := by rw [hlen]; exact hpos
  have hket : esKet b.n es (lvIdx hp hq ⟨0, hpos⟩) = I.ket b.n 0 := by unfold esKet lvIdx; simp only [e]
  have heig := hes.eig _ hI 0 hk
  rw [List.getElem?_eq_getElem hk, Option.getD_some] at heig
  refine ⟨hk, I.ket b.n 0, fun h1 => ?_, fun T hT => ?_, heig⟩
  · have := hes.basis.orth (lvIdx hp hq ⟨0, hpos⟩) (lvIdx hp hq ⟨0, hpos⟩)
    rw [hket, h1, if_pos rfl] at this
    simp at this
  · rw [← hket] at hT
    exact hes.support _ hT

theorem eigen_transfer {A B : Matrix (Finset (Fin (b.n + b.n))) (Finset (Fin (b.n + b.n))) ℝ} {x : Finset (Fin (b.n + b.n)) → ℝ} {E : ℝ} (hc : Commute A B) (h : A *ᵥ x = E • x) :
    A *ᵥ (B *ᵥ x) = E • (B *ᵥ x) := by
  rw [Matrix.mulVec_mulVec, hc.eq, ← Matrix.mulVec_mulVec, h, Matrix.mulVec_smul]

/-- Adding a pair costs nothing below the size of the larger sublattice. -/
theorem lieb_step (hb : b.Valid) (hw : b.n ≤ w) (ho : b.OnsiteOnly) (hs : b.SpinFree) (hc : Connected b false) (hat : Attractive b) (hη : ∀ i, η i * η i = 1)
    (hcomm : Commute b.ham (pairOut η)ᵀ) (h : BuildEspace w b none (.ok (es, egs))) (hu : u < cardA η) (hu' : b.n ≤ u + cardA η)
    (hI : ((u, u), I) ∈ es) (hJ : ((u + 1, u + 1), J) ∈ es) (hI0 : 0 < I.eigvals.length) (hJ0 : 0 < J.eigvals.length) : J.eigvals[0] ≤ I.eigvals[0] := by
  obtain ⟨_, x, hx0, hxs, hxe⟩ := lowest_vec hb hw h hI
  have hun : u ≤ b.n := (sctAt_of_mem (buildEspace_eigen hb hw h) hI).2.1
  have hov : refOverlap η u x ≠ 0 := refOverlap_ne hun ((lieb_sign hb hw ho hs hc hat h hI hI0 hxs (by rw [hxe, dotProduct_smul, smul_eq_mul])).resolve_left hx0)
  have hye := eigen_transfer hcomm hxe
  have hov' : refOverlap η (u + 1) ((pairOut η)ᵀ *ᵥ x) ≠ 0 := by
    rw [refOverlap_in hη hu]
    have : (b.n : ℝ) ≤ u + cardA η := by exact_mod_cast hu'
    exact mul_ne_zero (mul_ne_zero (pow_ne_zero _ (by norm_num)) (by intro hh; linarith)) hov
  have hy0 : (pairOut η)ᵀ *ᵥ x ≠ 0 := fun hz => hov' (by rw [hz]; unfold refOverlap; simp)
  have hmin := pair_sector_min hb hw h hJ hJ0 (pairIn_sector hη hxs)
  rw [hye, dotProduct_smul, smul_eq_mul] at hmin
  exact le_of_mul_le_mul_right hmin (lt_of_le_of_ne (Finset.sum_nonneg fun S _ => mul_self_nonneg _) fun hh => hy0 (dotProduct_self_eq_zero.mp hh.symm))

/-- A pair beyond the size of the larger sublattice costs energy. -/
theorem lieb_edge (hb : b.Valid) (hw : b.n ≤ w) (ho : b.OnsiteOnly) (hs : b.SpinFree) (hc : Connected b false) (hat : Attractive b) (hη : ∀ i, η i * η i = 1)
    (hcomm : Commute b.ham (pairOut η)) (h : BuildEspace w b none (.ok (es, egs))) (hn : b.n ≤ 2 * cardA η)
    (hI : ((cardA η, cardA η), I) ∈ es) (hJ : ((cardA η + 1, cardA η + 1), J) ∈ es) (hI0 : 0 < I.eigvals.length) (hJ0 : 0 < J.eigvals.length) : I.eigvals[0] < J.eigvals[0] := by
  by_contra hcon
  obtain ⟨_, x, hx0, hxs, hxe⟩ := lowest_vec hb hw h hJ
  have hun : cardA η ≤ b.n := (sctAt_of_mem (buildEspace_eigen hb hw h) hI).2.1
  have hye := eigen_transfer hcomm hxe
  have hys := pairOut_sector hη hxs
  rcases lieb_sign hb hw ho hs hc hat h hI hI0 hys (by
    rw [hye, dotProduct_smul, smul_eq_mul]
    exact mul_le_mul_of_nonneg_right (not_lt.mp hcon) (Finset.sum_nonneg fun S _ => mul_self_nonneg _)) with h1 | h1
  · exact hx0 (pairOut_inj hη (by omega) hxs h1)
  · exact refOverlap_ne hun h1 (refOverlap_out hη hn x)
end

variable {a : HamArgs} {η : ℕ → ℤ} {w p q p' q' : ℕ} {es : Espace (ℕ × ℕ)} {egs : WithTop ℝ} {I J : Sct}

theorem reversed_comm (ha : a.Valid) (ho : a.OnsiteOnly) (hs : a.SpinFree) {H' : ℕ → ℕ → ℕ → ℝ} {V' : ℕ → ℕ → ℝ} (hr : Reversed η a H' V') :
    Commute (modelHam a H' V') (pairOut fun i : Fin a.n => η i) := by
  have h1 : Commute a.ham (spinTurn (n := a.n) false) := ham_spinTurn hs (fun A hA => by rw [ho.Jx] at hA; exact absurd hA (by simp)) false
  have h2 := shibaConj_of hr.sq (hr.ham ha)
  have h3 : Commute (shibaConj (fun i : Fin a.n => η i) a.ham) (pairOut fun i : Fin a.n => η i) := by
    unfold pairOut
    rw [Commute, SemiconjBy, ← shibaConj_mul hr.sq, ← shibaConj_mul hr.sq, h1.eq]
  rw [h2] at h3
  have h4 : Commute (filledDw a • (1 : Matrix (Finset (Fin (a.n + a.n))) (Finset (Fin (a.n + a.n))) ℝ)) (pairOut fun i : Fin a.n => η i) := (Commute.one_left _).smul_left _
  have := h3.sub_left h4
  rwa [add_sub_cancel_right] at this

theorem cardA_sum (hη : ∀ i < a.n, η i = 1 ∨ η i = -1) : (∑ i ∈ Finset.range a.n, η i) = 2 * (cardA fun i : Fin a.n => η i) - a.n := by
  rw [Finset.sum_range, ← Finset.sum_filter_add_sum_filter_not Finset.univ fun i : Fin a.n => η i = 1,
    Finset.sum_congr rfl fun (i : Fin a.n) hi => show η i = 1 from (Finset.mem_filter.mp hi).2,
    Finset.sum_congr (s₁ := Finset.univ.filter fun i : Fin a.n => ¬ η i = 1) rfl fun (i : Fin a.n) hi => show η i = -1 from (hη i i.2).resolve_left (Finset.mem_filter.mp hi).2,
    Finset.sum_const, Finset.sum_const]
  have := Finset.card_filter_add_card_filter_not (s := (Finset.univ : Finset (Fin a.n))) fun i => η i = 1
  rw [Finset.card_univ, Fintype.card_fin] at this
  unfold cardA subA
  simp only [nsmul_eq_mul, mul_one, mul_neg]
  omega

theorem lowest_mono (ha : a.Valid) (hw : a.n ≤ w) (ho : a.OnsiteOnly) (hs : a.SpinFree) (h : BuildEspace w a none (.ok (es, egs))) (hI : ((p, q), I) ∈ es) (hJ : ((p', q'), J) ∈ es)
    (hN : p' + q' = p + q) (hpol : |(p' : ℤ) - q'| ≤ |(p : ℤ) - q|) (hI0 : 0 < I.eigvals.length) (hJ0 : 0 < J.eigvals.length) : J.eigvals[0] ≤ I.eigvals[0] := by
  have hx : a.NoExchange := fun A hA => by rw [ho.Jx] at hA; exact absurd hA (by simp)
  have hmem : I.eigvals[0] ∈ J.eigvals := by
    rw [← List.count_pos_iff]
    exact lt_of_lt_of_le (List.count_pos_iff.mpr (List.getElem_mem hI0)) (C130_multiplets_partial ha hw hs hx h hI hJ hN hpol _)
  obtain ⟨j, hj, he⟩ := List.getElem_of_mem hmem
  rw [← he]
  rcases Nat.eq_zero_or_pos j with rfl | hj0
  · exact le_rfl
  · exact List.pairwise_iff_getElem.mp (buildEspace_sorted ha hw h hJ) 0 j hJ0 hj hj0

/-- Repulsion on every site and between no others, no field, connected, half filled by the particle-hole symmetric form of the interaction with zero levels, and two sublattices (`η = 1` and
`η = -1`) with hops between them only. -/
structure TwoSublattice (a : HamArgs) (η : ℕ → ℤ) : Prop where
  valid : a.Valid
  local_ : a.OnsiteOnly
  free : a.SpinFree
  conn : Connected a false
  rep : Repulsive a
  hf : a.hf = true
  sign : ∀ i < a.n, η i = 1 ∨ η i = -1
  level : ∀ i < a.n, a.H 1 i i + a.mu = 0
  bip : ∀ i j, i < a.n → j < a.n → i ≠ j → η i = η j → a.H 1 i j = 0

/-- The same cluster with attraction. -/
noncomputable def attractiveTwin (a : HamArgs) : HamArgs := withModel a a.H fun i j => -(a.V.U.getD 0 i j)

theorem TwoSublattice.reversed (h : TwoSublattice a η) : Reversed η a a.H fun i j => -(a.V.U.getD 0 i j) := C196_bipartite h.hf h.sign h.local_.Jx h.local_.Jp h.local_.U h.level h.bip

theorem TwoSublattice.twin_valid (h : TwoSublattice a η) : (attractiveTwin a).Valid :=
  ⟨h.valid.two_le, h.valid.le, rfl, h.valid.symmH, by simp [attractiveTwin, withModel, VArg.array], by simp [attractiveTwin, withModel, VArg.array], fun _ => rfl⟩

theorem TwoSublattice.twin_onsite (h : TwoSublattice a η) : (attractiveTwin a).OnsiteOnly := ⟨fun i j hi hj hij => by
    show -(a.V.U.getD 0 i j) = 0
    rw [h.local_.U i j hi hj hij, neg_zero], rfl, rfl⟩

theorem TwoSublattice.twin_attractive (h : TwoSublattice a η) : Attractive (attractiveTwin a) := fun i hi => by
  show -(a.V.U.getD 0 i i) < 0
  linarith [h.rep i hi]

theorem TwoSublattice.twin_comm (h : TwoSublattice a η) : Commute (attractiveTwin a).ham (pairOut (n := (attractiveTwin a).n) fun i => η i) := reversed_comm h.valid h.local_ h.free h.reversed

theorem TwoSublattice.twin_comm' (h : TwoSublattice a η) : Commute (attractiveTwin a).ham (pairOut (n := (attractiveTwin a).n) fun i => η i)ᵀ := by
  have h1 := h.twin_comm
  have h2 : (attractiveTwin a).hamᵀ = (attractiveTwin a).ham := ham_symm h.twin_valid
  have h3 := congrArg Matrix.transpose h1.eq
  rw [Matrix.transpose_mul, Matrix.transpose_mul, h2] at h3
  exact h3.symm

/-- The levels of a half-filled sector are those of the paired sector of the twin. -/
theorem TwoSublattice.twin_levels (h : TwoSublattice a η) {es' : Espace (ℕ × ℕ)} {egs' : WithTop ℝ} (hw : a.n ≤ w) (hb : BuildEspace w a none (.ok (es, egs)))
    (hb' : BuildEspace w (attractiveTwin a) none (.ok (es', egs'))) (hpq : p + q = a.n) (hI : ((p, q), I) ∈ es) (hJ : ((p, p), J) ∈ es') : I.eigvals = J.eigvals :=
  C196_bipartite_levels h.valid hw hw h.hf h.sign h.local_.Jx h.local_.Jp h.local_.U h.level h.bip hb hb' hI (by rw [show a.n - q = p by omega]; exact hJ)

theorem TwoSublattice.step (h : TwoSublattice a η) (hw : a.n ≤ w) (hb : BuildEspace w a none (.ok (es, egs))) {u d : ℕ} (hu : u < cardA fun i : Fin a.n => η i) (hd : d < cardA fun i : Fin a.n => η i)
    (hn : u + 1 + d = a.n) (hI : ((u, d + 1), I) ∈ es) (hJ : ((u + 1, d), J) ∈ es) (hI0 : 0 < I.eigvals.length) (hJ0 : 0 < J.eigvals.length) : J.eigvals[0] ≤ I.eigvals[0] := by
  obtain ⟨⟨es', E'⟩, hb'⟩ := (buildEspace_none_ok (w := w) h.twin_valid hw).1
  have e' := buildEspace_eigen h.twin_valid hw hb'
  obtain ⟨-, -, hI', -, -, -, -, -⟩ := e'.toCompleteEspace.at (u := u) (d := u) (show u ≤ a.n by omega) (show u ≤ a.n by omega)
  obtain ⟨-, -, hJ', -, -, -, -, -⟩ := e'.toCompleteEspace.at (u := u + 1) (d := u + 1) (show u + 1 ≤ a.n by omega) (show u + 1 ≤ a.n by omega)
  have l1 := h.twin_levels hw hb hb' (by omega) hI hI'
  have l2 := h.twin_levels hw hb hb' (by omega) hJ hJ'
  simp only [l1, l2]
  exact lieb_step (η := fun i : Fin (attractiveTwin a).n => η i) h.twin_valid hw h.twin_onsite h.free h.conn h.twin_attractive h.reversed.sq h.twin_comm' hb' hu
    (show a.n ≤ u + cardA fun i : Fin a.n => η i by omega) hI' hJ' (by rw [← l1]; exact hI0) (by rw [← l2]; exact hJ0)

theorem TwoSublattice.edge (h : TwoSublattice a η) (hw : a.n ≤ w) (hb : BuildEspace w a none (.ok (es, egs))) {u d : ℕ} (hu : u = cardA fun i : Fin a.n => η i) (hd : d + 1 ≤ u)
    (hn : u + 1 + d = a.n) (hI : ((u, d + 1), I) ∈ es) (hJ : ((u + 1, d), J) ∈ es) (hI0 : 0 < I.eigvals.length) (hJ0 : 0 < J.eigvals.length) : I.eigvals[0] < J.eigvals[0] := by
  obtain ⟨⟨es', E'⟩, hb'⟩ := (buildEspace_none_ok (w := w) h.twin_valid hw).1
  have e' := buildEspace_eigen h.twin_valid hw hb'
  obtain ⟨-, -, hI', -, -, -, -, -⟩ := e'.toCompleteEspace.at (u := u) (d := u) (show u ≤ a.n by omega) (show u ≤ a.n by omega)
  obtain ⟨-, -, hJ', -, -, -, -, -⟩ := e'.toCompleteEspace.at (u := u + 1) (d := u + 1) (show u + 1 ≤ a.n by omega) (show u + 1 ≤ a.n by omega)
  have l1 := h.twin_levels hw hb hb' (by omega) hI hI'
  have l2 := h.twin_levels hw hb hb' (by omega) hJ hJ'
  simp only [l1, l2]
  subst hu
  exact lieb_edge (η := fun i : Fin (attractiveTwin a).n => η i) h.twin_valid hw h.twin_onsite h.free h.conn h.twin_attractive h.reversed.sq h.twin_comm hb'
    (show a.n ≤ 2 * cardA fun i : Fin a.n => η i by omega) hI' hJ' (by rw [← l1]; exact hI0) (by rw [← l2]; exact hJ0)

theorem TwoSublattice.swap (h : TwoSublattice a η) : TwoSublattice a fun i => -η i :=
  ⟨h.valid, h.local_, h.free, h.conn, h.rep, h.hf, fun i hi => by rcases h.sign i hi with e | e <;> rw [e] <;> simp, h.level, fun i j hi hj hij he => h.bip i j hi hj hij (neg_inj.mp he)⟩

theorem TwoSublattice.chain (h : TwoSublattice a η) (hw : a.n ≤ w) (hb : BuildEspace w a none (.ok (es, egs))) (k : ℕ) : ∀ {u d : ℕ} {I J : Sct}, u + k = (cardA fun i : Fin a.n => η i) →
    k + d ≤ (cardA fun i : Fin a.n => η i) → u + k + d = a.n → ((u, d + k), I) ∈ es → ((u + k, d), J) ∈ es → ∀ (hI0 : 0 < I.eigvals.length) (hJ0 : 0 < J.eigvals.length),
    J.eigvals[0] ≤ I.eigvals[0] := by
  induction k with
  | zero =>
    intro u d I J _ _ _ hI hJ hI0 hJ0
    have hes := buildEspace_eigen h.valid hw hb
    have := (sctAt_of_mem hes hI).1.symm.trans (sctAt_of_mem hes hJ).1
    simp only [this, le_refl]
  | succ k ih =>
    intro u d I J hu hd hn hI hJ hI0 hJ0
    have hes := buildEspace_eigen h.valid hw hb
    obtain ⟨-, -, hK, -, -, -, -, hl⟩ := hes.toCompleteEspace.at (u := u + 1) (d := d + k) (by omega) (by omega)
    have hK0 : 0 < (sctAt es (u + 1, d + k)).eigvals.length := by rw [hl]; exact Nat.mul_pos (Nat.choose_pos (by omega)) (Nat.choose_pos (by omega))
    exact (ih (u := u + 1) (d := d) (by omega) (by omega) (by omega) hK (by rw [show u + 1 + k = u + (k + 1) by omega]; exact hJ) hK0 hJ0).trans
      (h.step hw hb (u := u) (d := d + k) (by omega) (by omega) (by omega) hI hK hI0 hK0)

theorem TwoSublattice.equal_of (h : TwoSublattice a η) (hs : 0 ≤ ∑ i ∈ Finset.range a.n, η i) (hw : a.n ≤ w) (hb : BuildEspace w a none (.ok (es, egs))) (hpq : p + q = a.n) (hpq' : p' + q' = a.n)
    (hI : ((p, q), I) ∈ es) (hJ : ((p', q'), J) ∈ es) (hI0 : 0 < I.eigvals.length) (hJ0 : 0 < J.eigvals.length) (hd : |(p : ℤ) - q| ≤ ∑ i ∈ Finset.range a.n, η i)
    (hd' : |(p' : ℤ) - q'| ≤ ∑ i ∈ Finset.range a.n, η i) : I.eigvals[0] ≤ J.eigvals[0] := by
  rw [cardA_sum h.sign] at hs hd hd'
  set A := cardA fun i : Fin a.n => η i with hA
  have hes := buildEspace_eigen h.valid hw hb
  have hAn : A ≤ a.n := by
    have := Finset.card_le_univ (subA (fun i : Fin a.n => η i) Finset.univ)
    rwa [Fintype.card_fin] at this
  rw [abs_le] at hd'
  obtain ⟨-, -, hK, -, -, -, -, hl⟩ := hes.toCompleteEspace.at (u := A) (d := a.n - A) (by omega) (by omega)
  have hK0 : 0 < (sctAt es (A, a.n - A)).eigvals.length := by rw [hl]; exact Nat.mul_pos (Nat.choose_pos (by omega)) (Nat.choose_pos (by omega))
  have h1 := lowest_mono h.valid hw h.local_ h.free hb hK hI (by omega) (by rw [abs_of_nonneg (a := ((A : ℕ) : ℤ) - ((a.n - A : ℕ) : ℤ)) (by omega)]; omega) hK0 hI0
  have h2 := h.chain hw hb (A - p') (u := p') (d := a.n - A) (I := J) (J := sctAt es (A, a.n - A)) (by omega) (by omega) (by omega)
    (by rw [show a.n - A + (A - p') = q' by omega]; exact hJ) (by rw [show p' + (A - p') = A by omega]; exact hK) hJ0 hK0
  exact h1.trans h2

theorem TwoSublattice.above_of (h : TwoSublattice a η) (hs : 0 ≤ ∑ i ∈ Finset.range a.n, η i) (hw : a.n ≤ w) (hb : BuildEspace w a none (.ok (es, egs))) (hpq : p + q = a.n) (hpq' : p' + q' = a.n)
    (hI : ((p, q), I) ∈ es) (hJ : ((p', q'), J) ∈ es) (hI0 : 0 < I.eigvals.length) (hJ0 : 0 < J.eigvals.length) (hd : |(p : ℤ) - q| ≤ ∑ i ∈ Finset.range a.n, η i)
    (hd' : ∑ i ∈ Finset.range a.n, η i < |(p' : ℤ) - q'|) : I.eigvals[0] < J.eigvals[0] := by
  rw [cardA_sum h.sign] at hs hd hd'
  set A := cardA fun i : Fin a.n => η i with hA
  have hes := buildEspace_eigen h.valid hw hb
  have hAn : A + 1 ≤ a.n := by
    rcases abs_cases ((p' : ℤ) - q') with ⟨h1, -⟩ | ⟨h1, -⟩ <;> rw [h1] at hd' <;> omega
  obtain ⟨-, -, hK, -, -, -, -, hl⟩ := hes.toCompleteEspace.at (u := A) (d := a.n - A - 1 + 1) (by omega) (by omega)
  have hK0 : 0 < (sctAt es (A, a.n - A - 1 + 1)).eigvals.length := by rw [hl]; exact Nat.mul_pos (Nat.choose_pos (by omega)) (Nat.choose_pos (by omega))
  obtain ⟨-, -, hL, -, -, -, -, hl⟩ := hes.toCompleteEspace.at (u := A + 1) (d := a.n - A - 1) (by omega) (by omega)
  have hL0 : 0 < (sctAt es (A + 1, a.n - A - 1)).eigvals.length := by rw [hl]; exact Nat.mul_pos (Nat.choose_pos (by omega)) (Nat.choose_pos (by omega))
  have h1 := lowest_mono h.valid hw h.local_ h.free hb hK hI (by omega) (by rw [abs_of_nonneg (a := ((A : ℕ) : ℤ) - ((a.n - A - 1 + 1 : ℕ) : ℤ)) (by omega)]; omega) hK0 hI0
  have h2 := h.edge hw hb (u := A) (d := a.n - A - 1) rfl (by omega) (by omega) hK hL hK0 hL0
  have h3 := lowest_mono h.valid hw h.local_ h.free hb hJ hL (by omega) (by
    rw [abs_of_nonneg (a := ((A + 1 : ℕ) : ℤ) - ((a.n - A - 1 : ℕ) : ℤ)) (by omega)]
    rcases abs_cases ((p' : ℤ) - q') with ⟨h1, -⟩ | ⟨h1, -⟩ <;> rw [h1] at hd' ⊢ <;> omega) hJ0 hL0
  exact h1.trans_lt (h2.trans_le h3)

/-- **C203** (Lieb) The half-filled ground state has the spin given by the difference of the sublattices: the lowest level is the same in every sector with one electron per site whose
polarisation does not exceed the difference of the numbers of sites of the two sublattices. -/
theorem C203_multiplet (h : TwoSublattice a η) (hw : a.n ≤ w) (hb : BuildEspace w a none (.ok (es, egs))) (hpq : p + q = a.n) (hpq' : p' + q' = a.n) (hI : ((p, q), I) ∈ es) (hJ : ((p', q'), J) ∈ es)
    (hI0 : 0 < I.eigvals.length) (hJ0 : 0 < J.eigvals.length) (hd : |(p : ℤ) - q| ≤ |∑ i ∈ Finset.range a.n, η i|) (hd' : |(p' : ℤ) - q'| ≤ |∑ i ∈ Finset.range a.n, η i|) :
    I.eigvals[0] = J.eigvals[0] := by
  rcases le_total 0 (∑ i ∈ Finset.range a.n, η i) with hs | hs
  · rw [abs_of_nonneg hs] at hd hd'
    exact le_antisymm (h.equal_of hs hw hb hpq hpq' hI hJ hI0 hJ0 hd hd') (h.equal_of hs hw hb hpq' hpq hJ hI hJ0 hI0 hd' hd)
  · rw [abs_of_nonpos hs, ← Finset.sum_neg_distrib] at hd hd'
    have hs' : 0 ≤ ∑ i ∈ Finset.range a.n, -η i := by rw [Finset.sum_neg_distrib]; omega
    exact le_antisymm (h.swap.equal_of hs' hw hb hpq hpq' hI hJ hI0 hJ0 hd hd') (h.swap.equal_of hs' hw hb hpq' hpq hJ hI hJ0 hI0 hd' hd)

/-- **C203** (Lieb) … and it lies strictly below every level of the sectors with one electron per site and a larger polarisation. -/
theorem C203_above (h : TwoSublattice a η) (hw : a.n ≤ w) (hb : BuildEspace w a none (.ok (es, egs))) (hpq : p + q = a.n) (hpq' : p' + q' = a.n) (hI : ((p, q), I) ∈ es) (hJ : ((p', q'), J) ∈ es)
    (hI0 : 0 < I.eigvals.length) (hd : |(p : ℤ) - q| ≤ |∑ i ∈ Finset.range a.n, η i|) (hd' : |∑ i ∈ Finset.range a.n, η i| < |(p' : ℤ) - q'|) {E : ℝ} (hE : E ∈ J.eigvals) :
    I.eigvals[0] < E := by
  have hJ0 : 0 < J.eigvals.length := List.length_pos_of_mem hE
  have h1 : I.eigvals[0] < J.eigvals[0] := by
    rcases le_total 0 (∑ i ∈ Finset.range a.n, η i) with hs | hs
    · rw [abs_of_nonneg hs] at hd hd'
      exact h.above_of hs hw hb hpq hpq' hI hJ hI0 hJ0 hd hd'
    · rw [abs_of_nonpos hs, ← Finset.sum_neg_distrib] at hd hd'
      exact h.swap.above_of (by rw [Finset.sum_neg_distrib]; omega) hw hb hpq hpq' hI hJ hI0 hJ0 hd hd'
  obtain ⟨j, hj, rfl⟩ := List.getElem_of_mem hE
  rcases Nat.eq_zero_or_pos j with rfl | hj0
  · exact h1
  · exact h1.trans_le (List.pairwise_iff_getElem.mp (buildEspace_sorted h.valid hw hb hJ) 0 j hJ0 hj hj0)

/-- A star: one site in the centre, three around it, with repulsion of different strength. -/
def starArgs : HamArgs := ⟨4, fun _ i j => if (i = 0 ∨ j = 0) ∧ i ≠ j then 1 else 0, .array fun i j => if i = j then (i : ℝ) + 1 else 0, none, true, 0⟩

/-- The centre is one sublattice, the other sites are the other. -/
def starSign (i : ℕ) : ℤ := if i = 0 then -1 else 1

theorem starArgs_half : TwoSublattice starArgs starSign where
  valid := by
    refine ⟨by simp [starArgs], by simp [starArgs], rfl, ?_, by simp [starArgs, VArg.array], by simp [starArgs, VArg.array], by simp [starArgs, VArg.array]⟩
    intro s i j _ _
    simp only [starArgs, or_comm (a := i = 0), ne_comm (a := i)]
  local_ := ⟨fun i j _ _ hij => by simp [starArgs, VArg.array, hij], rfl, rfl⟩
  free := fun _ _ _ _ => rfl
  conn := by
    have h0 : ∀ i, i < 4 → i ≠ 0 → 0 < starArgs.n ∧ i < starArgs.n ∧ KeptHop starArgs false 0 i := fun i hi hi0 => ⟨by simp [starArgs], hi, hi0.symm, by
      simp only [starArgs, true_or, true_and, ne_eq, hi0.symm, not_false_eq_true, if_true]; norm_num⟩
    have h1 : ∀ i, i < 4 → i ≠ 0 → i < starArgs.n ∧ 0 < starArgs.n ∧ KeptHop starArgs false i 0 := fun i hi hi0 => ⟨hi, by simp [starArgs], hi0, by
      simp only [starArgs, or_true, true_and, ne_eq, hi0, not_false_eq_true, if_true]; norm_num⟩
    intro i j hi hj
    by_cases hi0 : i = 0
    · by_cases hj0 : j = 0
      · rw [hi0, hj0]
      · rw [hi0]; exact .single (h0 j hj hj0)
    · by_cases hj0 : j = 0
      · rw [hj0]; exact .single (h1 i hi hi0)
      · exact .trans (.single (h1 i hi hi0)) (.single (h0 j hj hj0))
  rep := fun i _ => by
    show 0 < (if i = i then (i : ℝ) + 1 else 0)
    rw [if_pos rfl]; positivity
  hf := rfl
  sign := fun i _ => by unfold starSign; split_ifs <;> simp
  level := fun i _ => by simp [starArgs]
  bip := fun i j _ _ hij he => by
    show (if (i = 0 ∨ j = 0) ∧ i ≠ j then (1 : ℝ) else 0) = 0
    rw [if_neg]
    rintro ⟨h1, -⟩
    unfold starSign at he
    by_cases hi0 : i = 0
    · have hj0 : j ≠ 0 := fun hh => hij (hi0.trans hh.symm)
      rw [if_pos hi0, if_neg hj0] at he
      exact absurd he (by decide)
    · rw [if_neg hi0, if_pos (h1.resolve_left hi0)] at he
      exact absurd he (by decide)

/-- Non-vacuity: the ground state of the star has spin 1. -/
example : ∃ es egs I J K, BuildEspace 64 starArgs none (.ok (es, egs)) ∧ ((3, 1), I) ∈ es ∧ ((2, 2), J) ∈ es ∧ ((4, 0), K) ∈ es ∧ ∃ (hI : 0 < I.eigvals.length) (hJ : 0 < J.eigvals.length),
    I.eigvals[0] = J.eigvals[0] ∧ K.eigvals ≠ [] ∧ ∀ E ∈ K.eigvals, J.eigvals[0] < E := by
  have hw : starArgs.n ≤ 64 := by simp [starArgs]
  obtain ⟨⟨⟨es, egs⟩, h⟩, -⟩ := buildEspace_none_ok starArgs_half.valid hw
  have hes := buildEspace_eigen starArgs_half.valid hw h
  obtain ⟨-, -, hI, -, -, -, -, hl⟩ := hes.toCompleteEspace.at (u := 3) (d := 1) (by simp [starArgs]) (by simp [starArgs])
  obtain ⟨-, -, hJ, -, -, -, -, hl'⟩ := hes.toCompleteEspace.at (u := 2) (d := 2) (by simp [starArgs]) (by simp [starArgs])
  obtain ⟨-, -, hK, -, -, -, -, hl''⟩ := hes.toCompleteEspace.at (u := 4) (d := 0) (by simp [starArgs]) (by simp [starArgs])
  have e1 : 0 < (sctAt es (3, 1)).eigvals.length := by rw [hl]; simp [starArgs, Nat.choose]
  have e2 : 0 < (sctAt es (2, 2)).eigvals.length := by rw [hl']; simp [starArgs, Nat.choose]
  have e3 : (sctAt es (4, 0)).eigvals ≠ [] := fun hh => by rw [hh] at hl''; simp [starArgs, Nat.choose] at hl''
  have hsum : ∑ i ∈ Finset.range starArgs.n, starSign i = 2 := by
    show ∑ i ∈ Finset.range 4, starSign i = 2
    decide
  exact ⟨es, egs, _, _, _, h, hI, hJ, hK, e1, e2, C203_multiplet starArgs_half hw h rfl rfl hI hJ e1 e2 (by rw [hsum]; decide) (by rw [hsum]; decide), e3,
    fun E hE => C203_above starArgs_half hw h rfl rfl hJ hK e2 (by rw [hsum]; decide) (by rw [hsum]; decide) hE⟩

end Edpyt
