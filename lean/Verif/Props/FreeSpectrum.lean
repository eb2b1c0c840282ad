import Verif.Proof.Slater
import Verif.Proof.Sectors
import Verif.Props.Free
import Verif.Props.LevelSymm
import Verif.Props.Entropy
import Verif.Props.Temperature
import Verif.Props.GfScreened
/-!
C158: without interaction the energies are sums of one-body levels, sector by sector.
-/
namespace Edpyt
open Matrix Spec

section
variable {n : ℕ}

/-- Annihilation of an electron of spin `s` in the orbital `φ`. -/
noncomputable def mode (s : Bool) (φ : Fin n → ℝ) : Matrix (Finset (Fin (n + n))) (Finset (Fin (n + n))) ℝ := ∑ i, φ i • ann ℝ (orb s i)

theorem mode_transpose (s : Bool) (φ : Fin n → ℝ) : (mode s φ)ᵀ = ∑ i, φ i • cre ℝ (orb s i) := by
  unfold mode
  rw [Matrix.transpose_sum]
  rfl

theorem mode_anti (s s' : Bool) (φ ψ : Fin n → ℝ) : mode s φ * (mode s' ψ)ᵀ + (mode s' ψ)ᵀ * mode s φ = (if s = s' then φ ⬝ᵥ ψ else 0) • (1 : Matrix _ _ ℝ) := by
  rw [mode_transpose]
  unfold mode
  simp only [Matrix.sum_mul, Matrix.mul_sum, Matrix.smul_mul, Matrix.mul_smul, Finset.smul_sum]
  rw [Finset.sum_comm (f := fun x y => ψ x • φ y • (ann ℝ (orb s y) * cre ℝ (orb s' x))), ← Finset.sum_add_distrib]
  simp only [← Finset.sum_add_distrib, smul_comm (ψ _) (φ _), ← smul_add, ann_cre_anticomm, orb_inj]
  by_cases hs : s = s'
  · subst hs
    simp only [true_and, if_true, smul_ite, smul_zero, Finset.sum_ite_eq, Finset.mem_univ]
    rw [dotProduct, Finset.sum_smul]
    exact Finset.sum_congr rfl fun i _ => by rw [smul_smul]
  · simp [hs]

theorem mode_anti2 (s s' : Bool) (φ ψ : Fin n → ℝ) : mode s φ * mode s' ψ + mode s' ψ * mode s φ = 0 := by
  unfold mode
  simp only [Matrix.sum_mul, Matrix.mul_sum, Matrix.smul_mul, Matrix.mul_smul, Finset.smul_sum]
  rw [Finset.sum_comm (f := fun x y => ψ x • φ y • (ann ℝ (orb s y) * ann ℝ (orb s' x))), ← Finset.sum_add_distrib]
  simp only [← Finset.sum_add_distrib, smul_comm (ψ _) (φ _), ← smul_add, ann_anticomm, smul_zero, Finset.sum_const_zero]

theorem mode_comm {μ : Type} [Fintype μ] [DecidableEq μ] (t : Bool → Fin n → Fin n → ℝ) (s : Bool) {φ : μ → Fin n → ℝ} {ε : μ → ℝ} (hφ : EigBasis (Matrix.of (t s)) φ ε) (a : μ) :
    mode s (φ a) * kinetic t - kinetic t * mode s (φ a) = ε a • mode s (φ a) := by
  unfold mode
  simp only [Matrix.sum_mul, Matrix.mul_sum, ← Finset.sum_sub_distrib, Matrix.smul_mul, Matrix.mul_smul, ← smul_sub, ann_comm_kinetic, Finset.smul_sum, smul_smul]
  rw [Finset.sum_comm]
  refine Finset.sum_congr rfl fun j _ => ?_
  rw [← Finset.sum_smul]
  congr 1
  have := congrFun (hφ.eig a) j
  rw [Pi.smul_apply, smul_eq_mul] at this
  rw [← this]
  simp only [Matrix.mulVec, dotProduct, Matrix.of_apply]
  refine Finset.sum_congr rfl fun i _ => ?_
  have hs : t s i j = t s j i := hφ.symm.apply j i
  rw [hs, mul_comm]

theorem ann_vacuum (x : Fin (n + n)) : ann ℝ x *ᵥ Pi.single ∅ 1 = 0 := by
  funext T
  simp [Matrix.mulVec, dotProduct, ann, Pi.single_apply]

/-- The orbitals of both spins. -/
noncomputable def modes {μ ν : Type} (φu : μ → Fin n → ℝ) (φd : ν → Fin n → ℝ) : μ ⊕ ν → Matrix (Finset (Fin (n + n))) (Finset (Fin (n + n))) ℝ
  | .inl a => mode false (φu a)
  | .inr b => mode true (φd b)

variable {μ ν : Type} [Fintype μ] [DecidableEq μ] [Fintype ν] [DecidableEq ν] {φu : μ → Fin n → ℝ} {φd : ν → Fin n → ℝ} {εu : μ → ℝ} {εd : ν → ℝ}

theorem modes_ok {hU hD : Matrix (Fin n) (Fin n) ℝ} (hu : EigBasis hU φu εu) (hd : EigBasis hD φd εd) : Modes (modes φu φd) (Pi.single ∅ 1) where
  anti a b := by
    cases a <;> cases b <;> simp only [modes] <;> rw [mode_anti]
    · rename_i x y; rw [if_pos rfl, hu.orth]; simp only [Sum.inl.injEq, eq_comm]
    · simp
    · simp
    · rename_i x y; rw [if_pos rfl, hd.orth]; simp only [Sum.inr.injEq, eq_comm]
  anti2 a b := by cases a <;> cases b <;> exact mode_anti2 _ _ _ _
  vac a := by
    cases a <;> simp only [modes, mode, Matrix.sum_mulVec, Matrix.smul_mulVec, ann_vacuum, smul_zero, Finset.sum_const_zero]
  norm := by simp

theorem modes_grade (x : μ ⊕ ν) : Grade (modes φu φd x)ᵀ (fun s => if s = x.isRight then 1 else 0) := by
  cases x <;> simp only [modes] <;> rw [mode_transpose] <;> exact Grade.sum fun i _ => (grade_cre _ i).smul _

/-- Electrons of the determinant. -/
theorem slater_count : ∀ (L : List (μ ⊕ ν)) {T : Finset (Fin (n + n))}, slater (modes φu φd) (Pi.single ∅ 1) L T ≠ 0 → ∀ s, spinCount s T = (L.countP fun x => decide (s = x.isRight) : ℕ)
  | [], T, h, s => by
    rw [slater, Pi.single_apply] at h
    have : T = ∅ := by by_contra hne; exact h (if_neg hne)
    subst this
    cases s <;> simp [spinCount, upPart, dwPart]
  | x :: L, T, h, s => by
    rw [slater, Matrix.mulVec, dotProduct] at h
    obtain ⟨S, -, hS⟩ := Finset.exists_ne_zero_of_sum_ne_zero h
    have h1 := modes_grade x T S (left_ne_zero_of_mul hS) s
    have h2 := slater_count L (right_ne_zero_of_mul hS) s
    rw [h1, h2, List.countP_cons]
    by_cases hs : s = x.isRight <;> simp [hs]

theorem slater_count_finset (S : Finset (μ ⊕ ν)) {T : Finset (Fin (n + n))} (h : slater (modes φu φd) (Pi.single ∅ 1) S.toList T ≠ 0) :
    spinCount false T = S.toLeft.card ∧ spinCount true T = S.toRight.card := by
  have h1 := slater_count _ h
  have key : ∀ s, (S.toList.countP fun x => decide (s = x.isRight)) = (S.filter fun x => s = x.isRight).card := by
    intro s
    rw [Finset.card_def, Finset.filter_val, ← Multiset.countP_eq_card_filter, ← Finset.coe_toList, Multiset.coe_countP]
  rw [h1, h1, key, key]
  constructor
  · congr 1
    rw [← Finset.card_map (Function.Embedding.inl : μ ↪ μ ⊕ ν) (s := S.toLeft)]
    congr 1
    ext x
    cases x <;> simp
  · congr 1
    rw [← Finset.card_map (Function.Embedding.inr : ν ↪ μ ⊕ ν) (s := S.toRight)]
    congr 1
    ext x
    cases x <;> simp

/-- The determinants are an eigenbasis of the Hamiltonian. -/
theorem free_basis {t : Bool → Fin n → Fin n → ℝ} (hu : EigBasis (Matrix.of (t false)) φu εu) (hd : EigBasis (Matrix.of (t true)) φd εd) (hsym : (kinetic t)ᵀ = kinetic t) :
    EigBasis (kinetic t) (fun S : Finset (μ ⊕ ν) => slater (modes φu φd) (Pi.single ∅ 1) S.toList) fun S => ∑ x ∈ S, Sum.elim εu εd x := by
  have hc : ∀ x, modes φu φd x * kinetic t - kinetic t * modes φu φd x = Sum.elim εu εd x • modes φu φd x := by
    rintro (a | b)
    · exact mode_comm t false hu a
    · exact mode_comm t true hd b
  have h0 : kinetic t *ᵥ Pi.single (∅ : Finset (Fin (n + n))) (1 : ℝ) = 0 := by
    unfold kinetic
    simp only [Matrix.sum_mulVec, Matrix.smul_mulVec, ← Matrix.mulVec_mulVec, ann_vacuum, Matrix.mulVec_zero, smul_zero, Finset.sum_const_zero]
  have hcard : 2 ^ Fintype.card (μ ⊕ ν) = Fintype.card (Finset (Fin (n + n))) := by
    rw [Fintype.card_sum, hu.card, hd.card, Fintype.card_finset, Fintype.card_fin, Fintype.card_fin]
  exact (modes_ok hu hd).basis hcard hc hsym h0

theorem sum_elim_eq (S : Finset (μ ⊕ ν)) : ∑ x ∈ S, Sum.elim εu εd x = ∑ l ∈ S.toLeft, εu l + ∑ l ∈ S.toRight, εd l := by
  conv_lhs => rw [← Finset.toLeft_disjSum_toRight (u := S), Finset.sum_disjSum]
  simp

/-- The energies of the determinants are those of the sectors. -/
theorem free_sum {t : Bool → Fin n → Fin n → ℝ} (hu : EigBasis (Matrix.of (t false)) φu εu) (hd : EigBasis (Matrix.of (t true)) φd εd) {es : Espace (ℕ × ℕ)}
    (he : EigenEspace n (kinetic t) es) (g : ℕ × ℕ → ℝ → ℝ) :
    ∑ x : EigIdx n, g (x.1.1, x.1.2) (esVal n es x) = ∑ p : Finset μ × Finset ν, g (p.1.card, p.2.card) (∑ l ∈ p.1, εu l + ∑ l ∈ p.2, εd l) := by
  have hB := he.basis
  have hS := free_basis hu hd hB.symm
  have := EigBasis.sum_eq (β := ℕ × ℕ) hB.symm hB hS (fun x => ((x.1.1 : ℕ), (x.1.2 : ℕ))) (fun S => (S.toLeft.card, S.toRight.card)) (fun x S hne => by
    obtain ⟨⟨u, d⟩, k⟩ := x
    obtain ⟨up, dw, -, -, hok, -⟩ := he.toCompleteEspace.at (u := u) (d := d) (by have := u.2; omega) (by have := d.2; omega)
    refine Finset.sum_eq_zero fun T _ => ?_
    by_contra h
    have h1 := left_ne_zero_of_mul h
    rw [esKet, hok.ket_eq] at h1
    obtain ⟨c1, c2⟩ := ket_support hok.hup hok.hdw _ h1
    obtain ⟨c3, c4⟩ := slater_count_finset S (right_ne_zero_of_mul h)
    refine hne (Prod.ext ?_ ?_)
    · have := c1.symm.trans c3
      simpa using this
    · have := c2.symm.trans c4
      simpa using this) g
  rw [this, ← Finset.sumEquiv.toEquiv.sum_comp]
  refine Finset.sum_congr rfl fun S _ => ?_
  rw [sum_elim_eq]
  rfl

end

theorem sum_indicator (M : Multiset ℝ) (x : ℝ) : (M.map fun y => if y = x then (1 : ℝ) else 0).sum = M.count x := by
  induction M using Multiset.induction with
  | empty => simp
  | cons a M ih =>
    rw [Multiset.map_cons, Multiset.sum_cons, ih, Multiset.count_cons]
    by_cases h : a = x
    · subst h; simp [add_comm]
    · rw [if_neg h, if_neg (Ne.symm h)]; simp

variable {es : Espace (ℕ × ℕ)} {a : HamArgs} {w : ℕ} {e0 : WithTop ℝ}

/-- **C158** Without interaction the energies of a sector are, with multiplicity and in ascending order, all sums of `nup` one-body levels of spin up and
`ndw` one-body levels of spin down. -/
theorem C158_levels (ha : a.Valid) (hw : a.n ≤ w) (hf : a.Free) (h : BuildEspace w a none (.ok (es, e0))) {μ ν : Type} [Fintype μ] [DecidableEq μ] [Fintype ν] [DecidableEq ν]
    {φu : μ → Fin a.n → ℝ} {φd : ν → Fin a.n → ℝ} {εu : μ → ℝ} {εd : ν → ℝ} (hu : EigBasis (a.oneBody false) φu εu) (hd : EigBasis (a.oneBody true) φd εd) {u d : ℕ}
    (hun : u ≤ a.n) (hdn : d ≤ a.n) : ∃ s, dictGet es (u, d) = .ok s ∧ s.eigvals.Pairwise (· ≤ ·) ∧
      (s.eigvals : Multiset ℝ) = (Finset.powersetCard u Finset.univ ×ˢ Finset.powersetCard d Finset.univ).val.map fun p => ∑ l ∈ p.1, εu l + ∑ l ∈ p.2, εd l := by
  have he := buildEspace_eigen ha hw h
  have he' := he
  rw [hf.ham] at he'
  obtain ⟨up, dw, hm, hget, hok, -, -, hlen⟩ := he.toCompleteEspace.at (u := u) (d := d) hun hdn
  refine ⟨_, hget, buildEspace_sorted ha hw h hm, ?_⟩
  ext x
  have := free_sum (t := fun s i j => a.oneBody s i j) hu hd he' (fun q E => if q = (u, d) then (if E = x then 1 else 0) else 0)
  have hL : ∑ y : EigIdx a.n, (if ((y.1.1 : ℕ), (y.1.2 : ℕ)) = (u, d) then (if esVal a.n es y = x then (1 : ℝ) else 0) else 0) = ((sctAt es (u, d)).eigvals : Multiset ℝ).count x := by
    rw [Fintype.sum_sigma, Finset.sum_eq_single ((⟨u, by omega⟩, ⟨d, by omega⟩) : Fin (a.n + 1) × Fin (a.n + 1))]
    · rw [← sum_indicator]
      have e : (sctAt es (u, d)).eigvals = List.ofFn fun k : Fin (a.n.choose u * a.n.choose d) => (sctAt es (u, d)).eigvals[(k : ℕ)]?.getD 0 := by
        apply List.ext_getElem
        · simp [hlen]
        · intro i h1 h2
          simp [List.getElem?_eq_getElem h1]
      rw [e, Multiset.map_coe, Multiset.sum_coe, List.map_ofFn, List.sum_ofFn]
      refine Finset.sum_congr rfl fun k _ => ?_
      rw [if_pos rfl]
      rfl
    · rintro ⟨p, q⟩ - hne
      refine Finset.sum_eq_zero fun k _ => ?_
      rw [if_neg]
      intro hpq
      simp only [Prod.mk.injEq] at hpq
      exact hne (Prod.ext (Fin.ext hpq.1) (Fin.ext hpq.2))
    · simp
  have hR : ∑ p : Finset μ × Finset ν, (if (p.1.card, p.2.card) = (u, d) then (if ∑ l ∈ p.1, εu l + ∑ l ∈ p.2, εd l = x then (1 : ℝ) else 0) else 0) =
      ((Finset.powersetCard u Finset.univ ×ˢ Finset.powersetCard d Finset.univ).val.map fun p => ∑ l ∈ p.1, εu l + ∑ l ∈ p.2, εd l).count x := by
    rw [← sum_indicator, Multiset.map_map, ← Finset.sum_filter]
    refine Finset.sum_congr ?_ fun p _ => rfl
    ext ⟨S, T⟩
    simp [Finset.mem_powersetCard]
  rw [hL, hR] at this
  exact_mod_cast this

theorem egs_real (ha : a.Valid) (hw : a.n ≤ w) (h : BuildEspace w a none (.ok (es, e0))) : ∃ E : ℝ, e0 = E := by
  obtain ⟨l, hl⟩ := buildEspace_none_some h
  obtain ⟨-, -, ⟨hes, -⟩ | ⟨E, hE, -⟩⟩ := C28_build_espace ha hw l es e0 hl
  · have hk := (buildEspace_complete' ha hw h).2
    rw [hes] at hk
    have : ((0, 0) : ℕ × ℕ) ∈ ndindex2 (a.n + 1) (a.n + 1) := mem_ndindex2.mpr (by simp)
    rw [← hk] at this
    simp at this
  · exact ⟨E, hE⟩

theorem sum_min_le {μ : Type} [Fintype μ] (ε : μ → ℝ) (S : Finset μ) : ∑ l, min (ε l) 0 ≤ ∑ l ∈ S, ε l :=
  calc ∑ l, min (ε l) 0 ≤ ∑ l ∈ S, min (ε l) 0 := Finset.sum_le_sum_of_subset_of_nonpos' (Finset.subset_univ S) fun l _ _ => min_le_right _ _
    _ ≤ ∑ l ∈ S, ε l := Finset.sum_le_sum fun l _ => min_le_left _ _

theorem sum_min_eq {μ : Type} [Fintype μ] (ε : μ → ℝ) : ∑ l ∈ Finset.univ.filter (fun l => ε l < 0), ε l = ∑ l, min (ε l) 0 := by
  rw [Finset.sum_filter]
  refine Finset.sum_congr rfl fun l _ => ?_
  split
  · rename_i h; rw [min_eq_left h.le]
  · rename_i h; rw [min_eq_right (not_lt.mp h)]

/-- **C158** The ground state energy without interaction is the sum of the negative one-body levels of both spins. -/
theorem C158_ground (ha : a.Valid) (hw : a.n ≤ w) (hf : a.Free) (h : BuildEspace w a none (.ok (es, e0))) {μ ν : Type} [Fintype μ] [DecidableEq μ] [Fintype ν] [DecidableEq ν]
    {φu : μ → Fin a.n → ℝ} {φd : ν → Fin a.n → ℝ} {εu : μ → ℝ} {εd : ν → ℝ} (hu : EigBasis (a.oneBody false) φu εu) (hd : EigBasis (a.oneBody true) φd εd) :
    e0 = ((∑ l, min (εu l) 0 + ∑ l, min (εd l) 0 : ℝ) : WithTop ℝ) := by
  obtain ⟨E, rfl⟩ := egs_real ha hw h
  have he := (buildEspace_eigen ha hw h).basis.symm
  have hS := free_basis (t := fun s i j => a.oneBody s i j) hu hd (by rw [← hf.ham]; exact he)
  rw [← hf.ham] at hS
  obtain ⟨⟨S, hS1⟩, hS2⟩ := esVal_least ha hw h hS
  congr 1
  refine le_antisymm ?_ ?_
  · have := hS2 ⟨(Finset.univ.filter fun l => εu l < 0).disjSum (Finset.univ.filter fun l => εd l < 0), rfl⟩
    simp only [Finset.sum_disjSum, Sum.elim_inl, Sum.elim_inr, sum_min_eq] at this
    exact this
  · simp only at hS1
    rw [← hS1, sum_elim_eq]
    exact add_le_add (sum_min_le _ _) (sum_min_le _ _)

/-! ## Non-interacting espace -/

theorem levelSum_occF {n : ℕ} (ek : List ℝ) (hn : n = ek.length) (s : ℕ) : levelSum ek s = ∑ l ∈ occF n s, ek[(l : ℕ)]?.getD 0 := by
  subst hn
  unfold levelSum occF
  rw [Finset.sum_filter, Finset.sum_range]

theorem sum_occF (n p : ℕ) (F : Finset (Fin n) → ℝ) :
    ∑ s ∈ (Finset.range (2 ^ n)).filter (fun s => (occ s).card = p), F (occF n s) = ∑ S ∈ Finset.powersetCard p (Finset.univ : Finset (Fin n)), F S := by
  refine Finset.sum_bij (fun s _ => occF n s) (fun s hs => ?_) (fun s hs t ht hst => ?_) (fun S hS => ?_) fun s _ => rfl
  · obtain ⟨h1, h2⟩ := Finset.mem_filter.mp hs
    rw [Finset.mem_powersetCard]
    exact ⟨Finset.subset_univ _, by rw [card_occF (Finset.mem_range.mp h1)]; exact h2⟩
  · exact occF_inj (Finset.mem_range.mp (Finset.mem_filter.mp hs).1) (Finset.mem_range.mp (Finset.mem_filter.mp ht).1) hst
  · obtain ⟨s, h1, h2⟩ := occF_surj S
    refine ⟨s, Finset.mem_filter.mpr ⟨Finset.mem_range.mpr h1, ?_⟩, h2⟩
    rw [← (Finset.mem_powersetCard.mp hS).2, ← h2, card_occF h1]
    rfl

theorem sum_flat (up dw : List ℕ) (f : ℕ → ℕ → ℝ) (F : ℝ → ℝ) : ((dw.flatMap fun d => up.map fun u => f u d).map F).sum = (dw.map fun d => (up.map fun u => F (f u d)).sum).sum := by
  induction dw with
  | nil => simp
  | cons d dw ih => simp only [List.flatMap_cons, List.map_append, List.sum_append, ih, List.map_cons, List.sum_cons, List.map_map, Function.comp_def]

/-- **C158** `build_non_interacting_espace(ek)` gives the sectors, the energies and the ground state energy of `build_espace` for the diagonal
one-body matrix `ek` without interaction. -/
theorem C158_bath (ha : a.Valid) (hw : a.n ≤ w) (hf : a.Free) (h : BuildEspace w a none (.ok (es, e0))) (ek : List ℝ) (hn : a.n = ek.length)
    (hdiag : ∀ s (i j : Fin a.n), a.oneBody s i j = if i = j then ek[(i : ℕ)]?.getD 0 else 0) (h64 : ek.length * ek.length ≤ 64) {w' : ℕ} (hw' : ek.length ≤ w') (junk : ℕ → ℕ → ℕ) (fresh : ℕ → ℝ) :
    ∃ bath, buildNonInteracting w' junk fresh ek = .ok (bath, e0) ∧ bath.map (fun p => (p.1, p.2.eigvals)) = es.map (fun p => (p.1, p.2.eigvals)) := by
  have hB : ∀ s, EigBasis (a.oneBody s) (fun i : Fin a.n => Pi.single i (1 : ℝ)) (fun i => ek[(i : ℕ)]?.getD 0) := fun s =>
    { card := rfl
      orth := fun i j => by simp [Pi.single_apply, eq_comm]
      eig := fun i => by
        funext j
        rw [Matrix.mulVec_single_one, Matrix.col_apply, hdiag]
        by_cases hji : j = i
        · subst hji; simp
        · rw [if_neg hji]; simp [hji] }
  obtain ⟨bath, h1, h2, h3⟩ := C33_non_interacting w' junk fresh ek h64 hw'
  have he0 : e0 = ((2 * (ek.map fun x => min x 0).sum : ℝ) : WithTop ℝ) := by
    rw [C158_ground ha hw hf h (hB false) (hB true), ← two_mul]
    congr 2
    have e : ∑ i : Fin a.n, min (ek[(i : ℕ)]?.getD 0) 0 = ∑ i ∈ Finset.range a.n, min (ek[i]?.getD 0) 0 := (Finset.sum_range fun i => min (ek[i]?.getD 0) 0).symm
    rw [e, ← sum_map_range, hn]
    congr 1
    apply List.ext_getElem
    · simp
    · intro i h4 h5
      simp only [List.length_map] at h5
      simp [List.getElem?_eq_getElem h5]
  refine ⟨bath, he0 ▸ h1, ?_⟩
  have hk := (buildEspace_complete' ha hw h).2
  have hkey : bath.map Prod.fst = es.map Prod.fst := by rw [h2, hk, hn]
  have hlen : bath.length = es.length := by simpa using congrArg List.length hkey
  have h32 : ek.length ≤ 32 := by nlinarith
  apply List.ext_getElem
  · simpa using hlen
  · intro i hi1 hi2
    simp only [List.length_map] at hi1 hi2
    simp only [List.getElem_map]
    have hki : (bath[i]).1 = (es[i]).1 := by
      have := congrArg (fun l => l[i]?) hkey
      simpa [List.getElem?_eq_getElem hi1, List.getElem?_eq_getElem hi2] using this
    refine Prod.ext hki ?_
    simp only
    obtain ⟨up, dw, hup, hdw, -, hs1, hperm⟩ := h3 _ (List.getElem_mem hi1)
    have hq : (bath[i]).1 ∈ ndindex2 (ek.length + 1) (ek.length + 1) := h2 ▸ List.mem_map.mpr ⟨_, List.getElem_mem hi1, rfl⟩
    obtain ⟨⟨⟨p, q⟩, sb⟩, hb⟩ : ∃ x, x = bath[i] := ⟨_, rfl⟩
    obtain ⟨⟨⟨p', q'⟩, se⟩, hse⟩ : ∃ x, x = es[i] := ⟨_, rfl⟩
    rw [← hb, ← hse] at hki
    obtain ⟨rfl, rfl⟩ : p = p' ∧ q = q' := by simpa using hki
    rw [← hb] at hup hdw hs1 hperm hq ⊢
    rw [← hse]
    simp only at hup hdw hs1 hperm hq ⊢
    rw [mem_ndindex2] at hq
    simp only at hq
    have hmem : ((p, q), se) ∈ es := hse ▸ List.getElem_mem hi2
    obtain ⟨s, hget, hs2, hlev⟩ := C158_levels ha hw hf h (hB false) (hB true) (u := p) (d := q) (by omega) (by omega)
    rw [dictGet_mem (buildEspace_eigen ha hw h).toCompleteEspace.nodup hmem] at hget
    obtain rfl := Except.ok.inj hget
    refine List.Perm.eq_of_pairwise (fun x y _ _ h1 h2 => le_antisymm h1 h2) hs1 hs2 (hperm.trans ?_)
    rw [← Multiset.coe_eq_coe, hlev]
    ext x
    have : ((((dw.flatMap fun d => up.map fun u => levelSum ek u + levelSum ek d : List ℝ) : Multiset ℝ).count x : ℕ) : ℝ) =
        (((Finset.powersetCard p (Finset.univ : Finset (Fin a.n)) ×ˢ Finset.powersetCard q (Finset.univ : Finset (Fin a.n))).val.map fun P : Finset (Fin a.n) × Finset (Fin a.n) =>
          ∑ l ∈ P.1, ek[(l : ℕ)]?.getD 0 + ∑ l ∈ P.2, ek[(l : ℕ)]?.getD 0).count x : ℕ) := by
      rw [← sum_indicator, ← sum_indicator, Multiset.map_map, Multiset.map_coe, Multiset.sum_coe, sum_flat, sum_sector h32 hw' (by omega) hdw]
      simp only [sum_sector h32 hw' (show p ≤ ek.length by omega) hup, levelSum_occF ek hn]
      rw [← hn]
      rw [sum_occF a.n q fun T => ∑ u ∈ (Finset.range (2 ^ a.n)).filter (fun s => (occ s).card = p),
        if ∑ l ∈ occF a.n u, ek[(l : ℕ)]?.getD 0 + ∑ l ∈ T, ek[(l : ℕ)]?.getD 0 = x then (1 : ℝ) else 0]
      rw [Finset.sum_congr rfl fun (T : Finset (Fin a.n)) _ => sum_occF a.n p fun S => if ∑ l ∈ S, ek[(l : ℕ)]?.getD 0 + ∑ l ∈ T, ek[(l : ℕ)]?.getD 0 = x then (1 : ℝ) else 0]
      rw [Finset.sum_comm, ← Finset.sum_product']
      rfl
    exact_mod_cast this

/-! ## Entropy -/

/-- Sums over all energies. -/
theorem flat_sum {n : ℕ} {es : Espace (ℕ × ℕ)} (h : CompleteEspace n es) (F : ℝ → ℝ) : ((es.flatMap fun p => p.2.eigvals).map F).sum = ∑ x, F (esVal n es x) := by
  have h1 := sum_sigma_sectors n (fun q k => F ((sctAt es q).eigvals[k]?.getD 0))
  have h2 : (∑ x, F (esVal n es x)) = ∑ x : EigIdx n, F ((sctAt es ((x.1.1 : ℕ), (x.1.2 : ℕ))).eigvals[(x.2 : ℕ)]?.getD 0) := rfl
  rw [h2, h1, ← (h.keys.map _).sum_eq, List.map_map]
  have h3 : ((es.flatMap fun p => p.2.eigvals).map F).sum = (es.map fun p => (p.2.eigvals.map F).sum).sum := by
    generalize (es : List ((ℕ × ℕ) × Sct)) = l
    induction l with
    | nil => rfl
    | cons p l ih => simp only [List.flatMap_cons, List.map_append, List.sum_append, List.map_cons, List.sum_cons, ih]
  rw [h3]
  congr 1
  apply List.map_congr_left
  intro p hp
  have hk := mem_ndindex2.mp (h.keys.mem_iff.mp (List.mem_map.mpr ⟨p, hp, rfl⟩))
  obtain ⟨up, dw, hmem, hget, -, -, -, hl⟩ := h.at (u := p.1.1) (d := p.1.2) (by omega) (by omega)
  have hs : sctAt es p.1 = p.2 := by unfold sctAt; rw [dictGet_mem h.nodup (show (p.1, p.2) ∈ es from hp)]
  have hs' : sctAt es (p.1.1, p.1.2) = p.2 := hs
  rw [hs'] at hl
  simp only [Function.comp, hs]
  rw [← hl, ← sum_map_range]
  congr 1
  apply List.ext_getElem
  · simp
  · intro i h3 h4
    simp only [List.length_map] at h3
    simp [List.getElem?_eq_getElem h3]

/-- The sums of the levels of a list, by the bits of a number or by a subset. -/
theorem sum_levels_powerset {μ : Type} [DecidableEq μ] (ε : μ → ℝ) (F : ℝ → ℝ) : ∀ (L : List μ), L.Nodup →
    ∑ S ∈ L.toFinset.powerset, F (∑ l ∈ S, ε l) = ∑ u ∈ Finset.range (2 ^ (L.map ε).length), F (levelSum (L.map ε) u) := by
  intro L
  induction L generalizing F with
  | nil => intro _; simp [levelSum]
  | cons a L ih =>
    intro hL
    rw [List.nodup_cons] at hL
    rw [List.map_cons, sum_levels_cons, List.toFinset_cons, Finset.sum_powerset_insert (by simpa using hL.1), Finset.sum_add_distrib, ← ih F hL.2, ← ih (fun y => F (ε a + y)) hL.2]
    congr 1
    refine Finset.sum_congr rfl fun S hS => ?_
    rw [Finset.sum_insert fun haS => hL.1 (by simpa using Finset.mem_powerset.mp hS haS)]

/-- **C158** Without interaction the entropy from `get_entropy` is that of independent Fermi levels: those of the whole one-body matrix, less those of the bath. -/
theorem C158_entropy (ha : a.Valid) (hw : a.n ≤ w) (hf : a.Free) (h : BuildEspace w a none (.ok (es, e0))) {μ ν : Type} [Fintype μ] [DecidableEq μ] [Fintype ν] [DecidableEq ν]
    {φu : μ → Fin a.n → ℝ} {φd : ν → Fin a.n → ℝ} {εu : μ → ℝ} {εd : ν → ℝ} (hu : EigBasis (a.oneBody false) φu εu) (hd : EigBasis (a.oneBody true) φd εd)
    (kB β egs : ℝ) (hk : kB * β ≠ 0) {w' : ℕ} (junk : ℕ → ℕ → ℕ) (fresh : ℕ → ℝ) (ek : List ℝ) (h64 : ek.length * ek.length ≤ 64) (hw' : ek.length ≤ w') :
    getEntropy kB w' junk fresh ek es egs β = .ok (kB * (∑ l, levelEntropy (fermiOcc β (εu l)) + ∑ l, levelEntropy (fermiOcc β (εd l))) -
      kB * (2 * (ek.map fun e => levelEntropy (fermiOcc β e)).sum)) := by
  have he := buildEspace_eigen ha hw h
  have hflat : ∀ F : ℝ → ℝ, ((es.flatMap fun p => p.2.eigvals).map F).sum = ∑ p : Finset μ × Finset ν, F (∑ l ∈ p.1, εu l + ∑ l ∈ p.2, εd l) := by
    intro F
    rw [flat_sum he.toCompleteEspace F]
    rw [hf.ham] at he
    exact free_sum (t := fun s i j => a.oneBody s i j) hu hd he fun _ => F
  have hl : (es.flatMap fun p => p.2.eigvals) ≠ [] := by
    intro h0
    have := hflat fun _ => 1
    rw [h0] at this
    simp at this
  rw [C64_impurity_entropy kB β egs hk w' junk fresh ek h64 hw' es hl]
  congr 3
  rw [shannon_boltzmann β hl, hflat, hflat]
  obtain ⟨hZu, hSu⟩ := level_entropies β ((Finset.univ : Finset μ).toList.map εu)
  obtain ⟨hZd, hSd⟩ := level_entropies β ((Finset.univ : Finset ν).toList.map εd)
  have cu : ∀ F : ℝ → ℝ, ∑ S : Finset μ, F (∑ l ∈ S, εu l) = ∑ u ∈ Finset.range (2 ^ ((Finset.univ : Finset μ).toList.map εu).length), F (levelSum ((Finset.univ : Finset μ).toList.map εu) u) := by
    intro F
    rw [← sum_levels_powerset εu F _ (Finset.nodup_toList _), Finset.toList_toFinset, Finset.powerset_univ]
  have cd : ∀ F : ℝ → ℝ, ∑ S : Finset ν, F (∑ l ∈ S, εd l) = ∑ u ∈ Finset.range (2 ^ ((Finset.univ : Finset ν).toList.map εd).length), F (levelSum ((Finset.univ : Finset ν).toList.map εd) u) := by
    intro F
    rw [← sum_levels_powerset εd F _ (Finset.nodup_toList _), Finset.toList_toFinset, Finset.powerset_univ]
  rw [← cu fun y => Real.exp (-(β * y)), ← cu fun y => y * Real.exp (-(β * y)), List.map_map, Finset.sum_map_toList] at hSu
  rw [← cd fun y => Real.exp (-(β * y)), ← cd fun y => y * Real.exp (-(β * y)), List.map_map, Finset.sum_map_toList] at hSd
  rw [← cu fun y => Real.exp (-(β * y))] at hZu
  rw [← cd fun y => Real.exp (-(β * y))] at hZd
  simp only [Function.comp_def] at hSu hSd
  rw [← hSu, ← hSd, Fintype.sum_prod_type, Fintype.sum_prod_type]
  have e1 : ∑ x : Finset μ, ∑ y : Finset ν, Real.exp (-(β * (∑ l ∈ x, εu l + ∑ l ∈ y, εd l))) =
      (∑ x : Finset μ, Real.exp (-(β * ∑ l ∈ x, εu l))) * ∑ y : Finset ν, Real.exp (-(β * ∑ l ∈ y, εd l)) := by
    rw [Finset.sum_mul_sum]
    exact Finset.sum_congr rfl fun x _ => Finset.sum_congr rfl fun y _ => by rw [← Real.exp_add]; congr 1; ring
  have e2 : ∑ x : Finset μ, ∑ y : Finset ν, (∑ l ∈ x, εu l + ∑ l ∈ y, εd l) * Real.exp (-(β * (∑ l ∈ x, εu l + ∑ l ∈ y, εd l))) =
      (∑ x : Finset μ, (∑ l ∈ x, εu l) * Real.exp (-(β * ∑ l ∈ x, εu l))) * (∑ y : Finset ν, Real.exp (-(β * ∑ l ∈ y, εd l))) +
      (∑ x : Finset μ, Real.exp (-(β * ∑ l ∈ x, εu l))) * ∑ y : Finset ν, (∑ l ∈ y, εd l) * Real.exp (-(β * ∑ l ∈ y, εd l)) := by
    rw [Finset.sum_mul_sum, Finset.sum_mul_sum, ← Finset.sum_add_distrib]
    refine Finset.sum_congr rfl fun x _ => ?_
    rw [← Finset.sum_add_distrib]
    refine Finset.sum_congr rfl fun y _ => ?_
    rw [show -(β * (∑ l ∈ x, εu l + ∑ l ∈ y, εd l)) = -(β * ∑ l ∈ x, εu l) + -(β * ∑ l ∈ y, εd l) by ring, Real.exp_add]
    ring
  rw [e1, e2, Real.log_mul hZu.ne' hZd.ne']
  field_simp
  ring

/-! ## Examples -/

/-- Runs of `build_espace` on the two coupled sites. -/
theorem freeArgs_run : ∃ es e0, BuildEspace 64 freeArgs none (.ok (es, e0)) := by
  obtain ⟨l, hl, hlb⟩ := C25_default_neig freeArgs.n
  obtain ⟨⟨⟨es, e0⟩, h⟩, -⟩ := C25_build_espace_partial freeArgs_valid (w := 64) (by simp [freeArgs]) l hlb
  refine ⟨es, e0, ?_⟩
  simp only [BuildEspace, hl]
  simpa only [BuildEspace, neigOrDefault] using h

/-- Non-vacuity: two sites with hopping 1 have the levels `±1`; one electron of each spin has the energies `-2, 0, 0, 2`, and the ground state has `-2`. -/
example : ∃ es s, BuildEspace 64 freeArgs none (.ok (es, ((-2 : ℝ) : WithTop ℝ))) ∧ dictGet es (1, 1) = .ok s ∧ s.eigvals = [-2, 0, 0, 2] := by
  obtain ⟨es, e0, h⟩ := freeArgs_run
  have he := C158_ground freeArgs_valid (by simp [freeArgs]) freeArgs_free h (freeArgs_basis false) (freeArgs_basis true)
  obtain ⟨s, h1, h2, h3⟩ := C158_levels freeArgs_valid (by simp [freeArgs]) freeArgs_free h (freeArgs_basis false) (freeArgs_basis true) (u := 1) (d := 1) (by simp [freeArgs]) (by simp [freeArgs])
  refine ⟨es, s, ?_, h1, ?_⟩
  · rw [he] at h
    rw [Fin.sum_univ_two] at h
    norm_num at h
    exact h
  · have hp : (Finset.powersetCard 1 (Finset.univ : Finset (Fin 2))) = {{0}, {1}} := by decide
    rw [hp] at h3
    have h4 : (s.eigvals : Multiset ℝ) = ([-2, 0, 0, 2] : List ℝ) := by
      rw [h3]
      have : (({{0}, {1}} : Finset (Finset (Fin 2))) ×ˢ ({{0}, {1}} : Finset (Finset (Fin 2)))).val = {({0}, {0}), ({0}, {1}), ({1}, {0}), ({1}, {1})} := by decide
      rw [this]
      simp only [Multiset.insert_eq_cons, Multiset.map_cons, Multiset.map_singleton, Finset.sum_singleton, Matrix.cons_val_zero, Matrix.cons_val_one]
      norm_num
      rw [Multiset.coe_eq_coe.mpr (show ([2, 0, 0, -2] : List ℝ).Perm [-2, 0, 0, 2] by
        refine (List.reverse_perm _).symm.trans ?_
        simp) |>.symm]
      rfl
    exact List.Perm.eq_of_pairwise (fun x y _ _ h1 h2 => le_antisymm h1 h2) h2 (by norm_num) (Multiset.coe_eq_coe.mp h4)

/-- Two uncoupled sites. -/
noncomputable def diagArgs : HamArgs := { freeArgs with H := fun _ i j => if i = j then (if i = 0 then -1 else 2) else 0 }

theorem diagArgs_valid : diagArgs.Valid :=
  { freeArgs_valid with
    symmH := fun s i j _ _ => by
      simp only [diagArgs, eq_comm (a := j) (b := i)]
      split
      · rename_i h; rw [h]
      · rfl }

/-- Non-vacuity: the bath levels `-1, 2`. -/
example : ∃ es bath, BuildEspace 64 diagArgs none (.ok (es, ((-2 : ℝ) : WithTop ℝ))) ∧ buildNonInteracting 64 (fun _ _ => 7) (fun _ => 13) [-1, 2] = .ok (bath, ((-2 : ℝ) : WithTop ℝ)) ∧
    bath.map (fun p => (p.1, p.2.eigvals)) = es.map (fun p => (p.1, p.2.eigvals)) := by
  obtain ⟨l, hl, hlb⟩ := C25_default_neig diagArgs.n
  obtain ⟨⟨⟨es, e0⟩, h0⟩, -⟩ := C25_build_espace_partial diagArgs_valid (w := 64) (by simp [diagArgs, freeArgs]) l hlb
  have h : BuildEspace 64 diagArgs none (.ok (es, e0)) := by
    simp only [BuildEspace, hl]
    simpa only [BuildEspace, neigOrDefault] using h0
  have hd : ∀ i j : Fin 2, kept (n := 2) (0 : ℝ) (fun i j => if i = j then (if i = 0 then -1 else 2) else 0) i j = if i = j then ([-1, 2] : List ℝ)[(i : ℕ)]?.getD 0 else 0 := by
    intro i j
    rw [kept_apply]
    fin_cases i <;> fin_cases j <;> norm_num
  obtain ⟨bath, h1, h2⟩ := C158_bath diagArgs_valid (by simp [diagArgs, freeArgs]) ⟨fun _ _ _ _ => rfl, rfl, rfl⟩ h [-1, 2] rfl (fun s i j => hd i j) (by simp) (w' := 64) (by simp) (fun _ _ => 7) (fun _ => 13)
  obtain ⟨b', h3, -⟩ := C33_non_interacting 64 (fun _ _ => 7) (fun _ => 13) [-1, 2] (by simp) (by simp)
  have he : e0 = ((-2 : ℝ) : WithTop ℝ) := by
    rw [h1] at h3
    have := (Prod.mk.inj (Except.ok.inj h3)).2
    rw [this]
    norm_num
  subst he
  exact ⟨es, bath, h, h1, h2⟩

end Edpyt
