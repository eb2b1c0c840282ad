import Verif.Proof.Perron
import Verif.Props.MinMax
import Verif.Props.SpinMultiplet
import Verif.Props.Moment
import Verif.Props.GreenStable
/-!
C199: ground states of clusters on which electrons of one spin never exchange places (chains; two electrons of opposite spin anywhere).
-/
namespace Edpyt
open Spec Matrix

variable {a : HamArgs} {w p q : ℕ} {es : Espace (ℕ × ℕ)} {egs : WithTop ℝ} {I J : Sct}

theorem kept_ne {s : Bool} {i j : Fin a.n} (hij : i ≠ j) (h : kept (n := a.n) a.mu (a.H (if s then 1 else 0)) i j ≠ 0) :
    KeptHop a s i j ∧ kept (n := a.n) a.mu (a.H (if s then 1 else 0)) i j = a.H (if s then 1 else 0) i j := by
  rw [kept_apply, if_neg hij] at h ⊢
  by_cases h1 : |a.H (if s then 1 else 0) i j| > 1 / 10 ^ 7
  · rw [if_pos h1]; exact ⟨⟨fun hh => hij (Fin.ext hh), h1⟩, rfl⟩
  · rw [if_neg h1] at h; exact absurd rfl h

theorem kept_of_hop {s : Bool} {i j : Fin a.n} (h : KeptHop a s i j) : kept (n := a.n) a.mu (a.H (if s then 1 else 0)) i j ≠ 0 := by
  rw [kept_apply, if_neg fun hh => h.1 (by rw [hh]), if_pos h.2]
  intro h0
  have := h.2
  rw [h0] at this
  norm_num at this

/-- The orbital signs that make the hops of an open chain negative. -/
noncomputable def chainSign (t : ℕ → ℕ → ℝ) : ℕ → ℝ
  | 0 => 1
  | i + 1 => chainSign t i * if t i (i + 1) < 0 then 1 else -1

theorem chainSign_sign (t : ℕ → ℕ → ℝ) (i : ℕ) : chainSign t i = 1 ∨ chainSign t i = -1 := by
  induction i with
  | zero => left; rfl
  | succ i ih =>
    unfold chainSign
    rcases ih with h | h <;> rw [h] <;> split_ifs <;> norm_num

theorem chainSign_neg {t : ℕ → ℕ → ℝ} {i : ℕ} (h : t i (i + 1) ≠ 0) : chainSign t i * t i (i + 1) * chainSign t (i + 1) < 0 := by
  have h1 : chainSign t i * chainSign t i = 1 := by rcases chainSign_sign t i with h | h <;> rw [h] <;> norm_num
  have e : chainSign t i * t i (i + 1) * chainSign t (i + 1) = (chainSign t i * chainSign t i) * (t i (i + 1) * if t i (i + 1) < 0 then 1 else -1) := by
    rw [show chainSign t (i + 1) = chainSign t i * if t i (i + 1) < 0 then 1 else -1 from rfl]; ring
  rw [e, h1, one_mul]
  split_ifs with hc
  · linarith
  · have : 0 < t i (i + 1) := lt_of_le_of_ne (not_lt.mp hc) h.symm
    linarith

theorem openChain_unfrustrated (ha : a.Valid) {s : Bool} (h : OpenChain a s) : Unfrustrated a s := by
  refine ⟨chainSign (a.H (if s then 1 else 0)), chainSign_sign _, fun i j hi hj hk => ?_⟩
  have hne : ∀ {k l : ℕ}, KeptHop a s k l → a.H (if s then 1 else 0) k l ≠ 0 := fun {k l} hk h0 => by
    have := hk.2
    rw [h0] at this
    norm_num at this
  rcases (h i j hi hj).mp hk with rfl | rfl
  · exact chainSign_neg (hne hk)
  · have := chainSign_neg (t := a.H (if s then 1 else 0)) (i := j) (by rw [ha.symmH _ _ _ hj hi]; exact hne hk)
    rw [ha.symmH _ _ _ hi hj]
    linarith

theorem orderly_noPass (ha : a.Valid) {s : Bool} (h : Orderly a s p) : ∃ σ : Fin a.n → ℝ, (∀ i, σ i = 1 ∨ σ i = -1) ∧
    NoPass (kept (n := a.n) a.mu (a.H (if s then 1 else 0))) σ p ∧ Reach (kept (n := a.n) a.mu (a.H (if s then 1 else 0))) p := by
  have hsym : ∀ i j : Fin a.n, kept (n := a.n) a.mu (a.H (if s then 1 else 0)) i j = kept (n := a.n) a.mu (a.H (if s then 1 else 0)) j i := fun i j => by
    rw [kept_apply, kept_apply, ha.symmH _ j i j.2 i.2]
    by_cases hij : i = j
    · rw [if_pos hij, if_pos hij.symm, hij]
    · rw [if_neg hij, if_neg (Ne.symm hij)]
  rcases h with rfl | rfl | h | ⟨rfl, hc, σ, hσ, hneg⟩
  · refine ⟨fun _ => 1, fun _ => Or.inl rfl, fun A hA i j hj => ?_, reach_zero⟩
    rw [Finset.card_eq_zero.mp hA] at hj
    exact absurd hj (Finset.notMem_empty _)
  · refine ⟨fun _ => 1, fun _ => Or.inl rfl, fun A hA i j _ hi => absurd ?_ hi, reach_full⟩
    rw [(Finset.card_eq_iff_eq_univ A).mp (by rw [hA, Fintype.card_fin])]
    exact Finset.mem_univ _
  · obtain ⟨σ, hσ, hneg⟩ := openChain_unfrustrated ha h
    refine ⟨fun i => σ i, fun i => hσ i, fun A _ i j hj hi ht => ?_, reach_chain (fun i j hij => kept_of_hop ((h i j i.2 j.2).mpr (Or.inl hij))) hsym p⟩
    obtain ⟨h1, h2⟩ := kept_ne (s := s) (fun hh : i = j => hi (by rw [hh]; exact hj)) ht
    rw [h2]
    refine ⟨hneg i j i.2 j.2 h1, fun m _ => ?_⟩
    have := (h i j i.2 j.2).mp h1
    simp only [Fin.lt_def]
    omega
  · refine ⟨fun i => σ i, fun i => hσ i, fun A hA i j hj hi ht => ?_, reach_one (fun i j => ?_) hsym⟩
    · obtain ⟨h1, h2⟩ := kept_ne (s := s) (fun hh : i = j => hi (by rw [hh]; exact hj)) ht
      rw [h2]
      refine ⟨hneg i j i.2 j.2 h1, fun m hm => ?_⟩
      obtain ⟨k, rfl⟩ := Finset.card_eq_one.mp hA
      rw [Finset.mem_singleton] at hj hm
      subst hj hm
      exact ⟨fun hh => lt_irrefl _ hh.2, fun hh => lt_irrefl _ hh.1⟩
    · have key : ∀ l : ℕ, Relation.ReflTransGen (fun k l => k < a.n ∧ l < a.n ∧ KeptHop a s k l) (i : ℕ) l → ∀ hl : l < a.n,
          Relation.ReflTransGen (fun k l : Fin a.n => kept (n := a.n) a.mu (a.H (if s then 1 else 0)) k l ≠ 0 ∧ k ≠ l) i ⟨l, hl⟩ := fun l hr => by
        induction hr with
        | refl => exact fun _ => .refl
        | tail _ hkl ih => exact fun hl => (ih hkl.1).tail ⟨kept_of_hop hkl.2.2, fun hh => hkl.2.2.1 (congrArg Fin.val hh)⟩
      exact key j (hc i j i.2 j.2) j.2

theorem ham_offdiag (hx : a.V.Jx = none) (hp : a.V.Jp = none) {T S : Finset (Fin (a.n + a.n))} (hTS : T ≠ S) :
    a.ham T S = oneHop (kept (n := a.n) a.mu (a.H 0)) (upPart T) (upPart S) * (if dwPart T = dwPart S then 1 else 0) +
      (if upPart T = upPart S then 1 else 0) * oneHop (kept (n := a.n) a.mu (a.H 1)) (dwPart T) (dwPart S) := by
  unfold HamArgs.ham hubbard
  rw [hx, hp, codeExchange_none, add_zero, onsiteU_diagonal, interSite_diagonal, Matrix.add_apply, Matrix.add_apply, Matrix.diagonal_apply_ne _ hTS,
    Matrix.diagonal_apply_ne _ hTS, add_zero, add_zero]
  unfold kinetic oneHop
  rw [Fintype.sum_bool]
  simp only [hop_up, hop_dw, Bool.false_eq_true, if_false, if_true, Matrix.add_apply, Matrix.sum_apply, Matrix.smul_apply, lift2_apply, Matrix.one_apply, Finset.sum_mul,
    Finset.mul_sum, smul_eq_mul]
  rw [add_comm]
  congr 1
  · exact Finset.sum_congr rfl fun i _ => Finset.sum_congr rfl fun j _ => by ring
  · exact Finset.sum_congr rfl fun i _ => Finset.sum_congr rfl fun j _ => by ring

theorem spinCount_parts {n : ℕ} (S : Finset (Fin (n + n))) (p q : ℕ) :
    (spinCount false S = p ∧ spinCount true S = q) ↔ (upPart S).card = p ∧ (dwPart S).card = q := by
  unfold spinCount
  simp

/-- A vector of a sector with orderly electrons, of lowest mean energy, that vanishes at one configuration vanishes altogether. -/
theorem orderly_zero (ha : a.Valid) (hw : a.n ≤ w) (hx : a.V.Jx = none) (hp : a.V.Jp = none) (h : BuildEspace w a none (.ok (es, egs))) (hI : ((p, q), I) ∈ es)
    (hu : Orderly a false p) (hd : Orderly a true q) (h0 : 0 < I.eigvals.length) {x : Finset (Fin (a.n + a.n)) → ℝ} (hxs : SectorVec a.n p q x)
    (hE : x ⬝ᵥ a.ham *ᵥ x ≤ I.eigvals[0] * (x ⬝ᵥ x)) {S : Finset (Fin (a.n + a.n))} (hS : spinCount false S = p ∧ spinCount true S = q) (hz : x S = 0) : x = 0 := by
  obtain ⟨σ, hσ, hn, hr⟩ := orderly_noPass ha hu
  obtain ⟨τ, hτ, hn', hr'⟩ := orderly_noPass ha hd
  simp only [Bool.false_eq_true, if_false, if_true] at hn hr hn' hr'
  refine perron_zero (P := fun S => spinCount false S = p ∧ spinCount true S = q) (ε := fun S => epsOf σ (upPart S) * epsOf τ (dwPart S)) (ham_symm ha) (fun S => ?_)
    (fun S T hS hT hne => ?_) (fun Z hZ S T hS hT hZS => ?_) (fun x hx => ?_) hxs hE hS hz
  · rcases epsOf_sign hσ (upPart S) with h1 | h1 <;> rcases epsOf_sign hτ (dwPart S) with h2 | h2 <;> rw [h1, h2] <;> norm_num
  · rw [spinCount_parts] at hS hT
    rw [ham_offdiag hx hp hne]
    have s1 : ∀ A, epsOf σ A * epsOf σ A = 1 := fun A => by rcases epsOf_sign hσ A with h | h <;> rw [h] <;> norm_num
    have s2 : ∀ A, epsOf τ A * epsOf τ A = 1 := fun A => by rcases epsOf_sign hτ A with h | h <;> rw [h] <;> norm_num
    by_cases e1 : dwPart S = dwPart T
    · have e2 : upPart S ≠ upPart T := fun e2 => hne (ext2 e2 e1)
      rw [if_pos e1, if_neg e2, zero_mul, add_zero, mul_one, e1]
      calc _ = epsOf σ (upPart S) * oneHop (kept (n := a.n) a.mu (a.H 0)) (upPart S) (upPart T) * epsOf σ (upPart T) * (epsOf τ (dwPart T) * epsOf τ (dwPart T)) := by ring
        _ ≤ 0 := by rw [s2, mul_one]; exact oneHop_nonpos hσ hn hT.1 e2
    · rw [if_neg e1, mul_zero, zero_add]
      by_cases e2 : upPart S = upPart T
      · rw [if_pos e2, one_mul, e2]
        calc _ = epsOf τ (dwPart S) * oneHop (kept (n := a.n) a.mu (a.H 1)) (dwPart S) (dwPart T) * epsOf τ (dwPart T) * (epsOf σ (upPart T) * epsOf σ (upPart T)) := by ring
          _ ≤ 0 := by rw [s1, mul_one]; exact oneHop_nonpos hτ hn' hT.2 e1
      · rw [if_neg e2, zero_mul, mul_zero, zero_mul]
  · rw [spinCount_parts] at hS hT
    have hsymm : ∀ S T, a.ham S T = a.ham T S := fun S T => congrFun (congrFun (ham_symm ha) T) S
    have h1 := hr (fun A => A.card = p → Z (join A (dwPart S))) (fun A hA i j hj hi ht hZA hc => by
      refine hZ (join A (dwPart S)) _ ?_ ?_ ?_ ?_ (hZA hA)
      · rw [spinCount_parts, upPart_join, dwPart_join]; exact ⟨hA, hS.2⟩
      · rw [spinCount_parts, upPart_join, dwPart_join]; exact ⟨hc, hS.2⟩
      · intro hh
        have := congrArg upPart hh
        rw [upPart_join, upPart_join] at this
        exact hi (this ▸ Finset.mem_insert_self _ _)
      · have hne : join (insert i (A.erase j)) (dwPart S) ≠ join A (dwPart S) := fun hh => by
          have := congrArg upPart hh
          rw [upPart_join, upPart_join] at this
          exact hi (this ▸ Finset.mem_insert_self _ _)
        rw [hsymm, ham_offdiag hx hp hne, upPart_join, upPart_join, dwPart_join, dwPart_join, if_pos rfl, if_neg fun hh : insert i (A.erase j) = A => hi (hh ▸ Finset.mem_insert_self _ _), mul_one,
          zero_mul, add_zero]
        exact oneHop_ne hσ hn hA hj hi ht)
      (upPart S) (upPart T) hS.1 hT.1 (fun _ => by rw [join_parts]; exact hZS) hT.1
    have h2 := hr' (fun A => A.card = q → Z (join (upPart T) A)) (fun A hA i j hj hi ht hZA hc => by
      have hne : join (upPart T) (insert i (A.erase j)) ≠ join (upPart T) A := fun hh => by
        have := congrArg dwPart hh
        rw [dwPart_join, dwPart_join] at this
        exact hi (this ▸ Finset.mem_insert_self _ _)
      refine hZ (join (upPart T) A) _ ?_ ?_ hne.symm ?_ (hZA hA)
      · rw [spinCount_parts, upPart_join, dwPart_join]; exact ⟨hT.1, hA⟩
      · rw [spinCount_parts, upPart_join, dwPart_join]; exact ⟨hT.1, hc⟩
      · rw [hsymm, ham_offdiag hx hp hne, upPart_join, upPart_join, dwPart_join, dwPart_join, if_pos rfl, if_neg fun hh : insert i (A.erase j) = A => hi (hh ▸ Finset.mem_insert_self _ _), mul_zero,
          zero_add, one_mul]
        exact oneHop_ne hτ hn' hA hj hi ht)
      (dwPart S) (dwPart T) hS.2 hT.2 (fun _ => h1) hT.2
    rwa [join_parts] at h2
  · by_cases hx0 : x = 0
    · rw [hx0]; simp
    have hpos : 0 < x ⬝ᵥ x := lt_of_le_of_ne (Finset.sum_nonneg fun S _ => mul_self_nonneg _) fun hh => hx0 (dotProduct_self_eq_zero.mp hh.symm)
    have hl : LowSpace a.n p q a.ham 1 (x ⬝ᵥ a.ham *ᵥ x / (x ⬝ᵥ x)) := ⟨fun _ => x, LinearIndependent.of_subsingleton (0 : Fin 1) hx0, fun _ => hx, fun c => by
      rw [Fin.sum_univ_one, Matrix.mulVec_smul, smul_dotProduct, dotProduct_smul, smul_dotProduct, dotProduct_smul]
      simp only [smul_eq_mul]
      have : x ⬝ᵥ a.ham *ᵥ x / (x ⬝ᵥ x) * (x ⬝ᵥ x) = x ⬝ᵥ a.ham *ᵥ x := div_mul_cancel₀ _ hpos.ne'
      rw [show x ⬝ᵥ a.ham *ᵥ x / (x ⬝ᵥ x) * (c 0 * (c 0 * (x ⬝ᵥ x))) = c 0 * (c 0 * (x ⬝ᵥ a.ham *ᵥ x / (x ⬝ᵥ x) * (x ⬝ᵥ x))) by ring, this]⟩
    have := (C197_minmax ha hw h hI h0 _).mpr hl
    rwa [le_div_iff₀ hpos] at this

/-- **C199** If neither the up nor the down electrons ever exchange places, the lowest level of their sector is listed once. -/
theorem C199_unique (ha : a.Valid) (hw : a.n ≤ w) (hx : a.V.Jx = none) (hp : a.V.Jp = none) (h : BuildEspace w a none (.ok (es, egs))) (hI : ((p, q), I) ∈ es)
    (hu : Orderly a false p) (hd : Orderly a true q) (h1 : 1 < I.eigvals.length) : I.eigvals[0] < I.eigvals[1] := by
  by_contra hc
  obtain ⟨v, hv, hs, hE⟩ := (C197_minmax ha hw h hI h1 I.eigvals[0]).mp (not_lt.mp hc)
  obtain ⟨-, hp', hq'⟩ := sctAt_of_mem (buildEspace_eigen ha hw h) hI
  obtain ⟨U, -, hU⟩ := Finset.exists_subset_card_eq (s := (Finset.univ : Finset (Fin a.n))) (n := p) (by rw [Finset.card_univ, Fintype.card_fin]; exact hp')
  obtain ⟨D, -, hD⟩ := Finset.exists_subset_card_eq (s := (Finset.univ : Finset (Fin a.n))) (n := q) (by rw [Finset.card_univ, Fintype.card_fin]; exact hq')
  have hS : spinCount false (join U D) = p ∧ spinCount true (join U D) = q := by rw [spinCount_parts, upPart_join, dwPart_join]; exact ⟨hU, hD⟩
  have hsec : ∀ c : Fin 2 → ℝ, SectorVec a.n p q (∑ i, c i • v i) := fun c S hne => by
    by_contra hn
    refine hne ?_
    rw [Finset.sum_apply]
    exact Finset.sum_eq_zero fun i _ => by
      rw [Pi.smul_apply, show v i S = 0 by by_contra hh; exact hn (hs i S hh), smul_zero]
  have hz := orderly_zero ha hw hx hp h hI hu hd (by omega) (hsec ![v 1 (join U D), -v 0 (join U D)]) (hE _) hS (by
    rw [Finset.sum_apply, Fin.sum_univ_two]
    simp
    ring)
  have hli := Fintype.linearIndependent_iff.mp hv _ hz
  have a0 : v 1 (join U D) = 0 := by simpa using hli 0
  have hv1 := orderly_zero ha hw hx hp h hI hu hd (by omega) (hs 1) (by
    have := hE ![0, 1]
    simpa [Fin.sum_univ_two] using this) hS a0
  exact hv.ne_zero 1 hv1

/-- **C199** The stored lowest state of such a sector has an amplitude on every configuration. -/
theorem C199_amplitudes (ha : a.Valid) (hw : a.n ≤ w) (hx : a.V.Jx = none) (hp : a.V.Jp = none) (h : BuildEspace w a none (.ok (es, egs))) (hI : ((p, q), I) ∈ es)
    (hu : Orderly a false p) (hd : Orderly a true q) {S : Finset (Fin (a.n + a.n))} (hup : spinCount false S = p) (hdw : spinCount true S = q) : I.ket a.n 0 S ≠ 0 := by
  have hes := buildEspace_eigen ha hw h
  obtain ⟨e, hp', hq'⟩ := sctAt_of_mem hes hI
  obtain ⟨up, dw, -, -, -, -, -, hlen⟩ := hes.toCompleteEspace.at hp' hq'
  have hpos : 0 < a.n.choose p * a.n.choose q := Nat.mul_pos (Nat.choose_pos hp') (Nat.choose_pos hq')
  rw [e] at hlen
  have hk : 0 < I.eigvals.length := by rw [hlen]; exact hpos
  have hket : esKet a.n es (lvIdx hp' hq' ⟨0, hpos⟩) = I.ket a.n 0 := by unfold esKet lvIdx; simp only [e]
  have heig := hes.eig _ hI 0 hk
  rw [List.getElem?_eq_getElem hk, Option.getD_some] at heig
  intro h0
  have hsec : SectorVec a.n p q (I.ket a.n 0) := fun T hT => by
    rw [← hket] at hT
    exact hes.support _ hT
  have hz := orderly_zero ha hw hx hp h hI hu hd hk hsec (by rw [heig, dotProduct_smul, smul_eq_mul]) ⟨hup, hdw⟩ h0
  have := hes.basis.orth (lvIdx hp' hq' ⟨0, hpos⟩) (lvIdx hp' hq' ⟨0, hpos⟩)
  rw [hket, hz, if_pos rfl] at this
  simp at this

/-- **C199** (Lieb and Mattis) Without a magnetic field and with orderly electrons, turning a further spin up costs energy: the state of lowest energy has
the least possible spin. -/
theorem C199_no_magnet (ha : a.Valid) (hw : a.n ≤ w) (hx : a.V.Jx = none) (hp : a.V.Jp = none) (hs : a.SpinFree) (h : BuildEspace w a none (.ok (es, egs)))
    (hqp : q + 1 ≤ p) (hI : ((p, q + 1), I) ∈ es) (hJ : ((p + 1, q), J) ∈ es) (hu : Orderly a false p) (hd : Orderly a true (q + 1))
    (hI0 : 0 < I.eigvals.length) (hJ0 : 0 < J.eigvals.length) : I.eigvals[0] < J.eigvals[0] := by
  by_contra hc
  have hes := buildEspace_eigen ha hw h
  obtain ⟨eI, hp', hq'⟩ := sctAt_of_mem hes hI
  obtain ⟨e, hp1, hq1⟩ := sctAt_of_mem hes hJ
  have hpos : 0 < a.n.choose (p + 1) * a.n.choose q := Nat.mul_pos (Nat.choose_pos hp1) (Nat.choose_pos hq1)
  set φ := J.ket a.n 0 with hφ
  have hket : esKet a.n es (lvIdx hp1 hq1 ⟨0, hpos⟩) = φ := by unfold esKet lvIdx; simp only [e, hφ]
  have heig := hes.eig _ hJ 0 hJ0
  rw [List.getElem?_eq_getElem hJ0, Option.getD_some] at heig
  have hφs : ∀ T, φ T ≠ 0 → spinCount false T = (p + 1 : ℕ) ∧ spinCount true T = q := fun T hT => by
    rw [← hket] at hT
    exact hes.support _ hT
  have hφ0 : φ ≠ 0 := fun hz => by
    have := hes.basis.orth (lvIdx hp1 hq1 ⟨0, hpos⟩) (lvIdx hp1 hq1 ⟨0, hpos⟩)
    rw [hket, hz, if_pos rfl] at this
    simp at this
  have hcomm : Commute a.ham (spinTurn (n := a.n) false) := ham_spinTurn hs (fun A hA => by rw [hx] at hA; exact absurd hA (by simp)) false
  set y := spinTurn (n := a.n) false *ᵥ φ with hy
  have hyE : a.ham *ᵥ y = J.eigvals[0] • y := by
    rw [hy, Matrix.mulVec_mulVec, hcomm.eq, ← Matrix.mulVec_mulVec, ← Matrix.mulVec_smul]
    exact congrArg _ heig
  have hy0 : y ≠ 0 := fun hz => hφ0 (spinTurn_inj false (fun S hS => (hφs S hS).1) (fun S hS => (hφs S hS).2) (by push_cast; omega) hz)
  have hys : SectorVec a.n p (q + 1) y := fun T hT => by
    by_contra hn
    refine hT ?_
    rw [hy]
    unfold Matrix.mulVec dotProduct
    refine Finset.sum_eq_zero fun S _ => ?_
    by_contra hne
    have g := grade_spinTurn (n := a.n) false T S (left_ne_zero_of_mul hne)
    obtain ⟨b1, b2⟩ := hφs S (right_ne_zero_of_mul hne)
    have g1 := g false
    have g2 := g true
    simp only [if_true, Bool.true_eq_false, if_false] at g1 g2
    exact hn ⟨by rw [g1, b1]; push_cast; ring, by rw [g2, b2]; push_cast; ring⟩
  obtain ⟨U, -, hU⟩ := Finset.exists_subset_card_eq (s := (Finset.univ : Finset (Fin a.n))) (n := p) (by rw [Finset.card_univ, Fintype.card_fin]; exact hp')
  obtain ⟨D, hDU, hD⟩ := Finset.exists_subset_card_eq (s := U) (n := q + 1) (by rw [hU]; exact hqp)
  refine hy0 (orderly_zero ha hw hx hp h hI hu hd hI0 hys ?_ (S := join U D) (by rw [spinCount_parts, upPart_join, dwPart_join]; exact ⟨hU, hD⟩) ?_)
  · rw [hyE, dotProduct_smul, smul_eq_mul]
    exact mul_le_mul_of_nonneg_right (not_lt.mp hc) (Finset.sum_nonneg fun S _ => mul_self_nonneg _)
  · rw [hy]
    unfold Matrix.mulVec dotProduct
    refine Finset.sum_eq_zero fun S _ => ?_
    have : spinTurn (n := a.n) false (join U D) S = 0 := by
      unfold spinTurn
      rw [Matrix.sum_apply]
      refine Finset.sum_eq_zero fun k _ => ?_
      rw [cre_ann_elem, if_neg]
      rintro ⟨h1, h2, h3⟩
      have hk : k ∈ U := hDU (by
        have : k ∈ dwPart (join U D) := by rw [mem_dwPart]; exact h2
        rwa [dwPart_join] at this)
      have h4 : orb false k ∈ (join U D).erase (orb (!false) k) := Finset.mem_erase.mpr ⟨fun hh => by simpa using (orb_inj.mp hh).1, by
        have : k ∈ upPart (join U D) := by rw [upPart_join]; exact hk
        exact mem_upPart.mp this⟩
      rw [h3] at h4
      exact (Finset.mem_erase.mp h4).1 rfl
    exact mul_eq_zero_of_left this _

/-- **C199** On an open chain without a magnetic field every further spin turned up costs energy. -/
theorem C199_chain (ha : a.Valid) (hw : a.n ≤ w) (hx : a.V.Jx = none) (hp : a.V.Jp = none) (hs : a.SpinFree) (h : BuildEspace w a none (.ok (es, egs)))
    (hc : OpenChain a false) {m : ℕ} (hqp : q + (m + 1) ≤ p) (hI : ((p, q + (m + 1)), I) ∈ es) (hJ : ((p + (m + 1), q), J) ∈ es) (hI0 : 0 < I.eigvals.length)
    (hJ0 : 0 < J.eigvals.length) : I.eigvals[0] < J.eigvals[0] := by
  have hc' : OpenChain a true := fun i j hi hj => by
    have := hc i j hi hj
    unfold KeptHop at this ⊢
    simp only [Bool.false_eq_true, if_false, if_true] at this ⊢
    rwa [hs i j hi hj] at this
  have hes := buildEspace_eigen ha hw h
  induction m generalizing q I J with
  | zero => exact C199_no_magnet ha hw hx hp hs h hqp hI hJ (Or.inr (Or.inr (Or.inl hc))) (Or.inr (Or.inr (Or.inl hc'))) hI0 hJ0
  | succ m ih =>
    obtain ⟨-, hpn, hqn⟩ := sctAt_of_mem hes hJ
    obtain ⟨-, -, hK, -, -, -, -, hlen⟩ := hes.toCompleteEspace.at (u := p + (m + 1)) (d := q + 1) (by omega) (by omega)
    have hK0 : 0 < (sctAt es (p + (m + 1), q + 1)).eigvals.length := by
      rw [hlen]; exact Nat.mul_pos (Nat.choose_pos (by omega)) (Nat.choose_pos (by omega))
    refine (ih (q := q + 1) (by omega) ?_ hK hI0 hK0).trans ?_
    · rw [show q + 1 + (m + 1) = q + (m + 1 + 1) by omega]; exact hI
    · exact C199_no_magnet ha hw hx hp hs h (by omega) hK (by rw [show p + (m + 1) + 1 = p + (m + 1 + 1) by omega]; exact hJ) (Or.inr (Or.inr (Or.inl hc)))
        (Or.inr (Or.inr (Or.inl hc'))) hK0 hJ0

/-- **C199** The ground state of two electrons on a connected unfrustrated cluster without a magnetic field is a singlet, whatever the interaction. -/
theorem C199_pair (ha : a.Valid) (hw : a.n ≤ w) (hx : a.V.Jx = none) (hp : a.V.Jp = none) (hs : a.SpinFree) (h : BuildEspace w a none (.ok (es, egs)))
    (hc : Connected a false) (hf : Unfrustrated a false) (hI : ((1, 1), I) ∈ es) (hJ : ((2, 0), J) ∈ es) (hI0 : 0 < I.eigvals.length) (hJ0 : 0 < J.eigvals.length) :
    I.eigvals[0] < J.eigvals[0] := by
  have hk : ∀ i j, i < a.n → j < a.n → (KeptHop a false i j ↔ KeptHop a true i j) := fun i j hi hj => by
    unfold KeptHop
    simp only [Bool.false_eq_true, if_false, if_true]
    rw [hs i j hi hj]
  refine C199_no_magnet ha hw hx hp hs h (q := 0) le_rfl hI hJ (Or.inr (Or.inr (Or.inr ⟨rfl, hc, hf⟩))) (Or.inr (Or.inr (Or.inr ⟨rfl, fun i j hi hj => ?_, ?_⟩))) hI0 hJ0
  · have hr := hc i j hi hj
    clear hj
    induction hr with
    | refl => exact .refl
    | tail _ hkl ih => exact ih.tail ⟨hkl.1, hkl.2.1, (hk _ _ hkl.1 hkl.2.1).mp hkl.2.2⟩
  · obtain ⟨σ, hσ, hn⟩ := hf
    refine ⟨σ, hσ, fun i j hi hj hkt => ?_⟩
    have := hn i j hi hj ((hk i j hi hj).mpr hkt)
    simp only [Bool.false_eq_true, if_false, if_true] at this ⊢
    rwa [hs i j hi hj] at this

/-- Five sites in a row with hops of both signs. -/
def rowArgs : HamArgs := ⟨5, fun _ i j => if i + 1 = j ∨ j + 1 = i then (if i + j = 3 then -2 else 1) else 0, .array fun i j => if i = j then 4 else 1, none, false, 0⟩

/-- Three sites, all joined. -/
def triangleArgs : HamArgs := ⟨3, fun _ i j => if i = j then 0 else -1, .array fun i j => if i = j then 4 else 1, none, false, 0⟩

theorem rowArgs_valid : rowArgs.Valid := by
  refine ⟨by simp [rowArgs], by simp [rowArgs], rfl, ?_, by simp [rowArgs, VArg.array], by simp [rowArgs, VArg.array], by simp [rowArgs, VArg.array]⟩
  intro s i j _ _
  simp only [rowArgs, add_comm i j, or_comm]

theorem triangleArgs_valid : triangleArgs.Valid := by
  refine ⟨by simp [triangleArgs], by simp [triangleArgs], rfl, ?_, by simp [triangleArgs, VArg.array], by simp [triangleArgs, VArg.array], by simp [triangleArgs, VArg.array]⟩
  intro s i j _ _
  simp only [triangleArgs, eq_comm]

theorem rowArgs_chain (s : Bool) : OpenChain rowArgs s := by
  intro i j _ _
  unfold KeptHop
  simp only [rowArgs]
  by_cases h : i + 1 = j ∨ j + 1 = i
  · rw [if_pos h]
    refine iff_of_true ⟨by omega, ?_⟩ h
    split_ifs <;> norm_num
  · rw [if_neg h]
    refine iff_of_false (fun hc => ?_) h
    have := hc.2
    norm_num at this

theorem triangleArgs_joined (s : Bool) : Connected triangleArgs s ∧ Unfrustrated triangleArgs s := by
  have hk : ∀ i j, i ≠ j → KeptHop triangleArgs s i j := fun i j hij => ⟨hij, by simp only [triangleArgs, if_neg hij]; norm_num⟩
  refine ⟨fun i j hi hj => ?_, fun _ => 1, fun _ => Or.inl rfl, fun i j _ _ hij => by simp only [triangleArgs, if_neg hij.1]; norm_num⟩
  by_cases hij : i = j
  · rw [hij]
  · exact .single ⟨hi, hj, hk i j hij⟩

/-- Non-vacuity: a solved chain of five sites with sectors as in the theorems, and a solved triangle. -/
example : ∃ es egs I J, BuildEspace 64 rowArgs none (.ok (es, egs)) ∧ ((2, 2), I) ∈ es ∧ ((4, 0), J) ∈ es ∧ ∃ (h1 : 1 < I.eigvals.length) (h2 : 0 < J.eigvals.length),
    I.eigvals[0] < I.eigvals[1] ∧ I.eigvals[0] < J.eigvals[0] := by
  have hw : rowArgs.n ≤ 64 := by simp [rowArgs]
  obtain ⟨⟨⟨es, egs⟩, h⟩, -⟩ := buildEspace_none_ok rowArgs_valid hw
  have hes := buildEspace_eigen rowArgs_valid hw h
  obtain ⟨-, -, hI, -, -, -, -, hl⟩ := hes.toCompleteEspace.at (u := 2) (d := 2) (by simp [rowArgs]) (by simp [rowArgs])
  obtain ⟨-, -, hJ, -, -, -, -, hl'⟩ := hes.toCompleteEspace.at (u := 4) (d := 0) (by simp [rowArgs]) (by simp [rowArgs])
  have e1 : 1 < (sctAt es (2, 2)).eigvals.length := by rw [hl]; simp [rowArgs, Nat.choose]
  have e2 : 0 < (sctAt es (4, 0)).eigvals.length := by rw [hl']; simp [rowArgs, Nat.choose]
  have c := rowArgs_chain
  exact ⟨es, egs, _, _, h, hI, hJ, e1, e2, C199_unique rowArgs_valid hw rfl rfl h hI (.inr (.inr (.inl (c _)))) (.inr (.inr (.inl (c _)))) e1,
    C199_chain rowArgs_valid hw rfl rfl (fun _ _ _ _ => rfl) h (c _) (p := 2) (q := 0) (m := 1) le_rfl hI hJ (by omega) e2⟩

example : ∃ es egs I J, BuildEspace 64 triangleArgs none (.ok (es, egs)) ∧ ((1, 1), I) ∈ es ∧ ((2, 0), J) ∈ es ∧ ∃ (h1 : 0 < I.eigvals.length) (h2 : 0 < J.eigvals.length),
    I.eigvals[0] < J.eigvals[0] := by
  have hw : triangleArgs.n ≤ 64 := by simp [triangleArgs]
  obtain ⟨⟨⟨es, egs⟩, h⟩, -⟩ := buildEspace_none_ok triangleArgs_valid hw
  have hes := buildEspace_eigen triangleArgs_valid hw h
  obtain ⟨-, -, hI, -, -, -, -, hl⟩ := hes.toCompleteEspace.at (u := 1) (d := 1) (by simp [triangleArgs]) (by simp [triangleArgs])
  obtain ⟨-, -, hJ, -, -, -, -, hl'⟩ := hes.toCompleteEspace.at (u := 2) (d := 0) (by simp [triangleArgs]) (by simp [triangleArgs])
  have e1 : 0 < (sctAt es (1, 1)).eigvals.length := by rw [hl]; simp [triangleArgs, Nat.choose]
  have e2 : 0 < (sctAt es (2, 0)).eigvals.length := by rw [hl']; simp [triangleArgs, Nat.choose]
  exact ⟨es, egs, _, _, h, hI, hJ, e1, e2, C199_pair triangleArgs_valid hw rfl rfl (fun _ _ _ _ => rfl) h (triangleArgs_joined _).1 (triangleArgs_joined _).2 hI hJ e1 e2⟩
end Edpyt
