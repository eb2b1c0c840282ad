import Verif.Proof.LiebFock
import Verif.Spec.Attractive
import Verif.Props.Orderly
import Verif.Props.SigmaTail
import Verif.Props.Reverse
/-!
C201: ground states with attraction on every site (Lieb).
-/
namespace Edpyt
open Spec Matrix Lieb

variable {a : HamArgs} {w m p q : ℕ} {es : Espace (ℕ × ℕ)} {egs : WithTop ℝ} {I J : Sct}

theorem pair_sector_min (ha : a.Valid) (hw : a.n ≤ w) (h : BuildEspace w a none (.ok (es, egs))) (hI : ((p, q), I) ∈ es) (h0 : 0 < I.eigvals.length)
    {x : Finset (Fin (a.n + a.n)) → ℝ} (hx : SectorVec a.n p q x) : I.eigvals[0] * (x ⬝ᵥ x) ≤ x ⬝ᵥ a.ham *ᵥ x := by
  by_cases hx0 : x = 0
  · rw [hx0]; simp
  have hpos : 0 < x ⬝ᵥ x := lt_of_le_of_ne (Finset.sum_nonneg fun S _ => mul_self_nonneg _) fun hh => hx0 (dotProduct_self_eq_zero.mp hh.symm)
  have hl : LowSpace a.n p q a.ham 1 (x ⬝ᵥ a.ham *ᵥ x / (x ⬝ᵥ x)) := ⟨fun _ => x, LinearIndependent.of_subsingleton (0 : Fin 1) hx0, fun _ => hx, fun c => by
    rw [Fin.sum_univ_one, Matrix.mulVec_smul, smul_dotProduct, dotProduct_smul, smul_dotProduct, dotProduct_smul]
    simp only [smul_eq_mul]
    have : x ⬝ᵥ a.ham *ᵥ x / (x ⬝ᵥ x) * (x ⬝ᵥ x) = x ⬝ᵥ a.ham *ᵥ x := div_mul_cancel₀ _ hpos.ne'
    rw [show x ⬝ᵥ a.ham *ᵥ x / (x ⬝ᵥ x) * (c 0 * (c 0 * (x ⬝ᵥ x))) = c 0 * (c 0 * (x ⬝ᵥ a.ham *ᵥ x / (x ⬝ᵥ x) * (x ⬝ᵥ x))) by ring, this]⟩
  have := (C197_minmax ha hw h hI h0 _).mpr hl
  rwa [le_div_iff₀ hpos] at this

/-- The vector with given amplitudes. -/
noncomputable def pairVec {n : ℕ} (X : Matrix (Conf n m) (Conf n m) ℝ) (S : Finset (Fin (n + n))) : ℝ :=
  if h : (upPart S).card = m ∧ (dwPart S).card = m then X ⟨upPart S, h.1⟩ ⟨dwPart S, h.2⟩ else 0

/-- The amplitudes of a vector. -/
def pairMat {n : ℕ} (m : ℕ) (x : Finset (Fin (n + n)) → ℝ) : Matrix (Conf n m) (Conf n m) ℝ := Matrix.of fun A B => x (join A.1 B.1)

theorem pairVec_join {n : ℕ} (X : Matrix (Conf n m) (Conf n m) ℝ) (A B : Conf n m) : pairVec X (join A.1 B.1) = X A B := by
  unfold pairVec
  rw [dif_pos ⟨by rw [upPart_join]; exact A.2, by rw [dwPart_join]; exact B.2⟩]
  congr 1
  · exact Subtype.ext (upPart_join _ _)
  · exact Subtype.ext (dwPart_join _ _)

theorem pairVec_sector {n : ℕ} (X : Matrix (Conf n m) (Conf n m) ℝ) : SectorVec n m m (pairVec X) := fun S hS => by
  rw [spinCount_parts]
  by_contra hn
  exact hS (dif_neg hn)

theorem pairVec_pairMat {n : ℕ} {x : Finset (Fin (n + n)) → ℝ} (hx : SectorVec n m m x) : pairVec (pairMat m x) = x := by
  funext S
  unfold pairVec pairMat
  split_ifs with h
  · rw [Matrix.of_apply, join_parts]
  · by_contra hn
    exact h ((spinCount_parts S m m).mp (hx S (Ne.symm hn)))

theorem pair_sum_conf {n : ℕ} {f : Finset (Fin n) → ℝ} (hf : ∀ A, f A ≠ 0 → A.card = m) : ∑ A, f A = ∑ A : Conf n m, f A.1 := by
  rw [← Finset.sum_filter_add_sum_filter_not Finset.univ (fun A : Finset (Fin n) => A.card = m), add_eq_left.mpr]
  · exact Finset.sum_subtype _ (fun A => by simp) f
  · refine Finset.sum_eq_zero fun A hA => ?_
    by_contra hn
    exact (Finset.mem_filter.mp hA).2 (hf A hn)

theorem pair_sum_sector {n : ℕ} {f : Finset (Fin (n + n)) → ℝ} (hf : SectorVec n m m f) : ∑ S, f S = ∑ A : Conf n m, ∑ B : Conf n m, f (join A.1 B.1) := by
  have hf' : ∀ A B, f (join A B) ≠ 0 → A.card = m ∧ B.card = m := fun A B h => by
    have := (spinCount_parts _ m m).mp (hf _ h)
    rwa [upPart_join, dwPart_join] at this
  rw [← (split2 n).symm.sum_comp f, Fintype.sum_prod_type]
  show ∑ A, ∑ B, f (join A B) = _
  rw [pair_sum_conf (m := m) (f := fun A => ∑ B, f (join A B)) fun A hA => by
    obtain ⟨B, -, hB⟩ := Finset.exists_ne_zero_of_sum_ne_zero hA
    exact (hf' A B hB).1]
  exact Finset.sum_congr rfl fun A _ => pair_sum_conf fun B hB => (hf' _ _ hB).2

/-- Shift of the occupations in half-filling mode. -/
noncomputable def pairShift (a : HamArgs) : ℝ := if a.hf then 1 / 2 else 0

theorem ham_pair_join (ho : a.OnsiteOnly) (hs : a.SpinFree) (A B A' B' : Finset (Fin a.n)) :
    a.ham (join A B) (join A' B') = oneHop (kept (n := a.n) a.mu (a.H 0)) A A' * (if B = B' then 1 else 0) + (if A = A' then 1 else 0) * oneHop (kept (n := a.n) a.mu (a.H 0)) B B' +
      if A = A' ∧ B = B' then ∑ i : Fin a.n, a.V.U.getD 0 i i * (((if i ∈ A then 1 else 0) - pairShift a) * ((if i ∈ B then 1 else 0) - pairShift a)) else 0 := by
  have hk : kept (n := a.n) a.mu (a.H 1) = kept (n := a.n) a.mu (a.H 0) := by
    funext i j
    rw [kept_apply, kept_apply, hs i j i.2 j.2, hs i i i.2 i.2]
  rw [ho.ham, Matrix.add_apply]
  congr 1
  · unfold kinetic HamArgs.oneBody
    rw [Fintype.sum_bool]
    simp only [Matrix.of_apply, hop_up, hop_dw, Bool.false_eq_true, if_false, if_true, Matrix.add_apply, Matrix.sum_apply, Matrix.smul_apply, lift2_apply, Matrix.one_apply, upPart_join,
      dwPart_join, smul_eq_mul]
    rw [add_comm, hk]
    congr 1
    · rw [oneHop_elem, Finset.sum_mul]
      refine Finset.sum_congr rfl fun i _ => ?_
      rw [Finset.sum_mul]
      exact Finset.sum_congr rfl fun j _ => by ring
    · rw [oneHop_elem, Finset.mul_sum]
      refine Finset.sum_congr rfl fun i _ => ?_
      rw [Finset.mul_sum]
      exact Finset.sum_congr rfl fun j _ => by ring
  · rw [onsiteU_diagonal, Matrix.diagonal_apply]
    have e : (join A B = join A' B') ↔ (A = A' ∧ B = B') := ⟨fun hh => ⟨by have := congrArg upPart hh; rwa [upPart_join, upPart_join] at this, by
      have := congrArg dwPart hh; rwa [dwPart_join, dwPart_join] at this⟩, fun hh => by rw [hh.1, hh.2]⟩
    by_cases hh : A = A' ∧ B = B'
    · rw [if_pos (e.mpr hh), if_pos hh]
      unfold onsiteVal pairShift
      refine Finset.sum_congr rfl fun i _ => ?_
      have e1 : orb false i ∈ join A B ↔ i ∈ A := castAdd_mem_join
      have e2 : orb true i ∈ join A B ↔ i ∈ B := natAdd_mem_join
      simp only [e1, e2]
    · rw [if_neg (fun h => hh (e.mp h)), if_neg hh]

theorem ham_pairVec (ha : a.Valid) (ho : a.OnsiteOnly) (hs : a.SpinFree) (X : Matrix (Conf a.n m) (Conf a.n m) ℝ) (A B : Conf a.n m) :
    (a.ham *ᵥ pairVec X) (join A.1 B.1) = phiR (kept (n := a.n) a.mu (a.H 0)) (pairShift a) (fun i => a.V.U.getD 0 i i) X A B := by
  have hsym : ∀ B B' : Finset (Fin a.n), oneHop (kept (n := a.n) a.mu (a.H 0)) B B' = oneHop (kept (n := a.n) a.mu (a.H 0)) B' B := fun B B' => by
    have h1 := ham_pair_join ho hs B B B' B
    have h2 := ham_pair_join ho hs B' B B B
    have h3 : a.ham (join B B) (join B' B) = a.ham (join B' B) (join B B) := congrFun (congrFun (ham_symm ha) (join B' B)) (join B B)
    by_cases hB : B = B'
    · rw [hB]
    rw [h1, h2] at h3
    simpa [hB, Ne.symm hB, eq_comm] using h3
  unfold Matrix.mulVec dotProduct
  rw [pair_sum_sector (m := m) fun S hS => pairVec_sector X S (right_ne_zero_of_mul hS)]
  simp only [pairVec_join, ham_pair_join ho hs, add_mul, Finset.sum_add_distrib]
  unfold phiR
  rw [Matrix.add_apply, Matrix.add_apply]
  congr 1
  · congr 1
    · rw [Matrix.mul_apply]
      refine Finset.sum_congr rfl fun A' _ => ?_
      rw [Finset.sum_eq_single B (fun B' _ hne => by rw [if_neg fun hh => hne (Subtype.ext hh.symm)]; ring) fun hh => absurd (Finset.mem_univ _) hh, if_pos rfl, mul_one]
      rfl
    · rw [Matrix.mul_apply, Finset.sum_eq_single A (fun A' _ hne => Finset.sum_eq_zero fun B' _ => by rw [if_neg fun hh => hne (Subtype.ext hh.symm)]; ring)
        fun hh => absurd (Finset.mem_univ _) hh]
      refine Finset.sum_congr rfl fun B' _ => ?_
      rw [if_pos rfl, one_mul, hsym, mul_comm]
      rfl
  · rw [Finset.sum_eq_single A (fun A' _ hne => Finset.sum_eq_zero fun B' _ => by rw [if_neg fun hh => hne (Subtype.ext hh.1.symm), zero_mul]) fun hh => absurd (Finset.mem_univ _) hh,
      Finset.sum_eq_single B (fun B' _ hne => by rw [if_neg fun hh => hne (Subtype.ext hh.2.symm), zero_mul]) fun hh => absurd (Finset.mem_univ _) hh, if_pos ⟨rfl, rfl⟩, Matrix.sum_apply,
      Finset.sum_mul]
    refine Finset.sum_congr rfl fun i _ => ?_
    unfold occR
    rw [Matrix.smul_apply, Matrix.mul_diagonal, Matrix.diagonal_mul, smul_eq_mul]
    ring

/-- In a state of lowest mean energy with as many up as down electrons, the amplitudes of all paired configurations have the same strict sign. -/
theorem lieb_sign (ha : a.Valid) (hw : a.n ≤ w) (ho : a.OnsiteOnly) (hs : a.SpinFree) (hc : Connected a false) (hat : Attractive a) (h : BuildEspace w a none (.ok (es, egs)))
    (hI : ((m, m), I) ∈ es) (h0 : 0 < I.eigvals.length) {x : Finset (Fin (a.n + a.n)) → ℝ} (hx : SectorVec a.n m m x) (hE : x ⬝ᵥ a.ham *ᵥ x ≤ I.eigvals[0] * (x ⬝ᵥ x)) :
    x = 0 ∨ (∀ A : Finset (Fin a.n), A.card = m → 0 < x (join A A)) ∨ ∀ A : Finset (Fin a.n), A.card = m → x (join A A) < 0 := by
  have hsym : ∀ i j : Fin a.n, kept (n := a.n) a.mu (a.H 0) i j = kept (n := a.n) a.mu (a.H 0) j i := fun i j => by
    rw [kept_apply, kept_apply, ha.symmH _ j i j.2 i.2]
    by_cases hij : i = j
    · rw [if_pos hij, if_pos hij.symm, hij]
    · rw [if_neg hij, if_neg (Ne.symm hij)]
  have hcon : ∀ i j : Fin a.n, Relation.ReflTransGen (fun k l : Fin a.n => kept (n := a.n) a.mu (a.H 0) l k ≠ 0 ∧ k ≠ l) i j := fun i j => by
    have key : ∀ l : ℕ, Relation.ReflTransGen (fun k l => k < a.n ∧ l < a.n ∧ KeptHop a false k l) (i : ℕ) l → ∀ hl : l < a.n,
        Relation.ReflTransGen (fun k l : Fin a.n => kept (n := a.n) a.mu (a.H 0) l k ≠ 0 ∧ k ≠ l) i ⟨l, hl⟩ := fun l hr => by
      induction hr with
      | refl => exact fun _ => .refl
      | tail _ hkl ih => exact fun hl => (ih hkl.1).tail ⟨by
          rw [hsym]
          exact kept_of_hop (s := false) (i := ⟨_, hkl.1⟩) (j := ⟨_, hl⟩) hkl.2.2, fun hh => hkl.2.2.1 (congrArg Fin.val hh)⟩
    exact key j (hc i j i.2 j.2) j.2
  have hn : ∀ X : Matrix (Conf a.n m) (Conf a.n m) ℝ, pairVec X ⬝ᵥ pairVec X = ∑ A, ∑ B, X A B * X A B := fun X => by
    unfold dotProduct
    rw [pair_sum_sector (m := m) fun S hS => pairVec_sector X S (right_ne_zero_of_mul hS)]
    simp only [pairVec_join]
  have he : ∀ X : Matrix (Conf a.n m) (Conf a.n m) ℝ, pairVec X ⬝ᵥ a.ham *ᵥ pairVec X =
      ∑ A, ∑ B, X A B * phiR (kept (n := a.n) a.mu (a.H 0)) (pairShift a) (fun i => a.V.U.getD 0 i i) X A B := fun X => by
    unfold dotProduct
    rw [pair_sum_sector (m := m) fun S hS => pairVec_sector X S (left_ne_zero_of_mul hS)]
    simp only [pairVec_join, ham_pairVec ha ho hs]
  have hxm := pairVec_pairMat hx
  rcases real_definite (m := m) (c := pairShift a) (e := I.eigvals[0]) (u := fun i : Fin a.n => a.V.U.getD 0 i i) (X := pairMat m x) hsym hcon (fun i => hat i i.2)
    (fun X => by rw [← hn, ← he]; exact pair_sector_min ha hw h hI h0 (pairVec_sector X)) (by rw [← hn, ← he, hxm]; exact hE) with h1 | h1 | h1
  · left
    rw [← hxm, h1]
    funext S
    unfold pairVec
    split_ifs <;> rfl
  · exact Or.inr (Or.inl fun A hA => h1 ⟨A, hA⟩)
  · exact Or.inr (Or.inr fun A hA => h1 ⟨A, hA⟩)

theorem pair_exists_conf {n m : ℕ} (hm : m ≤ n) : ∃ A : Finset (Fin n), A.card = m := by
  obtain ⟨A, -, hA⟩ := Finset.exists_subset_card_eq (s := (Finset.univ : Finset (Fin n))) (n := m) (by rw [Finset.card_univ, Fintype.card_fin]; exact hm)
  exact ⟨A, hA⟩

theorem lieb_zero (ha : a.Valid) (hw : a.n ≤ w) (ho : a.OnsiteOnly) (hs : a.SpinFree) (hc : Connected a false) (hat : Attractive a) (h : BuildEspace w a none (.ok (es, egs)))
    (hI : ((m, m), I) ∈ es) (h0 : 0 < I.eigvals.length) {x : Finset (Fin (a.n + a.n)) → ℝ} (hx : SectorVec a.n m m x) (hE : x ⬝ᵥ a.ham *ᵥ x ≤ I.eigvals[0] * (x ⬝ᵥ x))
    {A : Finset (Fin a.n)} (hA : A.card = m) (hz : x (join A A) = 0) : x = 0 := by
  rcases lieb_sign ha hw ho hs hc hat h hI h0 hx hE with h1 | h1 | h1
  · exact h1
  · exact absurd hz (h1 A hA).ne'
  · exact absurd hz (h1 A hA).ne

/-- **C201** With attraction on every site of a connected cluster, the lowest level of every sector with as many up as down electrons is listed once. -/
theorem C201_unique (ha : a.Valid) (hw : a.n ≤ w) (ho : a.OnsiteOnly) (hs : a.SpinFree) (hc : Connected a false) (hat : Attractive a) (h : BuildEspace w a none (.ok (es, egs)))
    (hI : ((m, m), I) ∈ es) (h1 : 1 < I.eigvals.length) : I.eigvals[0] < I.eigvals[1] := by
  by_contra hcon
  obtain ⟨v, hv, hvs, hE⟩ := (C197_minmax ha hw h hI h1 I.eigvals[0]).mp (not_lt.mp hcon)
  obtain ⟨-, hm, -⟩ := sctAt_of_mem (buildEspace_eigen ha hw h) hI
  obtain ⟨A, hA⟩ := pair_exists_conf hm
  have hsec : ∀ c : Fin 2 → ℝ, SectorVec a.n m m (∑ i, c i • v i) := fun c S hne => by
    by_contra hn
    refine hne ?_
    rw [Finset.sum_apply]
    exact Finset.sum_eq_zero fun i _ => by
      rw [Pi.smul_apply, show v i S = 0 by by_contra hh; exact hn (hvs i S hh), smul_zero]
  have hz := lieb_zero ha hw ho hs hc hat h hI (by omega) (hsec ![v 1 (join A A), -v 0 (join A A)]) (hE _) hA (by
    rw [Finset.sum_apply, Fin.sum_univ_two]
    simp
    ring)
  have hli := Fintype.linearIndependent_iff.mp hv _ hz
  have a0 : v 1 (join A A) = 0 := by simpa using hli 0
  exact hv.ne_zero 1 (lieb_zero ha hw ho hs hc hat h hI (by omega) (hvs 1) (by
    have := hE ![0, 1]
    simpa [Fin.sum_univ_two] using this) hA a0)

/-- **C201** The stored lowest state of such a sector has an amplitude of one and the same sign on all configurations of pairs. -/
theorem C201_pairs (ha : a.Valid) (hw : a.n ≤ w) (ho : a.OnsiteOnly) (hs : a.SpinFree) (hc : Connected a false) (hat : Attractive a) (h : BuildEspace w a none (.ok (es, egs)))
    (hI : ((m, m), I) ∈ es) {S T : Finset (Fin (a.n + a.n))} (hS : Paired S) (hT : Paired T) (hSm : spinCount false S = m) (hTm : spinCount false T = m) :
    0 < I.ket a.n 0 S * I.ket a.n 0 T := by
  have hes := buildEspace_eigen ha hw h
  obtain ⟨e, hm, -⟩ := sctAt_of_mem hes hI
  obtain ⟨up, dw, -, -, -, -, -, hlen⟩ := hes.toCompleteEspace.at hm hm
  have hpos : 0 < a.n.choose m * a.n.choose m := Nat.mul_pos (Nat.choose_pos hm) (Nat.choose_pos hm)
  rw [e] at hlen
  have hk : 0 < I.eigvals.length := by rw [hlen]; exact hpos
  have hket : esKet a.n es (lvIdx hm hm ⟨0, hpos⟩) = I.ket a.n 0 := by unfold esKet lvIdx; simp only [e]
  have heig := hes.eig _ hI 0 hk
  rw [List.getElem?_eq_getElem hk, Option.getD_some] at heig
  have hsec : SectorVec a.n m m (I.ket a.n 0) := fun T hT => by
    rw [← hket] at hT
    exact hes.support _ hT
  have hjoin : ∀ {S : Finset (Fin (a.n + a.n))}, Paired S → spinCount false S = m → ∃ A : Finset (Fin a.n), A.card = m ∧ S = join A A := fun {S} hS hm => by
    have e1 : upPart S = dwPart S := by
      ext i
      rw [mem_upPart, mem_dwPart]
      exact hS i
    refine ⟨upPart S, ?_, ?_⟩
    · unfold spinCount at hm
      simpa using hm
    · conv_lhs => rw [← join_parts S, ← e1]
  obtain ⟨A, hA, rfl⟩ := hjoin hS hSm
  obtain ⟨B, hB, rfl⟩ := hjoin hT hTm
  rcases lieb_sign ha hw ho hs hc hat h hI hk hsec (by rw [heig, dotProduct_smul, smul_eq_mul]) with h1 | h1 | h1
  · have := hes.basis.orth (lvIdx hm hm ⟨0, hpos⟩) (lvIdx hm hm ⟨0, hpos⟩)
    rw [hket, h1, if_pos rfl] at this
    simp at this
  · exact mul_pos (h1 A hA) (h1 B hB)
  · exact mul_pos_of_neg_of_neg (h1 A hA) (h1 B hB)

/-- Turning one more spin up costs energy. -/
theorem lieb_gap (ha : a.Valid) (hw : a.n ≤ w) (ho : a.OnsiteOnly) (hs : a.SpinFree) (hc : Connected a false) (hat : Attractive a) (h : BuildEspace w a none (.ok (es, egs)))
    (hI : ((m + 1, m + 1), I) ∈ es) (hJ : ((m + 1 + 1, m), J) ∈ es) (hI0 : 0 < I.eigvals.length) (hJ0 : 0 < J.eigvals.length) : I.eigvals[0] < J.eigvals[0] := by
  by_contra hcon
  have hes := buildEspace_eigen ha hw h
  obtain ⟨eI, hp', hq'⟩ := sctAt_of_mem hes hI
  obtain ⟨e, hp1, hq1⟩ := sctAt_of_mem hes hJ
  have hpos : 0 < a.n.choose (m + 1 + 1) * a.n.choose m := Nat.mul_pos (Nat.choose_pos hp1) (Nat.choose_pos hq1)
  set φ := J.ket a.n 0 with hφ
  have hket : esKet a.n es (lvIdx hp1 hq1 ⟨0, hpos⟩) = φ := by unfold esKet lvIdx; simp only [e, hφ]
  have heig := hes.eig _ hJ 0 hJ0
  rw [List.getElem?_eq_getElem hJ0, Option.getD_some] at heig
  have hφs : ∀ T, φ T ≠ 0 → spinCount false T = (m + 1 + 1 : ℕ) ∧ spinCount true T = m := fun T hT => by
    rw [← hket] at hT
    exact hes.support _ hT
  have hφ0 : φ ≠ 0 := fun hz => by
    have := hes.basis.orth (lvIdx hp1 hq1 ⟨0, hpos⟩) (lvIdx hp1 hq1 ⟨0, hpos⟩)
    rw [hket, hz, if_pos rfl] at this
    simp at this
  have hcomm : Commute a.ham (spinTurn (n := a.n) false) := ham_spinTurn hs (fun A hA => by rw [ho.Jx] at hA; exact absurd hA (by simp)) false
  set y := spinTurn (n := a.n) false *ᵥ φ with hy
  have hyE : a.ham *ᵥ y = J.eigvals[0] • y := by
    rw [hy, Matrix.mulVec_mulVec, hcomm.eq, ← Matrix.mulVec_mulVec, ← Matrix.mulVec_smul]
    exact congrArg _ heig
  have hy0 : y ≠ 0 := fun hz => hφ0 (spinTurn_inj false (fun S hS => (hφs S hS).1) (fun S hS => (hφs S hS).2) (by push_cast; omega) hz)
  have hys : SectorVec a.n (m + 1) (m + 1) y := fun T hT => by
    by_contra hn
    refine hT ?_
    rw [hy]
    unfold Matrix.mulVec dotProduct
    refine Finset.sum_eq_zero fun S _ => ?_
    by_contra hne
    have g := grade_spinTurn (n := a.n) false T S (left_ne_zero_of_mul hne)
    obtain ⟨b1, b2⟩ := hφs S (right_ne_zero_of_mul hne)
    have g1 := g false
    have g2 := g true
    simp only [if_true, Bool.true_eq_false, if_false] at g1 g2
    exact hn ⟨by rw [g1, b1]; push_cast; ring, by rw [g2, b2]; push_cast; ring⟩
  obtain ⟨U, hU⟩ := pair_exists_conf hp'
  refine hy0 (lieb_zero ha hw ho hs hc hat h hI hI0 hys ?_ hU ?_)
  · rw [hyE, dotProduct_smul, smul_eq_mul]
    exact mul_le_mul_of_nonneg_right (not_lt.mp hcon) (Finset.sum_nonneg fun S _ => mul_self_nonneg _)
  · rw [hy]
    unfold Matrix.mulVec dotProduct
    refine Finset.sum_eq_zero fun S _ => ?_
    have : spinTurn (n := a.n) false (join U U) S = 0 := by
      unfold spinTurn
      rw [Matrix.sum_apply]
      refine Finset.sum_eq_zero fun k _ => ?_
      rw [cre_ann_elem, if_neg]
      rintro ⟨h1, h2, h3⟩
      have hk : k ∈ U := by
        have : k ∈ dwPart (join U U) := by rw [mem_dwPart]; exact h2
        rwa [dwPart_join] at this
      have h4 : orb false k ∈ (join U U).erase (orb (!false) k) := Finset.mem_erase.mpr ⟨fun hh => by simpa using (orb_inj.mp hh).1, by
        have : k ∈ upPart (join U U) := by rw [upPart_join]; exact hk
        exact mem_upPart.mp this⟩
      rw [h3] at h4
      exact (Finset.mem_erase.mp h4).1 rfl
    exact mul_eq_zero_of_left this _

/-- **C201** (Lieb) The ground state of an even number of electrons is a singlet: every level of the other sectors with the same number of electrons lies strictly higher. -/
theorem C201_singlet (ha : a.Valid) (hw : a.n ≤ w) (ho : a.OnsiteOnly) (hs : a.SpinFree) (hc : Connected a false) (hat : Attractive a) (h : BuildEspace w a none (.ok (es, egs)))
    (hI : ((m, m), I) ∈ es) (hI0 : 0 < I.eigvals.length) (hJ : ((p, q), J) ∈ es) (hN : p + q = 2 * m) (hpq : p ≠ q) {E : ℝ} (hE : E ∈ J.eigvals) : I.eigvals[0] < E := by
  have hes := buildEspace_eigen ha hw h
  obtain ⟨-, hpn, hqn⟩ := sctAt_of_mem hes hJ
  obtain ⟨-, hm, -⟩ := sctAt_of_mem hes hI
  obtain ⟨k, rfl⟩ : ∃ k, m = k + 1 := ⟨m - 1, by omega⟩
  obtain ⟨-, -, hK, -, -, -, -, hlen⟩ := hes.toCompleteEspace.at (u := k + 1 + 1) (d := k) (by omega) (by omega)
  have hK0 : 0 < (sctAt es (k + 1 + 1, k)).eigvals.length := by rw [hlen]; exact Nat.mul_pos (Nat.choose_pos (by omega)) (Nat.choose_pos (by omega))
  refine (lieb_gap ha hw ho hs hc hat h hI hK hI0 hK0).trans_le ?_
  have hx : a.NoExchange := fun A hA => by rw [ho.Jx] at hA; exact absurd hA (by simp)
  have hmem : E ∈ (sctAt es (k + 1 + 1, k)).eigvals := by
    rw [← List.count_pos_iff] at hE ⊢
    refine lt_of_lt_of_le hE (C130_multiplets_partial ha hw hs hx h hJ hK (by omega) ?_ E)
    rcases lt_or_gt_of_ne hpq with hlt | hlt
    · rw [abs_of_nonneg (by push_cast; omega), abs_of_nonpos (by omega)]; push_cast; omega
    · rw [abs_of_nonneg (by push_cast; omega), abs_of_nonneg (by omega)]; push_cast; omega
  obtain ⟨j, hj, rfl⟩ := List.getElem_of_mem hmem
  rcases Nat.eq_zero_or_pos j with rfl | hj0
  · exact le_rfl
  · exact List.pairwise_iff_getElem.mp (buildEspace_sorted ha hw h hK) 0 j hK0 hj hj0

/-- **C201** (Lieb) With repulsion on every site of a connected half-filled cluster whose sites split into two groups with hops only between the groups, the lowest level of each sector with
one electron per site is listed once. -/
theorem C201_repulsive {η : ℕ → ℤ} (ha : a.Valid) (hw : a.n ≤ w) (ho : a.OnsiteOnly) (hs : a.SpinFree) (hc : Connected a false) (hre : Repulsive a) (hhf : a.hf = true)
    (hη : ∀ i < a.n, η i = 1 ∨ η i = -1) (hl : ∀ i < a.n, a.H 1 i i + a.mu = 0) (hb : ∀ i j, i < a.n → j < a.n → i ≠ j → η i = η j → a.H 1 i j = 0)
    (h : BuildEspace w a none (.ok (es, egs))) (hpq : p + q = a.n) (hI : ((p, q), I) ∈ es) (h1 : 1 < I.eigvals.length) : I.eigvals[0] < I.eigvals[1] := by
  have hv : (withModel a a.H fun i j => -(a.V.U.getD 0 i j)).Valid := ⟨ha.two_le, ha.le, rfl, ha.symmH, by simp [withModel, VArg.array], by simp [withModel, VArg.array], fun _ => rfl⟩
  obtain ⟨⟨es', E'⟩, h'⟩ := (buildEspace_none_ok (w := w) hv hw).1
  have e' := buildEspace_eigen hv hw h'
  obtain ⟨-, -, hJ, -, -, -, -, -⟩ := e'.toCompleteEspace.at (u := p) (d := p) (show p ≤ a.n by omega) (show p ≤ a.n by omega)
  have hlev := C196_bipartite_levels ha hw hw hhf hη ho.Jx ho.Jp ho.U hl hb h h' hI (by rw [show a.n - q = p by omega]; exact hJ)
  have ho' : (withModel a a.H fun i j => -(a.V.U.getD 0 i j)).OnsiteOnly := ⟨fun i j hi hj hij => by
    show -(a.V.U.getD 0 i j) = 0
    rw [ho.U i j hi hj hij, neg_zero], rfl, rfl⟩
  have := C201_unique hv hw ho' hs hc (fun i hi => by
    show -(a.V.U.getD 0 i i) < 0
    linarith [hre i hi]) h' hJ (by rw [← hlev]; exact h1)
  simpa only [← hlev] using this

theorem lieb_paired {n : ℕ} (A : Finset (Fin n)) : Paired (join A A) := fun _ => castAdd_mem_join.trans natAdd_mem_join.symm

/-- A frustrated triangle with attraction of different strength. -/
def boundTriangle : HamArgs := ⟨3, fun _ i j => if i = j then (i : ℝ) else 1, .array fun i j => if i = j then -((i : ℝ) + 1) else 0, none, false, 0⟩

theorem boundTriangle_valid : boundTriangle.Valid := by
  refine ⟨by simp [boundTriangle], by simp [boundTriangle], rfl, ?_, by simp [boundTriangle, VArg.array], by simp [boundTriangle, VArg.array], by simp [boundTriangle, VArg.array]⟩
  intro s i j _ _
  by_cases h : i = j
  · rw [h]
  · simp only [boundTriangle, if_neg h, if_neg (Ne.symm h)]

/-- Non-vacuity: a solved triangle with attraction, and the repulsive half-filled dimer. -/
example : ∃ es egs I J, BuildEspace 64 boundTriangle none (.ok (es, egs)) ∧ ((1, 1), I) ∈ es ∧ ((0, 2), J) ∈ es ∧ ∃ (h1 : 1 < I.eigvals.length),
    I.eigvals[0] < I.eigvals[1] ∧ J.eigvals ≠ [] ∧ (∀ E ∈ J.eigvals, I.eigvals[0] < E) ∧ 0 < I.ket 3 0 (join {0} {0}) * I.ket 3 0 (join {2} {2}) := by
  have hw : boundTriangle.n ≤ 64 := by simp [boundTriangle]
  have ho : boundTriangle.OnsiteOnly := ⟨fun i j _ _ hij => by simp [boundTriangle, VArg.array, hij], rfl, rfl⟩
  have hat : Attractive boundTriangle := fun i _ => by
    show (if i = i then -((i : ℝ) + 1) else 0) < 0
    rw [if_pos rfl]; have : (0 : ℝ) ≤ i := Nat.cast_nonneg i; linarith
  have hc : Connected boundTriangle false := fun i j hi hj => by
    by_cases hij : i = j
    · rw [hij]
    · exact .single ⟨hi, hj, hij, by simp only [boundTriangle, if_neg hij]; norm_num⟩
  have hs : boundTriangle.SpinFree := fun _ _ _ _ => rfl
  obtain ⟨⟨⟨es, egs⟩, h⟩, -⟩ := buildEspace_none_ok boundTriangle_valid hw
  have hes := buildEspace_eigen boundTriangle_valid hw h
  obtain ⟨-, -, hI, -, -, -, -, hl⟩ := hes.toCompleteEspace.at (u := 1) (d := 1) (by simp [boundTriangle]) (by simp [boundTriangle])
  obtain ⟨-, -, hJ, -, -, -, -, hl'⟩ := hes.toCompleteEspace.at (u := 0) (d := 2) (by simp [boundTriangle]) (by simp [boundTriangle])
  have e1 : 1 < (sctAt es (1, 1)).eigvals.length := by rw [hl]; simp [boundTriangle, Nat.choose]
  have e2 : (sctAt es (0, 2)).eigvals ≠ [] := fun hh => by rw [hh] at hl'; simp [boundTriangle, Nat.choose] at hl'
  refine ⟨es, egs, _, _, h, hI, hJ, e1, C201_unique boundTriangle_valid hw ho hs hc hat h hI e1, e2,
    fun E hE => C201_singlet boundTriangle_valid hw ho hs hc hat h hI (by omega) hJ (by norm_num) (by norm_num) hE, ?_⟩
  exact C201_pairs (a := boundTriangle) boundTriangle_valid hw ho hs hc hat h hI (S := join (n := 3) {0} {0}) (T := join (n := 3) {2} {2}) (lieb_paired (n := 3) {0}) (lieb_paired (n := 3) {2})
    (by decide) (by decide)

example : ∃ es egs I, BuildEspace 64 dimerArgs none (.ok (es, egs)) ∧ ((1, 1), I) ∈ es ∧ ∃ (h1 : 1 < I.eigvals.length), I.eigvals[0] < I.eigvals[1] := by
  have hw : dimerArgs.n ≤ 64 := by simp [dimerArgs]
  obtain ⟨⟨⟨es, egs⟩, h⟩, -⟩ := buildEspace_none_ok dimerArgs_valid hw
  have hes := buildEspace_eigen dimerArgs_valid hw h
  obtain ⟨-, -, hI, -, -, -, -, hl⟩ := hes.toCompleteEspace.at (u := 1) (d := 1) (by simp [dimerArgs]) (by simp [dimerArgs])
  have e1 : 1 < (sctAt es (1, 1)).eigvals.length := by rw [hl]; simp [dimerArgs, Nat.choose]
  refine ⟨es, egs, _, h, hI, e1, C201_repulsive (η := fun i => if i = 0 then 1 else -1) dimerArgs_valid hw ⟨fun i j _ _ hij => by simp [dimerArgs, VArg.array, hij], rfl, rfl⟩ (fun _ _ _ _ => rfl)
    (fun i j hi hj => ?_) (fun i _ => by simp [dimerArgs, VArg.array]) rfl (fun i _ => by split_ifs <;> simp) (fun i _ => by simp [dimerArgs]) (fun i j hi hj hij hh => ?_) h (by simp [dimerArgs]) hI e1⟩
  · by_cases hij : i = j
    · rw [hij]
    · exact .single ⟨hi, hj, hij, by simp only [dimerArgs, if_neg hij]; norm_num⟩
  · have hi2 : i < 2 := hi
    have hj2 : j < 2 := hj
    exfalso
    interval_cases i <;> interval_cases j <;> simp_all

end Edpyt
