import Verif.Model.Observs
import Verif.Proof.GfExact
import Verif.Proof.Hubbard
/-!
Lemmas about the occupations.
-/
namespace Edpyt
open Spec

/-- The weight of eigenvector `j`. -/
noncomputable def weight (coeffs : Option (List ℝ)) (j : ℕ) : ℝ :=
  match coeffs with
  | none => 1
  | some c => c[j]?.getD 0

theorem contract_eq (coeffs : Option (List ℝ)) (m : ℕ) (x : ℕ → ℕ → ℝ) (j : ℕ) :
    contract coeffs m x j = weight coeffs j * ∑ i ∈ Finset.range m, x j i * x j i := by
  cases coeffs with
  | none => simp only [contract, weight, sum_map_range, one_mul]
  | some c => simp only [contract, weight, sum_map_range, Finset.mul_sum, mul_assoc]

theorem rowAdd_loop (n : ℕ) (f : ℕ → ℕ → ℝ) (acc : ℕ → ℕ → ℝ) (m : ℕ) (hm : m ≤ n) :
    (List.range m).foldl (fun a k => rowAdd a k (f k)) acc = fun k j => acc k j + if k < m then f k j else 0 := by
  induction m with
  | zero => funext k j; simp
  | succ m ih =>
    rw [List.range_succ, List.foldl_append, ih (by omega)]
    funext k j
    simp only [List.foldl_cons, List.foldl_nil, rowAdd]
    by_cases hk : k = m
    · subst hk; simp
    · rw [if_neg hk]
      by_cases h2 : k < m
      · rw [if_pos h2, if_pos (by omega)]
      · rw [if_neg h2, if_neg (by omega)]

theorem occStep_loop (n : ℕ) (states : List ℕ) (c : ℕ → ℕ → ℝ) :
    forM' (occStep n states c) (List.range states.length) (fun _ _ => 0) =
      .ok fun k j => if k < n then ∑ i ∈ Finset.range states.length, (((states[i]?.getD 0).testBit k).toNat : ℝ) * c i j else 0 := by
  have H : ∀ m, m ≤ states.length → forM' (occStep n states c) (List.range m) (fun _ _ => 0) =
      .ok fun k j => if k < n then ∑ i ∈ Finset.range m, (((states[i]?.getD 0).testBit k).toNat : ℝ) * c i j else 0 := by
    intro m hm
    induction m with
    | zero => simp [forM']
    | succ m ih =>
      rw [List.range_succ, forM'_append, ih (by omega)]
      have hlt : m < states.length := by omega
      simp only [forM', occStep]
      rw [getItem_natCast states m hlt]
      simp only [bind, Except.bind, pure, Except.pure]
      rw [rowAdd_loop n _ _ n le_rfl]
      congr 1
      funext k j
      by_cases hk : k < n
      · simp only [if_pos hk, Finset.sum_range_succ, checkFull_eq, List.getElem?_eq_getElem hlt, Option.getD_some]
      · simp [if_neg hk]
  exact H _ le_rfl

/-- The array of the caller after the call. -/
def afterCall (A : NdArr) (nev dwn dup : ℕ) : NdArr :=
  match A.lay with
  | .C => { A with shape := [dwn, dup, nev] }
  | _ => A

theorem reshape_eq (A : NdArr) (nev dwn dup : ℕ) (hs : A.shape = [dup * dwn, nev]) (hl : A.lay ≠ .strided) :
    reshapeEvecs A nev dwn dup = .ok ((fun j idw iup => A.elem (dup * dwn) nev (iup + dup * idw) j), afterCall A nev dwn dup) := by
  have hp : ¬ A.shape.prod ≠ nev * dwn * dup := by rw [hs]; simp; ring
  unfold reshapeEvecs afterCall NdArr.elem
  rw [if_neg hp]
  cases h : A.lay with
  | F =>
    simp only [Except.ok.injEq, Prod.mk.injEq, and_true]
    funext j d u
    congr 1; ring
  | C =>
    simp only [Except.ok.injEq, Prod.mk.injEq, and_true]
    funext j d u
    congr 1; ring
  | strided => exact absurd h hl

theorem evecsOccupation_eq (A : NdArr) (up dw : List ℕ) (n nev : ℕ) (coeffs : Option (List ℝ))
    (hs : A.shape = [up.length * dw.length, nev]) (hl : A.lay ≠ .strided) :
    evecsOccupation A up dw n coeffs = .ok
      ((fun k j => if k < n then ∑ iu ∈ Finset.range up.length, (((up[iu]?.getD 0).testBit k).toNat : ℝ) *
          (weight coeffs j * ∑ id ∈ Finset.range dw.length,
            A.elem (up.length * dw.length) nev (iu + up.length * id) j * A.elem (up.length * dw.length) nev (iu + up.length * id) j) else 0),
       (fun k j => if k < n then ∑ id ∈ Finset.range dw.length, (((dw[id]?.getD 0).testBit k).toNat : ℝ) *
          (weight coeffs j * ∑ iu ∈ Finset.range up.length,
            A.elem (up.length * dw.length) nev (iu + up.length * id) j * A.elem (up.length * dw.length) nev (iu + up.length * id) j) else 0),
       afterCall A nev dw.length up.length) := by
  have hnev : getItem A.shape 1 = .ok nev := by
    rw [hs]; rfl
  unfold evecsOccupation
  simp only [hnev, bind, Except.bind, reshape_eq A nev dw.length up.length hs hl, occStep_loop, contract_eq, pure, Except.pure]

/-! ### Occupation operators on kets -/

theorem num_up_ket {n nup ndw : ℕ} {up dw : List ℕ} (hu : SectorList n nup up) (hd : SectorList n ndw dw) (x : ℕ → ℝ) (k : Fin n) :
    ket n up dw x ⬝ᵥ (num ℝ (orb false k)).mulVec (ket n up dw x) =
      ∑ iu ∈ Finset.range up.length, (((up[iu]?.getD 0).testBit k).toNat : ℝ) *
        ∑ id ∈ Finset.range dw.length, x (iu + up.length * id) * x (iu + up.length * id) := by
  have hk : (num ℝ (orb false k)).mulVec (ket n up dw x) =
      ket n up dw fun r => (((up[r % up.length]?.getD 0).testBit k).toNat : ℝ) * x r := by
    funext S
    rw [num_diagonal, Matrix.mulVec_diagonal]
    unfold ket
    simp only [Finset.mul_sum]
    refine Finset.sum_congr rfl fun iu _ => Finset.sum_congr rfl fun id _ => ?_
    by_cases hS : S = occ2 n up[iu] dw[id]
    · rw [if_pos hS, if_pos hS, hS]
      have hm : (iu + up.length * id : ℕ) % up.length = iu := by rw [Nat.add_mul_mod_self_left, Nat.mod_eq_of_lt iu.2]
      have hb : (orb false k ∈ occ2 n up[iu] dw[id]) ↔ up[iu].testBit k = true := by
        have h1 : up[iu] < 2 ^ n := ((hu.mem _).mp (List.getElem_mem iu.2)).1
        have := upPart_occ2 (n := n) (sdw := dw[id]) h1
        rw [show orb false k = Fin.castAdd n k from rfl, ← mem_upPart, this, mem_occF]
      rw [hm, List.getElem?_eq_getElem iu.2, Option.getD_some]
      by_cases hb2 : up[iu].testBit k = true
      · rw [if_pos (hb.mpr hb2)]
        simp only [Fin.getElem_fin] at hb2
        simp [hb2]
      · rw [if_neg (fun h => hb2 (hb.mp h))]
        simp only [Fin.getElem_fin] at hb2
        simp [hb2]
    · rw [if_neg hS, if_neg hS, mul_zero]
  rw [hk, ket_inner hu hd, mul_comm, sum_range_mul', Finset.sum_comm]
  refine Finset.sum_congr rfl fun iu hiu => ?_
  rw [Finset.mul_sum]
  refine Finset.sum_congr rfl fun id _ => ?_
  have hm : (id * up.length + iu : ℕ) % up.length = iu := by
    rw [mul_comm, Nat.mul_add_mod, Nat.mod_eq_of_lt (Finset.mem_range.mp hiu)]
  rw [hm, show id * up.length + iu = iu + up.length * id by ring]
  ring

theorem num_dw_ket {n nup ndw : ℕ} {up dw : List ℕ} (hu : SectorList n nup up) (hd : SectorList n ndw dw) (x : ℕ → ℝ) (k : Fin n) :
    ket n up dw x ⬝ᵥ (num ℝ (orb true k)).mulVec (ket n up dw x) =
      ∑ id ∈ Finset.range dw.length, (((dw[id]?.getD 0).testBit k).toNat : ℝ) *
        ∑ iu ∈ Finset.range up.length, x (iu + up.length * id) * x (iu + up.length * id) := by
  have hk : (num ℝ (orb true k)).mulVec (ket n up dw x) =
      ket n up dw fun r => (((dw[r / up.length]?.getD 0).testBit k).toNat : ℝ) * x r := by
    funext S
    rw [num_diagonal, Matrix.mulVec_diagonal]
    unfold ket
    simp only [Finset.mul_sum]
    refine Finset.sum_congr rfl fun iu _ => Finset.sum_congr rfl fun id _ => ?_
    by_cases hS : S = occ2 n up[iu] dw[id]
    · rw [if_pos hS, if_pos hS, hS]
      have hm : (iu + up.length * id : ℕ) / up.length = id := by
        rw [Nat.add_mul_div_left _ _ (by have := iu.2; omega), Nat.div_eq_of_lt iu.2, zero_add]
      have hb : (orb true k ∈ occ2 n up[iu] dw[id]) ↔ dw[id].testBit k = true := by
        have h1 : up[iu] < 2 ^ n := ((hu.mem _).mp (List.getElem_mem iu.2)).1
        have := dwPart_occ2 (n := n) (sdw := dw[id]) h1
        rw [show orb true k = Fin.natAdd n k from rfl, ← mem_dwPart, this, mem_occF]
      rw [hm, List.getElem?_eq_getElem id.2, Option.getD_some]
      by_cases hb2 : dw[id].testBit k = true
      · rw [if_pos (hb.mpr hb2)]
        simp only [Fin.getElem_fin] at hb2
        simp [hb2]
      · rw [if_neg (fun h => hb2 (hb.mp h))]
        simp only [Fin.getElem_fin] at hb2
        simp [hb2]
    · rw [if_neg hS, if_neg hS, mul_zero]
  rw [hk, ket_inner hu hd, mul_comm, sum_range_mul']
  refine Finset.sum_congr rfl fun id hid => ?_
  rw [Finset.mul_sum]
  refine Finset.sum_congr rfl fun iu hiu => ?_
  rw [Finset.mem_range] at hiu
  have hm : (id * up.length + iu : ℕ) / up.length = id := by
    rw [mul_comm, Nat.mul_add_div (by omega), Nat.div_eq_of_lt hiu, add_zero]
  rw [hm, show id * up.length + iu = iu + up.length * id by ring]
  ring

theorem sum_bits {n p : ℕ} {L : List ℕ} (h : SectorList n p L) (i : ℕ) (hi : i < L.length) :
    ∑ k : Fin n, (((L[i]?.getD 0).testBit k).toNat : ℝ) = p := by
  have hm := (h.mem _).mp (List.getElem_mem hi)
  rw [List.getElem?_eq_getElem hi, Option.getD_some]
  rw [← hm.2, ← card_occF hm.1]
  unfold occF
  rw [Finset.card_filter]
  push_cast
  refine Finset.sum_congr rfl fun k _ => ?_
  cases L[i].testBit k <;> simp

end Edpyt
