import Verif.Model.Cotnl
import Verif.Proof.Project
import Verif.Proof.RateDict
import Verif.Spec.KetN
/-!
Lemmas on the projections of `edpyt/cotnl.py` and the dictionaries built from them.
-/
namespace Edpyt
open Spec

/-- A well-formed sector with `N` electrons on `n` sites. -/
structure NSctOk (n N : ℕ) (s : Sct) (st : List ℕ) : Prop where
  states : s.states = .total st
  list : SectorList (2 * n) N st
  d : s.d = st.length

theorem ladder_apply_nocheck {op : Ladder} {s pos n : ℕ} (h32 : s < 2 ^ 32) (hp : pos < 32) (hc : ¬ op.check s pos ≠ 0) : ∃ e, op.apply s pos n = .error e := by
  cases op with
  | c => exact ⟨_, c_of_empty h32 hp (by simpa [Ladder.check, checkFull_eq] using hc)⟩
  | cdg => exact ⟨_, cdg_of_full h32 hp (by simpa [Ladder.check, checkEmpty_eq] using hc)⟩

theorem nProject_loop {m pI pJ pos junk : ℕ} {sI sJ : List ℕ} {op : Ladder} (hm32 : m ≤ 32) (hpos : pos < m) (hsh : op.Shift pI pJ)
    (hI : SectorList m pI sI) (hJ : SectorList m pJ sJ) (I J : Sct) (hd : J.d = sJ.length) :
    forM' (nProjectStep junk op pos m sI sJ I J) (List.range sI.length) (fun _ _ => 0)
      = .ok fun j k => ∑ iI : Fin sI.length, ∑ iJ : Fin sJ.length,
          op.mat (⟨pos, hpos⟩ : Fin m) (occF m sJ[iJ]) (occF m sI[iI]) * ((J.eigvecs[j]?.getD 0) iJ * (I.eigvecs[k]?.getD 0) iI) := by
  let G : ℕ → ℕ → ℕ → ℝ := fun iI j k => if h : iI < sI.length then ∑ iJ : Fin sJ.length,
          op.mat (⟨pos, hpos⟩ : Fin m) (occF m sJ[iJ]) (occF m (sI[iI])) * ((J.eigvecs[j]?.getD 0) iJ * (I.eigvecs[k]?.getD 0) iI) else 0
  rw [forM'_ok _ (fun v0 iI => fun j k => v0 j k + G iI j k), foldl_add_fun]
  · congr 1
    funext j k
    rw [zero_add, sum_map_range, Finset.sum_range]
    apply Finset.sum_congr rfl
    intro iI _
    simp only [G, iI.2, dif_pos]; rfl
  · intro v0 iI hi
    rw [List.mem_range] at hi
    unfold nProjectStep
    rw [getItem_natCast _ _ hi]
    simp only [bind, Except.bind, pure, Except.pure]
    have hs := (hI.mem _).mp (List.getElem_mem hi)
    have h32 : sI[iI] < 2 ^ 32 := lt_of_lt_of_le hs.1 (Nat.pow_le_pow_right (by norm_num) hm32)
    by_cases hc : op.check sI[iI] pos ≠ 0
    · obtain ⟨iJ, hiJ, ha, hb, hm⟩ := ladder_check hm32 hsh hJ hpos hs hc junk
      rw [ha]
      simp only [hb]
      have hp : pyIndex J.d (iJ : ℤ) = .ok iJ := by unfold pyIndex; rw [if_pos (by omega), if_pos (by omega)]; simp
      simp only [hp]
      congr 1
      funext j k
      simp only [G, hi, dif_pos]
      congr 1
      rw [Finset.sum_eq_single (⟨iJ, hiJ⟩ : Fin sJ.length)]
      · simp [hm iJ hiJ]
      · intro b _ hb'
        have := hm b b.2
        rw [if_neg (fun h => hb' (Fin.ext h))] at this
        simp only [Fin.getElem_fin, this, zero_mul]
      · simp
    · obtain ⟨e, he⟩ := ladder_apply_nocheck (n := m) h32 (lt_of_lt_of_le hpos hm32) hc
      rw [he]
      simp only
      congr 1
      funext j k
      simp only [G, hi, dif_pos, ladder_nocheck hpos hc, zero_mul, Finset.sum_const_zero, add_zero]

theorem ketN_dot (m : ℕ) (sJ sI : List ℕ) (x y : ℕ → ℝ) (A : Matrix (Finset (Fin m)) (Finset (Fin m)) ℝ) :
    ketN m sJ x ⬝ᵥ (A.mulVec (ketN m sI y)) = ∑ a : Fin sI.length, ∑ b : Fin sJ.length, A (occF m sJ[b]) (occF m sI[a]) * (x b * y a) := by
  have h1 : ∀ T, A.mulVec (ketN m sI y) T = ∑ a : Fin sI.length, A T (occF m sI[a]) * y a := by
    intro T
    unfold Matrix.mulVec dotProduct ketN
    simp only [Finset.mul_sum]
    rw [Finset.sum_comm]
    refine Finset.sum_congr rfl fun a _ => ?_
    simp [mul_ite]
  unfold dotProduct
  simp only [h1]
  unfold ketN
  simp only [Finset.sum_mul]
  rw [Finset.sum_comm]
  rw [Finset.sum_comm (s := (Finset.univ : Finset (Fin sI.length)))]
  refine Finset.sum_congr rfl fun b _ => ?_
  simp only [ite_mul, zero_mul, Finset.sum_ite_eq', Finset.sum_ite_eq, Finset.mem_univ, if_true]
  rw [Finset.mul_sum]
  exact Finset.sum_congr rfl fun a _ => by ring

theorem nProjectAll_ok {junk spin n : ℕ} {op : Ladder} {I J : Sct} (f : ℕ → ℕ → ℕ → ℝ) (h : ∀ i, i < n → nProject junk spin i op n I J = .ok (f i)) :
    nProjectAll junk spin op n I J = .ok ((List.range n).map f) := by
  unfold nProjectAll
  rw [forM'_ok _ (fun acc i => acc ++ [f i])]
  · have : ∀ (l : List ℕ) (acc : List (ℕ → ℕ → ℝ)), l.foldl (fun acc i => acc ++ [f i]) acc = acc ++ l.map f := by
      intro l
      induction l with
      | nil => simp
      | cons x l ih => intro acc; rw [List.foldl_cons, ih]; simp
    rw [this, List.nil_append]
  · intro acc i hi
    rw [h i (List.mem_range.mp hi)]
    rfl

section
variable {α : Type}

theorem keys_appendN (sd : List ((NId × NId) × List α)) (p : (NId × NId) × α) (q : NId × NId) :
    q ∈ (appendN sd p).map Prod.fst ↔ q = p.1 ∨ q ∈ sd.map Prod.fst := by
  unfold appendN
  generalize (match dictGet sd p.1 with | .ok l => l | .error _ => []) ++ [p.2] = v
  unfold dictSet
  split
  · rename_i hk
    have : (sd.map fun x => if x.1 = p.1 then (p.1, v) else x).map Prod.fst = sd.map Prod.fst := by
      rw [List.map_map]
      refine List.map_congr_left fun x _ => ?_
      by_cases hp : x.1 = p.1 <;> simp [hp]
    rw [this]
    constructor
    · exact .inr
    · rintro (rfl | h)
      · exact hk
      · exact h
  · rw [List.map_append, List.mem_append]
    simp only [List.map_cons, List.map_nil, List.mem_singleton]
    exact or_comm

theorem keys_foldl_appendN (l : List ((NId × NId) × α)) : ∀ (sd : List ((NId × NId) × List α)) (q : NId × NId),
    q ∈ (l.foldl appendN sd).map Prod.fst ↔ q ∈ sd.map Prod.fst ∨ q ∈ l.map Prod.fst := by
  induction l with
  | nil => simp
  | cons p l ih =>
    intro sd q
    rw [List.foldl_cons, ih, keys_appendN, List.map_cons, List.mem_cons]
    tauto
end

end Edpyt
