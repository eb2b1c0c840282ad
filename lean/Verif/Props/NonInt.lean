import Verif.Proof.NonInt
import Verif.Props.Sector
import Mathlib.Combinatorics.Colex
/-!
C33: the non-interacting spectrum.
-/
namespace Edpyt
open Spec

theorem gs_mem {w n p s : ℕ} (hn : n ≤ 32) (hnw : n ≤ w) (hp : p ≤ n) : s ∈ gs w n p ↔ InSector n p s := by
  obtain ⟨L, h1, -, h2, -⟩ := C01_generate_states hn hnw hp
  rw [generateStates_gs hp] at h1
  rw [Except.ok.inj h1, h2]

theorem nonIntLoop (w : ℕ) (junk : ℕ → ℕ → ℕ) (fresh : ℕ → ℝ) (ek : List ℝ) (h : ek.length * ek.length ≤ 64) (hw : ek.length ≤ w)
    (qs : List (ℕ × ℕ)) (hq : ∀ q ∈ qs, q ∈ ndindex2 (ek.length + 1) (ek.length + 1)) (hnd : qs.Nodup)
    (st : Espace (ℕ × ℕ) × WithTop ℝ) (hdis : ∀ q ∈ qs, q ∉ st.1.map Prod.fst) :
    forM' (nonIntStep junk fresh ek) (qs.map (szItem w ek.length)) st = .ok
      (st.1 ++ qs.map (fun q => (q, ⟨.spin (gs w ek.length q.1) (gs w ek.length q.2), ek.length.choose q.1 * ek.length.choose q.2,
        (productEnergies ek (gs w ek.length q.1) (gs w ek.length q.2)).insertionSort (· ≤ ·), []⟩)),
       min st.2 (minE (qs.map (fun q => (q, ⟨.spin (gs w ek.length q.1) (gs w ek.length q.2), ek.length.choose q.1 * ek.length.choose q.2,
        (productEnergies ek (gs w ek.length q.1) (gs w ek.length q.2)).insertionSort (· ≤ ·), []⟩))))) := by
  induction qs generalizing st with
  | nil => simp [forM', minE]
  | cons q qs ih =>
    rw [List.nodup_cons] at hnd
    obtain ⟨b1, b2⟩ := mem_ndindex2.mp (hq q (by simp))
    have hn : ek.length ≤ 32 := by nlinarith
    have hmem : ∀ p ≤ ek.length, ∀ s ∈ gs w ek.length p, s < 2 ^ ek.length := fun p hp s hs => ((gs_mem hn hw hp).mp hs).1
    rw [List.map_cons, forM']
    have hstep : nonIntStep junk fresh ek st (szItem w ek.length q) = .ok (dictSet st.1 q ⟨.spin (gs w ek.length q.1) (gs w ek.length q.2),
        ek.length.choose q.1 * ek.length.choose q.2,
        (productEnergies ek (gs w ek.length q.1) (gs w ek.length q.2)).insertionSort (· ≤ ·), []⟩,
        min (eigMin ((productEnergies ek (gs w ek.length q.1) (gs w ek.length q.2)).insertionSort (· ≤ ·))) st.2) := by
      simp only [nonIntStep, szItem]
      rw [addOnsites_eq junk ek h _ _ (hmem _ (by omega)) (hmem _ (by omega)) _ (by simp), gs_length (by omega), gs_length (by omega)]
    rw [hstep]
    simp only
    rw [dictSet_new _ _ (hdis q (by simp)), ih (fun x hx => hq x (by simp [hx])) hnd.2]
    · simp only [List.append_assoc, List.singleton_append, List.map_cons, minE, Except.ok.injEq, Prod.mk.injEq, true_and]
      rw [min_comm (eigMin _) st.2, min_assoc]
    · intro x hx
      simp only [List.map_append, List.map_cons, List.map_nil, List.mem_append, List.mem_singleton, not_or]
      refine ⟨hdis x (by simp [hx]), ?_⟩
      rintro rfl
      exact hnd.1 hx

/-- The levels' bit pattern: the negative ones occupied. -/
noncomputable def negState (ek : List ℝ) : ℕ := ∑ i ∈ (Finset.range ek.length).filter (fun i => ek[i]?.getD 0 < 0), 2 ^ i

theorem testBit_negState (ek : List ℝ) (i : ℕ) : (negState ek).testBit i = true ↔ i < ek.length ∧ ek[i]?.getD 0 < 0 := by
  unfold negState
  have := Finset.toFinset_bitIndices_sum_two_pow ((Finset.range ek.length).filter (fun i => ek[i]?.getD 0 < 0))
  rw [← mem_occ, occ, this]
  simp

/-- **C33.** For every level vector with `n² ≤ 64` entries after tiling (`n ≤ 8`),
`build_non_interacting_espace(ek)` returns all sectors in order; the eigenvalues of a sector are, in
ascending order, the sums of the levels occupied in each product state of the sector; and `egs` is twice
the sum of the negative levels. Neither uninitialised memory nor shifts matter. -/
theorem C33_non_interacting (w : ℕ) (junk : ℕ → ℕ → ℕ) (fresh : ℕ → ℝ) (ek : List ℝ) (h : ek.length * ek.length ≤ 64) (hw : ek.length ≤ w) :
    ∃ es, buildNonInteracting w junk fresh ek = .ok (es, ((2 * (ek.map fun x => min x 0).sum : ℝ) : WithTop ℝ)) ∧
      es.map Prod.fst = ndindex2 (ek.length + 1) (ek.length + 1) ∧
      ∀ p ∈ es, ∃ up dw, generateStates w ek.length p.1.1 = .ok up ∧ generateStates w ek.length p.1.2 = .ok dw ∧
        p.2.states = .spin up dw ∧ p.2.eigvals.Pairwise (· ≤ ·) ∧
        p.2.eigvals.Perm (dw.flatMap fun d => up.map fun u => levelSum ek u + levelSum ek d) := by
  have hn : ek.length ≤ 32 := by nlinarith
  have hloop := nonIntLoop w junk fresh ek h hw (ndindex2 (ek.length + 1) (ek.length + 1)) (fun q hq => hq) (nodup_ndindex2 _ _) ([], ⊤) (by simp)
  set es : Espace (ℕ × ℕ) := (ndindex2 (ek.length + 1) (ek.length + 1)).map (fun q => (q, ⟨.spin (gs w ek.length q.1) (gs w ek.length q.2),
      ek.length.choose q.1 * ek.length.choose q.2,
      (productEnergies ek (gs w ek.length q.1) (gs w ek.length q.2)).insertionSort (· ≤ ·), []⟩)) with hes
  have hsum : (ek.map fun x => min x 0).sum = ∑ i ∈ Finset.range ek.length, min (ek[i]?.getD 0) 0 := by
    have he : ek = (List.range ek.length).map fun i => ek[i]?.getD 0 := by
      apply List.ext_getElem
      · simp
      · intro i h1 h2; simp [h1]
    conv_lhs => rw [he]
    rw [List.map_map]
    rw [sum_map_toFinset _ List.nodup_range, List.toFinset_range]
    rfl
  have hmin : minE es = ((2 * (ek.map fun x => min x 0).sum : ℝ) : WithTop ℝ) := by
    have hlow : ∀ s, ∑ i ∈ Finset.range ek.length, min (ek[i]?.getD 0) 0 ≤ levelSum ek s := by
      intro s
      unfold levelSum
      apply Finset.sum_le_sum
      intro i _
      split_ifs
      · exact min_le_left _ _
      · exact min_le_right _ _
    have hneg : levelSum ek (negState ek) = ∑ i ∈ Finset.range ek.length, min (ek[i]?.getD 0) 0 := by
      unfold levelSum
      apply Finset.sum_congr rfl
      intro i hi
      have hi' := Finset.mem_range.mp hi
      by_cases hx : ek[i]?.getD 0 < 0
      · rw [if_pos ((testBit_negState ek i).mpr ⟨hi', hx⟩), min_eq_left hx.le]
      · rw [if_neg (fun hc => hx ((testBit_negState ek i).mp hc).2), min_eq_right (not_lt.mp hx)]
    have hlt : negState ek < 2 ^ ek.length := by
      apply Nat.lt_pow_two_of_testBit
      intro i hi
      rw [Bool.eq_false_iff]
      intro hc
      have := ((testBit_negState ek i).mp hc).1
      omega
    have hcard : particles (negState ek) ≤ ek.length := by
      unfold particles
      calc (occ (negState ek)).card ≤ (Finset.range ek.length).card := by
            apply Finset.card_le_card
            intro i hi
            exact Finset.mem_range.mpr ((testBit_negState ek i).mp (mem_occ.mp hi)).1
        _ = _ := Finset.card_range _
    have hin : negState ek ∈ gs w ek.length (particles (negState ek)) := (gs_mem hn hw hcard).mpr ⟨hlt, rfl⟩
    rw [hsum]
    apply le_antisymm
    · let q : ℕ × ℕ := (particles (negState ek), particles (negState ek))
      have hq : q ∈ ndindex2 (ek.length + 1) (ek.length + 1) := mem_ndindex2.mpr ⟨by simp only [q]; omega, by simp only [q]; omega⟩
      refine minE_le (p := (q, ⟨.spin (gs w ek.length q.1) (gs w ek.length q.2), ek.length.choose q.1 * ek.length.choose q.2,
        (productEnergies ek (gs w ek.length q.1) (gs w ek.length q.2)).insertionSort (· ≤ ·), []⟩)) ?_ ?_
      · rw [hes]; exact List.mem_map.mpr ⟨q, hq, rfl⟩
      · simp only [List.mem_insertionSort]
        unfold productEnergies
        refine List.mem_flatMap.mpr ⟨_, hin, List.mem_map.mpr ⟨_, hin, ?_⟩⟩
        rw [hneg]; ring
    · have hne : es ≠ [] := by
        rw [hes]; intro hc
        have := congrArg List.length hc
        simp [length_ndindex2] at this
      have hpos : ∀ p ∈ es, p.2.eigvals ≠ [] := by
        intro p hp
        rw [hes] at hp
        obtain ⟨q, hq, rfl⟩ := List.mem_map.mp hp
        obtain ⟨b1, b2⟩ := mem_ndindex2.mp hq
        intro hc
        have := congrArg List.length hc
        simp only [List.length_insertionSort, productEnergies, List.length_flatMap, List.length_map, List.length_nil,
          List.map_const', List.sum_replicate, smul_eq_mul] at this
        rw [gs_length (by omega), gs_length (by omega)] at this
        have := Nat.mul_pos (Nat.choose_pos (show q.2 ≤ ek.length by omega)) (Nat.choose_pos (show q.1 ≤ ek.length by omega))
        omega
      obtain ⟨p, hp, x, hx, e⟩ := minE_mem hne hpos
      rw [e]
      rw [hes] at hp
      obtain ⟨q, hq, rfl⟩ := List.mem_map.mp hp
      simp only [List.mem_insertionSort] at hx
      unfold productEnergies at hx
      obtain ⟨d, -, hx⟩ := List.mem_flatMap.mp hx
      obtain ⟨u, -, rfl⟩ := List.mem_map.mp hx
      have h1 := hlow u
      have h2 := hlow d
      exact_mod_cast (by linarith : (2 * ∑ i ∈ Finset.range ek.length, min (ek[i]?.getD 0) 0) ≤ levelSum ek u + levelSum ek d)
  refine ⟨es, ?_, ?_, ?_⟩
  · simp only [buildNonInteracting, szIterSectors_eq, bind, Except.bind]
    rw [hloop]
    simp only [List.nil_append, top_inf_eq]
    rw [hmin]
  · rw [hes, List.map_map]
    exact List.map_id _
  · intro p hp
    rw [hes] at hp
    obtain ⟨q, hq, rfl⟩ := List.mem_map.mp hp
    obtain ⟨b1, b2⟩ := mem_ndindex2.mp hq
    refine ⟨_, _, generateStates_gs (show q.1 ≤ _ by omega), generateStates_gs (show q.2 ≤ _ by omega), rfl, ?_, List.perm_insertionSort _ _⟩
    exact List.pairwise_insertionSort _ _

/-- Non-vacuity: two levels, one negative. -/
example : ∃ es, buildNonInteracting 64 (fun _ _ => 7) (fun _ => 13) [-1, 2] = .ok (es, ((-2 : ℝ) : WithTop ℝ)) := by
  obtain ⟨es, h, -⟩ := C33_non_interacting 64 (fun _ _ => 7) (fun _ => 13) [-1, 2] (by simp) (by simp)
  refine ⟨es, ?_⟩
  rw [h]
  norm_num

end Edpyt
