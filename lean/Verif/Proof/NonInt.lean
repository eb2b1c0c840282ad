import Verif.Model.NonInt
import Verif.Proof.Espace
import Verif.Spec.Bits
import Mathlib.Data.List.Sort
/-!
Lemmas for `build_non_interacting_espace`.
-/
namespace Edpyt
open Spec

theorem getElem?_flatMap_map {α β γ : Type} (f : α → β → γ) (up : List β) (dw : List α) (iup idw : ℕ) (hu : iup < up.length)
    (hd : idw < dw.length) : (dw.flatMap fun d => up.map (f d))[iup + idw * up.length]? = some (f dw[idw] up[iup]) := by
  induction dw generalizing idw with
  | nil => simp at hd
  | cons d dw ih =>
    rw [List.flatMap_cons]
    cases idw with
    | zero => rw [List.getElem?_append_left (by simpa using hu)]; simp [hu]
    | succ k =>
      rw [List.getElem?_append_right (by simp [Nat.succ_mul]; omega)]
      have : iup + (k + 1) * up.length - (up.map (f d)).length = iup + k * up.length := by
        simp [Nat.succ_mul]; omega
      rw [this, ih k (by simpa using hd)]
      simp

/-- Spec: the sum of the levels occupied in the state `s`. -/
noncomputable def Spec.levelSum (ek : List ℝ) (s : ℕ) : ℝ := ∑ i ∈ Finset.range ek.length, if s.testBit i then ek[i]?.getD 0 else 0

theorem shr_and_one (s i : ℕ) : (s >>> i) &&& 1 ≠ 0 ↔ s.testBit i = true := by
  rw [Nat.testBit]
  simp [Nat.and_comm]

theorem sumDiags_eq (junk : ℕ → ℕ → ℕ) (diags : List ℝ) (h : diags.length ≤ 64) (s : ℕ) :
    sumDiags junk diags s = ∑ i ∈ Finset.range diags.length, if s.testBit i then diags[i]?.getD 0 else 0 := by
  unfold sumDiags
  generalize hn : diags.length = n at h
  clear hn
  induction n with
  | zero => simp
  | succ k ih =>
    rw [List.range_succ, List.foldl_append, ih (by omega), Finset.sum_range_succ]
    simp only [List.foldl_cons, List.foldl_nil, shr64, if_pos (show k < 64 by omega), shr_and_one]
    split_ifs <;> simp

theorem tileRow_length (ek : List ℝ) : (tileRow ek).length = ek.length * ek.length := by
  unfold tileRow; rw [List.length_flatten]; simp

theorem tileRow_get (ek : List ℝ) (i : ℕ) (hi : i < ek.length) : (tileRow ek)[i]?.getD 0 = ek[i]?.getD 0 := by
  unfold tileRow
  cases h : ek.length with
  | zero => omega
  | succ k =>
    rw [List.replicate_succ, List.flatten_cons, List.getElem?_append_left hi]

theorem sumDiags_tile (junk : ℕ → ℕ → ℕ) (ek : List ℝ) (h : ek.length * ek.length ≤ 64) {s : ℕ} (hs : s < 2 ^ ek.length) :
    sumDiags junk (tileRow ek) s = levelSum ek s := by
  rw [sumDiags_eq _ _ (by rw [tileRow_length]; exact h), tileRow_length, levelSum]
  by_cases h0 : ek.length = 0
  · rw [h0]; simp
  rw [← Finset.sum_subset (s₁ := Finset.range ek.length)]
  · apply Finset.sum_congr rfl
    intro i hi
    rw [tileRow_get ek i (Finset.mem_range.mp hi)]
  · intro i hi
    have := Finset.mem_range.mp hi
    exact Finset.mem_range.mpr (this.trans_le (Nat.le_mul_of_pos_left _ (by omega)))
  · intro i _ hi
    have : ek.length ≤ i := by simpa using hi
    rw [Nat.testBit_lt_two_pow (hs.trans_le (Nat.pow_le_pow_right (by norm_num) this))]
    simp

theorem sumDiags_zero (junk : ℕ → ℕ → ℕ) (ek : List ℝ) (h : ek.length ≤ 64) (s : ℕ) : sumDiags junk (ek.map fun _ => 0) s = 0 := by
  rw [sumDiags_eq _ _ (by simpa using h)]
  apply Finset.sum_eq_zero
  intro i hi
  have : i < ek.length := by simpa using hi
  simp [this]

/-- The energies of a sector: one per product state. -/
noncomputable def Spec.productEnergies (ek : List ℝ) (up dw : List ℕ) : List ℝ :=
  dw.flatMap fun d => up.map fun u => levelSum ek u + levelSum ek d

theorem addOnsites_eq (junk : ℕ → ℕ → ℕ) (ek : List ℝ) (h : ek.length * ek.length ≤ 64) (up dw : List ℕ)
    (hup : ∀ s ∈ up, s < 2 ^ ek.length) (hdw : ∀ s ∈ dw, s < 2 ^ ek.length) (vec : List ℝ) (hv : vec.length = up.length * dw.length) :
    addOnsites junk (tileRow ek, tileRow ek) (ek.map fun _ => 0) up dw vec 0 = productEnergies ek up dw := by
  have hlen : (productEnergies ek up dw).length = up.length * dw.length := by
    unfold productEnergies
    rw [List.length_flatMap]
    simp [mul_comm]
  have hn : ek.length ≤ 64 := by nlinarith [Nat.zero_le ek.length]
  apply List.ext_getElem?
  intro l
  by_cases hl : l < up.length * dw.length
  · rw [mul_comm] at hl
    obtain ⟨idw, iup, hd, hu, rfl⟩ := lt_mul_split hl
    rw [show idw * up.length + iup = iup + idw * up.length by ring]
    unfold productEnergies
    rw [getElem?_flatMap_map (fun d u => levelSum ek u + levelSum ek d) up dw iup idw hu hd]
    unfold addOnsites
    apply runOps_store
    · rw [hv]; nlinarith
    · exact ⟨_, List.mem_flatMap.mpr ⟨(dw[idw], idw), by rw [List.mem_zipIdx_iff_getElem?]; simp [hd],
        List.mem_map.mpr ⟨(up[iup], iup), by rw [List.mem_zipIdx_iff_getElem?]; simp [hu], rfl⟩⟩, rfl⟩
    · intro o ho hloc
      rw [List.mem_flatMap] at ho
      obtain ⟨⟨sdw, k⟩, hk, ho⟩ := ho
      obtain ⟨⟨sup, m⟩, hm, rfl⟩ := List.mem_map.mp ho
      rw [List.mem_zipIdx_iff_getElem?] at hk hm
      simp only at hk hm hloc
      obtain ⟨hkl, hke⟩ := List.getElem?_eq_some_iff.mp hk
      obtain ⟨hml, hme⟩ := List.getElem?_eq_some_iff.mp hm
      have he : k = idw ∧ m = iup := by
        apply (split_index_eq hml hu).mp
        linarith
      obtain ⟨rfl, rfl⟩ := he
      subst hke hme
      funext _
      simp only [List.getElem?_map, List.getElem?_eq_getElem hml, Option.map_some, Option.getD_some]
      rw [sumDiags_tile junk ek h (hup _ (List.getElem_mem hml)), sumDiags_tile junk ek h (hdw _ (List.getElem_mem hkl)),
        sumDiags_zero junk ek hn]
      ring
  · rw [List.getElem?_eq_none (l := productEnergies ek up dw) (by rw [hlen]; omega),
      List.getElem?_eq_none (by unfold addOnsites; rw [runOps_length, hv]; omega)]

end Edpyt
