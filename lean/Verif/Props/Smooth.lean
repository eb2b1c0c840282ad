import Verif.Model.Smooth
import Verif.Props.CoAmplitude
/-!
# C136: `smooth` is a low-pass filter, and it does not keep self-energies causal
-/
namespace Edpyt
open ZMod

variable {M : ℕ} [NeZero M] {d cutoff : ℝ}

theorem fftfreq_neg (k : ZMod M) : |fftfreq M d (-k)| = |fftfreq M d k| := by
  by_cases hk : k = 0
  · rw [hk, neg_zero]
  have hv : (-k).val = M - k.val := by
    haveI : NeZero k := ⟨hk⟩
    exact ZMod.val_neg_of_ne_zero k
  have hpos : 0 < k.val := Nat.pos_of_ne_zero fun h => hk ((ZMod.val_eq_zero k).mp h)
  have hlt := ZMod.val_lt k
  unfold fftfreq
  rw [hv, abs_div, abs_div]
  congr 1
  have hc : ((M - k.val : ℕ) : ℝ) = M - k.val := by rw [Nat.cast_sub hlt.le]
  rw [hc]
  split_ifs with h1 h2 h2
  · have : M - k.val = k.val := by omega
    rw [← hc, this]
  · rw [abs_sub_comm]
  · rw [show (M : ℝ) - k.val - M = -k.val by ring, abs_neg]
  · have : M - k.val = k.val := by omega
    rw [← hc, this]

/-- The complex filter. -/
noncomputable def bandFilter (M : ℕ) [NeZero M] (d cutoff : ℝ) (s : ZMod M → ℂ) : ZMod M → ℂ :=
  ZMod.dft.symm fun k => if cutoff < |fftfreq M d k| then 0 else ZMod.dft s k

theorem dft_star (s : ZMod M → ℂ) (k : ZMod M) : ZMod.dft (fun j => star (s j)) k = star (ZMod.dft s (-k)) := by
  rw [dft_apply, dft_apply, star_sum]
  refine Finset.sum_congr rfl fun j _ => ?_
  rw [smul_eq_mul, smul_eq_mul, star_mul', mul_neg, neg_neg]
  congr 1
  rw [AddChar.map_neg_eq_conj]
  rfl

theorem bandFilter_star (s : ZMod M → ℂ) (j : ZMod M) : bandFilter M d cutoff (fun j => star (s j)) j = star (bandFilter M d cutoff s j) := by
  have h : bandFilter M d cutoff (fun j => star (s j)) = fun j => star (bandFilter M d cutoff s j) := by
    apply ZMod.dft.injective
    funext k
    rw [dft_star]
    unfold bandFilter
    rw [LinearEquiv.apply_symm_apply, LinearEquiv.apply_symm_apply, fftfreq_neg, dft_star]
    split_ifs
    · rw [star_zero]
    · rfl
  rw [h]

theorem bandFilter_real (x : ZMod M → ℝ) (j : ZMod M) : bandFilter M d cutoff (fun j => (x j : ℂ)) j = (lowPass M d cutoff x j : ℂ) := by
  have h := bandFilter_star (d := d) (cutoff := cutoff) (fun j => (x j : ℂ)) j
  simp only [Complex.star_def, Complex.conj_ofReal] at h
  exact (Complex.conj_eq_iff_re.mp h.symm).symm

theorem smoothMesh_eq (s : ZMod M → ℂ) : smoothMesh M d cutoff s = bandFilter M d cutoff s := by
  funext j
  unfold smoothMesh
  rw [← bandFilter_real, ← bandFilter_real]
  have e : s = (fun j => ((s j).re : ℂ)) + Complex.I • fun j => ((s j).im : ℂ) := by
    funext j
    simp only [Pi.add_apply, Pi.smul_apply, smul_eq_mul]
    rw [mul_comm]
    exact (Complex.re_add_im (s j)).symm
  conv_rhs => rw [e]
  unfold bandFilter
  rw [← smul_eq_mul, ← Pi.smul_apply, ← Pi.add_apply, ← _root_.map_smul, ← map_add]
  refine congrFun (congrArg _ (funext fun k => ?_)) j
  rw [Pi.add_apply, Pi.smul_apply, map_add, _root_.map_smul, Pi.add_apply, Pi.smul_apply]
  split_ifs <;> simp

/-- **C136** On the mesh: the frequencies up to the cutoff are kept as they are, and all others are removed, for every signal, mesh and cutoff. -/
theorem C136_band (s : ZMod M → ℂ) (k : ZMod M) : ZMod.dft (smoothMesh M d cutoff s) k = if |fftfreq M d k| ≤ cutoff then ZMod.dft s k else 0 := by
  rw [smoothMesh_eq]
  unfold bandFilter
  rw [LinearEquiv.apply_symm_apply]
  split_ifs with h1 h2 h2
  · linarith
  · rfl
  · rfl
  · exact absurd (not_lt.mp h1) h2

/-- **C136** On the mesh smoothing is linear. -/
theorem C136_linear (a b : ℂ) (s t : ZMod M → ℂ) : smoothMesh M d cutoff (fun j => a * s j + b * t j) = fun j => a * smoothMesh M d cutoff s j + b * smoothMesh M d cutoff t j := by
  apply ZMod.dft.injective
  funext k
  have e1 : (fun j => a * s j + b * t j) = a • s + b • t := rfl
  have e2 : (fun j => a * smoothMesh M d cutoff s j + b * smoothMesh M d cutoff t j) = a • smoothMesh M d cutoff s + b • smoothMesh M d cutoff t := rfl
  rw [C136_band, e1, e2, map_add, map_add, _root_.map_smul, _root_.map_smul, _root_.map_smul, _root_.map_smul, Pi.add_apply, Pi.add_apply, Pi.smul_apply, Pi.smul_apply, Pi.smul_apply, Pi.smul_apply, C136_band, C136_band]
  split_ifs <;> simp

/-- **C136** On the mesh smoothing a smoothed signal changes nothing. -/
theorem C136_idempotent (s : ZMod M → ℂ) : smoothMesh M d cutoff (smoothMesh M d cutoff s) = smoothMesh M d cutoff s := by
  apply ZMod.dft.injective
  funext k
  rw [C136_band, C136_band]
  split_ifs <;> rfl

/-- **C136** On the mesh smoothing keeps the mean, for every cutoff that is not negative. -/
theorem C136_mean (hc : 0 ≤ cutoff) (s : ZMod M → ℂ) : ∑ j, smoothMesh M d cutoff s j = ∑ j, s j := by
  rw [← dft_apply_zero, ← dft_apply_zero, C136_band, if_pos]
  unfold fftfreq
  rw [ZMod.val_zero, if_pos (Nat.succ_pos _)]
  simpa using hc

/-! ### The interpolations -/

/-- The points are in ascending order. -/
def Ascending (l : List (ℝ × ℂ)) : Prop := l.Pairwise fun a b => a.1 < b.1

theorem interpLin_node : ∀ {l : List (ℝ × ℂ)}, Ascending l → 2 ≤ l.length → ∀ {q}, q ∈ l → interpLin l q.1 = some q.2 := by
  intro l
  induction l with
  | nil => intro _ h; simp at h
  | cons a l ih =>
    intro hs hl q hq
    cases l with
    | nil => simp at hl
    | cons b l =>
      obtain ⟨ha, hs'⟩ := List.pairwise_cons.mp hs
      have hab : a.1 < b.1 := ha b (by simp)
      unfold interpLin
      rcases List.mem_cons.mp hq with rfl | hq
      · rw [if_pos hab.le, if_pos le_rfl]
        simp
      · have haq := ha q hq
        rcases List.mem_cons.mp hq with rfl | hq'
        · rw [if_pos le_rfl, if_pos hab.le, div_self (by linarith)]
          simp
        · obtain ⟨hb, -⟩ := List.pairwise_cons.mp hs'
          rw [if_neg (not_le.mpr (hb q hq'))]
          refine ih hs' ?_ hq
          cases l with
          | nil => cases hq'
          | cons c l => simp

theorem interpLin_within : ∀ {l : List (ℝ × ℂ)}, Ascending l → 2 ≤ l.length → ∀ {a b : ℝ × ℂ} {p : ℝ}, l.head? = some a → l.getLast? = some b → a.1 ≤ p → p ≤ b.1 → ∃ v, interpLin l p = some v := by
  intro l
  induction l with
  | nil => intro _ h; simp at h
  | cons a l ih =>
    intro hs hl a' b p h1 h2 hap hpb
    cases l with
    | nil => simp at hl
    | cons c l =>
      have : a = a' := by simpa using h1
      subst this
      unfold interpLin
      split_ifs with h3
      · exact ⟨_, rfl⟩
      · rw [List.getLast?_cons_cons] at h2
        refine ih (List.pairwise_cons.mp hs).2 ?_ (a := c) rfl h2 (not_le.mp h3).le hpb
        cases l with
        | nil =>
          have : c = b := by simpa using h2
          exact absurd (this ▸ hpb) h3
        | cons x l => simp

theorem interpLin_outside : ∀ {l : List (ℝ × ℂ)}, Ascending l → ∀ {a b : ℝ × ℂ} {p : ℝ}, l.head? = some a → l.getLast? = some b → p < a.1 ∨ b.1 < p → interpLin l p = none := by
  intro l
  induction l with
  | nil => intro _ a b p h; simp at h
  | cons a l ih =>
    intro hs a' b p h1 h2 hp
    cases l with
    | nil => rfl
    | cons c l =>
      have : a = a' := by simpa using h1
      subst this
      obtain ⟨ha, hs'⟩ := List.pairwise_cons.mp hs
      rw [List.getLast?_cons_cons] at h2
      unfold interpLin
      have hcb : c.1 ≤ b.1 := by
        have hb : b ∈ c :: l := List.mem_of_getLast? h2
        rcases List.mem_cons.mp hb with rfl | hb
        · exact le_rfl
        · exact ((List.pairwise_cons.mp hs').1 b hb).le
      rcases hp with hp | hp
      · rw [if_pos (hp.le.trans (ha c (by simp)).le), if_neg (not_le.mpr hp)]
      · rw [if_neg (not_le.mpr (hcb.trans_lt hp))]
        exact ih hs' (a := c) rfl h2 (Or.inr hp)

/-- The mesh as points with values. -/
noncomputable def meshPts (lo hi : ℝ) (M : ℕ) (y : ℕ → ℂ) : List (ℝ × ℂ) := (List.range M).map fun j => (meshPoint lo hi M j, y j)

theorem meshPts_ascending {lo hi : ℝ} (h : lo < hi) {m : ℕ} (y : ℕ → ℂ) : Ascending (meshPts lo hi (m + 2) y) := by
  unfold Ascending meshPts
  rw [List.pairwise_map]
  refine List.pairwise_lt_range.imp fun {i j} hij => ?_
  unfold meshPoint
  have h1 : 0 < (hi - lo) / (((m + 2 : ℕ) : ℝ) - 1) := by
    apply div_pos (by linarith)
    push_cast
    linarith [(Nat.cast_nonneg m : (0 : ℝ) ≤ m)]
  have h2 : (i : ℝ) < j := by exact_mod_cast hij
  simp only
  nlinarith

theorem meshPoint_zero (lo hi : ℝ) (M : ℕ) : meshPoint lo hi M 0 = lo := by simp [meshPoint]

theorem meshPoint_last (lo hi : ℝ) (m : ℕ) : meshPoint lo hi (m + 2) (m + 1) = hi := by
  unfold meshPoint
  have : ((m + 2 : ℕ) : ℝ) - 1 = ((m + 1 : ℕ) : ℝ) := by push_cast; ring
  rw [this, mul_div_cancel₀]
  · ring
  · exact_mod_cast (Nat.succ_ne_zero m)

theorem meshPoint_within {lo hi : ℝ} (h : lo < hi) {m j : ℕ} (hj : j < m + 2) : lo ≤ meshPoint lo hi (m + 2) j ∧ meshPoint lo hi (m + 2) j ≤ hi := by
  have h1 : 0 < (hi - lo) / (((m + 2 : ℕ) : ℝ) - 1) := by
    apply div_pos (by linarith)
    push_cast
    linarith [(Nat.cast_nonneg m : (0 : ℝ) ≤ m)]
  have h2 : (j : ℝ) ≤ ((m + 1 : ℕ) : ℝ) := by exact_mod_cast (by omega : j ≤ m + 1)
  constructor
  · unfold meshPoint
    have : (0 : ℝ) ≤ j := Nat.cast_nonneg j
    nlinarith
  · have := meshPoint_last lo hi m
    unfold meshPoint at this ⊢
    nlinarith

/-- **C136** The function that `smooth` returns, for points in ascending order over at least 0.01: on the mesh it is the filtered interpolation of the points, and outside it is zero. -/
theorem C136_smooth {pts : List (ℝ × ℂ)} (hs : Ascending pts) (hl : 2 ≤ pts.length) {a b : ℝ × ℂ} (ha : pts.head? = some a) (hb : pts.getLast? = some b) (hw : 1 / 100 ≤ b.1 - a.1) (cutoff : ℝ) :
    ∃ (m : ℕ) (s : ℕ → ℂ) (S : ℝ → ℂ), meshSize a.1 b.1 = m + 2 ∧ smooth pts cutoff = .ok S ∧
      (∀ j < m + 2, interpLin pts (meshPoint a.1 b.1 (m + 2) j) = some (s j)) ∧
      (∀ j < m + 2, S (meshPoint a.1 b.1 (m + 2) j) = smoothMesh (m + 2) (meshPoint a.1 b.1 (m + 2) 1 - meshPoint a.1 b.1 (m + 2) 0) cutoff (fun k => s k.val) j) ∧
      (∀ e, e < a.1 ∨ b.1 < e → S e = 0) := by
  have hM : 2 ≤ meshSize a.1 b.1 := by
    unfold meshSize
    refine Nat.le_floor ?_
    push_cast
    linarith
  obtain ⟨m, hm⟩ : ∃ m, meshSize a.1 b.1 = m + 2 := ⟨meshSize a.1 b.1 - 2, by omega⟩
  have hlt : a.1 < b.1 := by linarith
  have hin : ∀ j < m + 2, ∃ v, interpLin pts (meshPoint a.1 b.1 (m + 2) j) = some v := fun j hj =>
    interpLin_within hs hl ha hb (meshPoint_within hlt hj).1 (meshPoint_within hlt hj).2
  have hin' : ∀ j, ∃ v, j < m + 2 → interpLin pts (meshPoint a.1 b.1 (m + 2) j) = some v := fun j => by
    by_cases hj : j < m + 2
    · obtain ⟨v, hv⟩ := hin j hj
      exact ⟨v, fun _ => hv⟩
    · exact ⟨0, fun h => absurd h hj⟩
  choose s hsv using hin'
  have hmap := mapM_ok_of (fun j => inBounds (interpLin pts (meshPoint a.1 b.1 (m + 2) j))) s (List.range (m + 2)) (fun j hj => by
        rw [hsv j (List.mem_range.mp hj)]
        rfl)
  have hss : (fun k : ZMod (m + 2) => ((List.range (m + 2)).map s)[k.val]?.getD 0) = fun k => s k.val := by
    funext k
    have : k.val < m + 2 := ZMod.val_lt k
    rw [List.getElem?_map, List.getElem?_range this]
    rfl
  set y := smoothMesh (m + 2) (meshPoint a.1 b.1 (m + 2) 1 - meshPoint a.1 b.1 (m + 2) 0) cutoff (fun k => s k.val) with hy
  have hS : smooth pts cutoff = .ok fun e => (interpLin (meshPts a.1 b.1 (m + 2) fun j => y j) e).getD 0 := by
    unfold smooth
    simp only [ha, hb, Option.map_some, Option.getD_some]
    rw [hm]
    simp only
    rw [hmap]
    simp only [bind, Except.bind]
    rw [hss]
    rfl
  refine ⟨m, s, _, hm, hS, hsv, fun j hj => ?_, fun e he => ?_⟩
  · have := interpLin_node (meshPts_ascending hlt (m := m) fun j => y j) (by simp [meshPts]) (q := (meshPoint a.1 b.1 (m + 2) j, y j)) (List.mem_map.mpr ⟨j, List.mem_range.mpr hj, rfl⟩)
    simp only at this ⊢
    rw [this]
    rfl
  · have h1 : (meshPts a.1 b.1 (m + 2) fun j => y j).head? = some (a.1, y (0 : ℕ)) := by
      simp [meshPts, List.range_succ_eq_map, meshPoint_zero]
    have h2 : (meshPts a.1 b.1 (m + 2) fun j => y j).getLast? = some (b.1, y (m + 1 : ℕ)) := by
      unfold meshPts
      rw [List.range_succ, List.map_append, List.map_singleton, List.getLast?_append, List.getLast?_singleton, meshPoint_last]
      rfl
    rw [interpLin_outside (meshPts_ascending hlt (m := m) fun j => y j) h1 h2 he]
    rfl

/-- **C136** (refuted) A window shorter than 0.01 raises an `IndexError`. -/
theorem C136_refuted_short {pts : List (ℝ × ℂ)} {a b : ℝ × ℂ} (ha : pts.head? = some a) (hb : pts.getLast? = some b) (h0 : a.1 ≤ b.1) (hw : b.1 - a.1 < 1 / 100) (cutoff : ℝ) :
    smooth pts cutoff = .error .indexError := by
  have hM : meshSize a.1 b.1 = 1 := by
    unfold meshSize
    rw [Nat.floor_eq_iff (by have : 0 ≤ b.1 - a.1 := by linarith
                             positivity)]
    push_cast
    constructor <;> linarith
  unfold smooth
  simp only [ha, hb, Option.map_some, Option.getD_some]
  rw [hM]

/-- **C136** Smoothing what has been smoothed, on its mesh, gives the same function. -/
theorem C136_smooth_twice {pts : List (ℝ × ℂ)} (hs : Ascending pts) (hl : 2 ≤ pts.length) {a b : ℝ × ℂ} (ha : pts.head? = some a) (hb : pts.getLast? = some b) (hw : 1 / 100 ≤ b.1 - a.1) {cutoff : ℝ}
    {S : ℝ → ℂ} (hS : smooth pts cutoff = .ok S) :
    ∃ S', smooth (meshPts a.1 b.1 (meshSize a.1 b.1) fun j => S (meshPoint a.1 b.1 (meshSize a.1 b.1) j)) cutoff = .ok S' ∧
      ∀ j < meshSize a.1 b.1, S' (meshPoint a.1 b.1 (meshSize a.1 b.1) j) = S (meshPoint a.1 b.1 (meshSize a.1 b.1) j) := by
  obtain ⟨m, s, S1, hm, hS1, -, h1, -⟩ := C136_smooth hs hl ha hb hw cutoff
  obtain rfl : S = S1 := Except.ok.inj (hS.symm.trans hS1)
  rw [hm]
  have hlt : a.1 < b.1 := by linarith
  set y : ℕ → ℂ := fun j => S (meshPoint a.1 b.1 (m + 2) j) with hy
  have hh : (meshPts a.1 b.1 (m + 2) y).head? = some (a.1, y 0) := by
    simp [meshPts, List.range_succ_eq_map, meshPoint_zero]
  have hh2 : (meshPts a.1 b.1 (m + 2) y).getLast? = some (b.1, y (m + 1)) := by
    unfold meshPts
    rw [List.range_succ, List.map_append, List.map_singleton, List.getLast?_append, List.getLast?_singleton, meshPoint_last]
    rfl
  have hasc := meshPts_ascending hlt (m := m) y
  obtain ⟨m', s', S', hm', hS', h2, h3, -⟩ := C136_smooth hasc (by simp [meshPts]) hh hh2 hw cutoff
  simp only at hm' h2 h3
  obtain rfl : m' = m := by omega
  refine ⟨S', hS', fun j hj => ?_⟩
  rw [h3 j hj]
  have hs' : ∀ j < m' + 2, s' j = smoothMesh (m' + 2) (meshPoint a.1 b.1 (m' + 2) 1 - meshPoint a.1 b.1 (m' + 2) 0) cutoff (fun k => s k.val) j := fun j hj => by
    have h4 := interpLin_node hasc (by simp [meshPts]) (q := (meshPoint a.1 b.1 (m' + 2) j, y j)) (List.mem_map.mpr ⟨j, List.mem_range.mpr hj, rfl⟩)
    have h5 := h2 j hj
    rw [h4] at h5
    rw [← Option.some.inj h5, hy]
    exact h1 j hj
  have e : (fun k : ZMod (m' + 2) => s' k.val) = smoothMesh (m' + 2) (meshPoint a.1 b.1 (m' + 2) 1 - meshPoint a.1 b.1 (m' + 2) 0) cutoff (fun k => s k.val) := by
    funext k
    rw [hs' k.val (ZMod.val_lt k), ZMod.natCast_zmod_val]
  rw [e, C136_idempotent]
  exact (h1 j hj).symm

/-! ### Causality is lost -/

/-- The peak `-i` at the first of 60 points with distance 0.01, zero at the others. -/
noncomputable def peakPts : List (ℝ × ℂ) := meshPts 0 (59 / 100) 60 fun j => if j = 0 then -Complex.I else 0

theorem smooth_peak : ∃ S, smooth peakPts 2 = .ok S ∧ (S (meshPoint 0 (59 / 100) 60 30)).im = 1 / 60 := by
  have hasc := meshPts_ascending (lo := 0) (hi := 59 / 100) (by norm_num) (m := 58) fun j => if j = 0 then -Complex.I else 0
  have hh : peakPts.head? = some (0, -Complex.I) := by
    simp [peakPts, meshPts, List.range_succ_eq_map, meshPoint_zero]
  have hh2 : peakPts.getLast? = some (59 / 100, 0) := by
    unfold peakPts meshPts
    rw [List.range_succ, List.map_append, List.map_singleton, List.getLast?_append, List.getLast?_singleton, meshPoint_last]
    simp
  obtain ⟨m, s, S, hm, hS, h1, h2, -⟩ := C136_smooth (pts := peakPts) hasc (by simp [peakPts, meshPts]) hh hh2 (by norm_num) 2
  simp only at hm h1 h2
  have hm60 : meshSize 0 (59 / 100) = 60 := by
    unfold meshSize
    norm_num
  obtain rfl : m = 58 := by omega
  refine ⟨S, hS, ?_⟩
  rw [h2 30 (by norm_num)]
  have hs : (fun k : ZMod (58 + 2) => s k.val) = Pi.single 0 (-Complex.I) := by
    funext k
    have hk : k.val < 58 + 2 := ZMod.val_lt k
    have h4 := interpLin_node (l := peakPts) hasc (by simp [peakPts, meshPts]) (q := (meshPoint 0 (59 / 100) 60 k.val, if k.val = 0 then -Complex.I else 0))
      (List.mem_map.mpr ⟨k.val, List.mem_range.mpr hk, rfl⟩)
    have h5 := h1 k.val hk
    rw [h4] at h5
    rw [← Option.some.inj h5]
    by_cases h0 : k = 0
    · rw [h0]; simp
    · rw [Pi.single_eq_of_ne h0, if_neg fun h => h0 ((ZMod.val_eq_zero k).mp h)]
  rw [hs, smoothMesh_eq]
  unfold bandFilter
  rw [invDFT_apply]
  have hd : ∀ k : ZMod (58 + 2), ZMod.dft (Pi.single 0 (-Complex.I)) k = -Complex.I := fun k => by
    rw [dft_apply, Finset.sum_eq_single 0]
    · simp
    · intro j _ hj
      rw [Pi.single_eq_of_ne hj, smul_zero]
    · simp
  have hstep : meshPoint 0 (59 / 100) (58 + 2) 1 - meshPoint 0 (59 / 100) (58 + 2) 0 = 1 / 100 := by
    unfold meshPoint
    norm_num
  have hfreq : ∀ k : ZMod (58 + 2), (2 < |fftfreq (58 + 2) (1 / 100) k|) ↔ ¬ (k = 0 ∨ k = 1 ∨ k = 59) := by
    intro k
    have hk : k.val < 60 := ZMod.val_lt k
    have hv : ∀ v : ℕ, v < 60 → (k = (v : ZMod (58 + 2)) ↔ k.val = v) := fun v hv => by
      constructor
      · rintro rfl
        exact ZMod.val_natCast_of_lt hv
      · intro h
        rw [← h, ZMod.natCast_zmod_val]
    have e0 : k = 0 ↔ k.val = 0 := by simpa using hv 0 (by norm_num)
    have e1 : k = 1 ↔ k.val = 1 := by simpa using hv 1 (by norm_num)
    have e59 : k = 59 ↔ k.val = 59 := by simpa using hv 59 (by norm_num)
    rw [e0, e1, e59]
    unfold fftfreq
    generalize k.val = v at hk
    have hden : |((58 + 2 : ℕ) : ℝ) * (1 / 100)| = 6 / 10 := by norm_num
    rw [abs_div, hden, lt_div_iff₀ (by norm_num)]
    split_ifs with h
    · rw [abs_of_nonneg (Nat.cast_nonneg v)]
      have : v ≠ 59 := by omega
      constructor
      · intro h' hor
        rcases hor with rfl | rfl | rfl
        · norm_num at h'
        · norm_num at h'
        · exact this rfl
      · intro hor
        have : 2 ≤ v := by omega
        have : (2 : ℝ) ≤ v := by exact_mod_cast this
        norm_num
        linarith
    · have h60 : (v : ℝ) < 60 := by exact_mod_cast hk
      rw [abs_of_neg (by push_cast; linarith)]
      constructor
      · intro h' hor
        rcases hor with rfl | rfl | rfl
        · norm_num at h
        · norm_num at h
        · norm_num at h'
      · intro hor
        have : v ≤ 58 := by omega
        have : (v : ℝ) ≤ 58 := by exact_mod_cast this
        push_cast
        linarith
  rw [hstep]
  have hsum : (∑ j : ZMod (58 + 2), stdAddChar (j * ((30 : ℕ) : ZMod (58 + 2))) • (if 2 < |fftfreq (58 + 2) (1 / 100) j| then (0 : ℂ) else ZMod.dft (Pi.single 0 (-Complex.I)) j)) = Complex.I := by
    have e : ∀ j : ZMod (58 + 2), stdAddChar (j * ((30 : ℕ) : ZMod (58 + 2))) • (if 2 < |fftfreq (58 + 2) (1 / 100) j| then (0 : ℂ) else ZMod.dft (Pi.single 0 (-Complex.I)) j) =
        if j ∈ ({0, 1, 59} : Finset (ZMod (58 + 2))) then stdAddChar (j * ((30 : ℕ) : ZMod (58 + 2))) * -Complex.I else 0 := fun j => by
      rw [hd]
      by_cases hj : j = 0 ∨ j = 1 ∨ j = 59
      · rw [if_neg (fun h => (hfreq j).mp h hj), if_pos (by simpa using hj), smul_eq_mul]
      · rw [if_pos ((hfreq j).mpr hj), if_neg (by simpa using hj), smul_zero]
    rw [Finset.sum_congr rfl fun j _ => e j, Finset.sum_ite_mem, Finset.univ_inter, Finset.sum_insert (by decide), Finset.sum_insert (by decide), Finset.sum_singleton]
    have h30 : stdAddChar ((30 : ℤ) : ZMod (58 + 2)) = (-1 : ℂ) := by
      rw [ZMod.stdAddChar_coe]
      have : 2 * (Real.pi : ℂ) * Complex.I * ((30 : ℤ) : ℂ) / ((58 + 2 : ℕ) : ℂ) = Real.pi * Complex.I := by
        push_cast
        ring
      rw [this, Complex.exp_pi_mul_I]
    have e1 : (1 : ZMod (58 + 2)) * ((30 : ℕ) : ZMod (58 + 2)) = ((30 : ℤ) : ZMod (58 + 2)) := by decide
    have e59 : (59 : ZMod (58 + 2)) * ((30 : ℕ) : ZMod (58 + 2)) = ((30 : ℤ) : ZMod (58 + 2)) := by decide
    rw [e1, e59, h30, zero_mul, AddChar.map_zero_eq_one]
    ring
  rw [hsum]
  simp

/-- **C136** (refuted) Smoothing does not keep a self-energy causal, not even with the default cutoff: no point of `peakPts` has a positive imaginary part, the result has one. -/
theorem C136_refuted : ∃ (pts : List (ℝ × ℂ)) (S : ℝ → ℂ) (e : ℝ), (∀ q ∈ pts, q.2.im ≤ 0) ∧ Ascending pts ∧ smooth pts 2 = .ok S ∧ 0 < (S e).im := by
  obtain ⟨S, hS, h⟩ := smooth_peak
  refine ⟨peakPts, S, _, fun q hq => ?_, meshPts_ascending (by norm_num) (m := 58) _, hS, by rw [h]; norm_num⟩
  obtain ⟨j, -, rfl⟩ := List.mem_map.mp hq
  simp only
  split_ifs <;> simp

/-- Non-vacuity of `C136_smooth` and `C136_smooth_twice`: the points `peakPts` meet their hypotheses. -/
example : Ascending peakPts ∧ 2 ≤ peakPts.length ∧ ∃ a b, peakPts.head? = some a ∧ peakPts.getLast? = some b ∧ 1 / 100 ≤ b.1 - a.1 := by
  refine ⟨meshPts_ascending (by norm_num) (m := 58) _, by simp [peakPts, meshPts], (0, -Complex.I), (59 / 100, 0), ?_, ?_, by norm_num⟩
  · simp [peakPts, meshPts, List.range_succ_eq_map, meshPoint_zero]
  · unfold peakPts meshPts
    rw [List.range_succ, List.map_append, List.map_singleton, List.getLast?_append, List.getLast?_singleton, meshPoint_last]
    simp

end Edpyt
