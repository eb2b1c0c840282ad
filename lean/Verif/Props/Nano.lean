import Mathlib.Tactic.LinearCombination
import Verif.Model.NanoDmft
import Verif.Spec.LocalGf
import Verif.Proof.Py
import Mathlib.LinearAlgebra.Matrix.ToLinearEquiv
import Mathlib.Data.Complex.BigOperators
/-!
Properties C102-C105: the local Green function of nano DMFT.
-/
namespace Edpyt
open Spec Matrix
variable {n : ℕ}

theorem fancyIdx_ok {len : ℕ} (x : ℕ → ℂ) {idx : List ℕ} (h : ∀ i ∈ idx, i < len) : fancyIdx len x idx = .ok (idx.map x) := by
  unfold fancyIdx
  induction idx with
  | nil => rfl
  | cons i idx ih =>
    rw [List.mapM_cons, if_pos (h i (by simp)), ih fun j hj => h j (by simp [hj])]
    rfl

theorem fancyIdx_err {len : ℕ} (x : ℕ → ℂ) {idx : List ℕ} (h : ∃ i ∈ idx, len ≤ i) : fancyIdx len x idx = .error .indexError := by
  unfold fancyIdx
  induction idx with
  | nil => obtain ⟨i, hi, -⟩ := h; cases hi
  | cons j idx ih =>
    rw [List.mapM_cons]
    by_cases hj : j < len
    · rw [if_pos hj, ih]
      · rfl
      · obtain ⟨i, hi, hl⟩ := h
        rcases List.mem_cons.mp hi with rfl | hi
        · omega
        · exact ⟨i, hi, hl⟩
    · rw [if_neg hj]; rfl

/-- The Dyson matrix of the object at the frequency `z` with the self-energies `sig` of the inequivalent sites. -/
noncomputable def NanoLoc.dyson (g : NanoLoc n) (sig : ℕ → ℂ) (z : ℂ) : Matrix (Fin n) (Fin n) ℂ :=
  dysonMat g.H g.S (g.Hybrid z) (fun i => sig (g.idxInv[(i : ℕ)]?.getD 0)) g.mu z

/-- What `np.unique` guarantees about the two index arrays of a lattice with `m` inequivalent sites. -/
structure NanoLoc.WF (g : NanoLoc n) (m : ℕ) : Prop where
  invLen : g.idxInv.length = n
  neqLen : g.idxNeq.length = m
  inv : ∀ i ∈ g.idxInv, i < m
  neq : ∀ i ∈ g.idxNeq, i < n
  nodup : g.idxNeq.Nodup
  unique : ∀ u, (h : u < m) → g.idxInv[g.idxNeq[u]'(neqLen ▸ h)]? = some u

theorem scatter_ok (len : ℕ) (idx : List ℕ) (f : ℕ → ℂ) (h : ∀ i ∈ idx, i < len) (out : ℕ → ℂ) :
    forM' (fun out (p : ℕ × ℂ) => if p.1 < len then (.ok (Function.update out p.1 p.2) : Except PyErr (ℕ → ℂ)) else .error .indexError) (idx.zip (idx.map f)) out =
      .ok fun r => if r ∈ idx then f r else out r := by
  induction idx generalizing out with
  | nil => simp [forM']
  | cons i idx ih =>
    rw [List.map_cons, List.zip_cons_cons, forM']
    simp only [if_pos (h i (by simp))]
    rw [ih fun j hj => h j (by simp [hj])]
    congr 1
    funext r
    by_cases h1 : r ∈ idx
    · simp [h1]
    · by_cases h2 : r = i
      · subst h2; simp [h1]
      · simp [h1, h2]

theorem scatter_err (len : ℕ) (idx : List ℕ) (f : ℕ → ℂ) (h : ∃ i ∈ idx, len ≤ i) (out : ℕ → ℂ) :
    forM' (fun out (p : ℕ × ℂ) => if p.1 < len then (.ok (Function.update out p.1 p.2) : Except PyErr (ℕ → ℂ)) else .error .indexError) (idx.zip (idx.map f)) out =
      .error .indexError := by
  induction idx generalizing out with
  | nil => obtain ⟨i, hi, -⟩ := h; cases hi
  | cons i idx ih =>
    rw [List.map_cons, List.zip_cons_cons, forM']
    by_cases hi : i < len
    · simp only [if_pos hi]
      refine ih ?_ _
      obtain ⟨j, hj, hl⟩ := h
      rcases List.mem_cons.mp hj with rfl | hj
      · omega
      · exact ⟨j, hj, hl⟩
    · simp only [if_neg hi]

/-- The diagonal element of the inverse, as a function of the number of the site. -/
noncomputable def diagInv (X : Matrix (Fin n) (Fin n) ℂ) (i : ℕ) : ℂ := if h : i < n then X⁻¹ ⟨i, h⟩ ⟨i, h⟩ else 0

theorem body_start (g : NanoLoc n) {len : ℕ} (hlen : g.idxInv.length = n) (hinv : ∀ i ∈ g.idxInv, i < len) (hneq : ∀ i ∈ g.idxNeq, i < n) (sig : ℕ → ℂ) (z : ℂ)
    (hdet : (g.dyson sig z).det ≠ 0) (out : ℕ → ℂ) :
    g.body len sig z out = forM' (fun out (p : ℕ × ℂ) => if p.1 < len then (.ok (Function.update out p.1 p.2) : Except PyErr (ℕ → ℂ)) else .error .indexError)
      (g.idxNeq.zip (g.idxNeq.map (diagInv (g.dyson sig z)))) out := by
  unfold NanoLoc.body
  rw [fancyIdx_ok sig hinv]
  have hsub : subDiag (g.freeInv z) (g.idxInv.map sig) = .ok (g.dyson sig z) := by
    unfold subDiag
    rw [if_pos (by simpa using hlen)]
    unfold NanoLoc.dyson dysonMat NanoLoc.freeInv
    congr 3
    funext i
    have : (i : ℕ) < g.idxInv.length := by rw [hlen]; exact i.2
    simp [List.getElem?_eq_getElem this]
  simp only [bind, Except.bind, hsub]
  have hinv' : linalgInv (g.dyson sig z) = .ok (g.dyson sig z)⁻¹ := by
    unfold linalgInv
    rw [if_pos (isUnit_iff_ne_zero.mpr hdet)]
  rw [hinv']
  simp only
  rw [fancyIdx_ok _ hneq]
  rfl

theorem diagInv_spec {X : Matrix (Fin n) (Fin n) ℂ} (h : X.det ≠ 0) {i : ℕ} (hi : i < n) (w : ℂ) : IsLocalGf X ⟨i, hi⟩ w ↔ w = diagInv X i := by
  have hu : IsUnit X.det := isUnit_iff_ne_zero.mpr h
  unfold diagInv
  rw [dif_pos hi]
  constructor
  · rintro ⟨v, hv, rfl⟩
    have : v = X⁻¹ *ᵥ Pi.single ⟨i, hi⟩ 1 := by rw [← hv, Matrix.mulVec_mulVec, Matrix.nonsing_inv_mul _ hu, Matrix.one_mulVec]
    rw [this]; simp
  · rintro rfl
    refine ⟨X⁻¹ *ᵥ Pi.single ⟨i, hi⟩ 1, ?_, by simp⟩
    rw [Matrix.mulVec_mulVec, Matrix.mul_nonsing_inv _ hu, Matrix.one_mulVec]

/-- The value of a call for lattices whose inequivalent sites are the first ones. -/
theorem call_eq (g : NanoLoc n) {m : ℕ} (hlen : g.idxInv.length = n) (hinv : ∀ i ∈ g.idxInv, i < m) (hneq : ∀ i ∈ g.idxNeq, i < n) (hm : ∀ i ∈ g.idxNeq, i < m)
    (sigma : ℕ → ℕ → ℂ) (zs : List ℂ) (hz : zs ≠ []) (hchunk : 2 ≤ m ∨ (m = 1 ∧ zs.length = 1)) (junk : ℕ → ℕ → ℂ)
    (hdet : ∀ c < zs.length, (g.dyson (fun r => sigma r c) (zs[c]?.getD 0)).det ≠ 0) :
    ∃ G, g.call m sigma zs junk = .ok G ∧ ∀ u < g.idxNeq.length, ∀ c < zs.length,
      G u c = diagInv (g.dyson (fun r => sigma r c) (zs[c]?.getD 0)) (g.idxNeq[u]?.getD 0) := by
  have hnz : 0 < zs.length := List.length_pos_iff.mpr hz
  have hmem : ∀ u < g.idxNeq.length, g.idxNeq[u]?.getD 0 ∈ g.idxNeq := by
    intro u hu
    rw [List.getElem?_eq_getElem hu]; exact List.getElem_mem _
  unfold NanoLoc.call
  simp only [fancyIdx_ok (fun _ => (0 : ℂ)) hm]
  by_cases h1 : m = 1
  · have hz1 : zs.length = 1 := by omega
    subst h1
    rw [hz1, if_neg (by omega), if_pos rfl]
    have hd : (g.dyson (fun c => sigma 0 c) (zs[0]?.getD 0)) = g.dyson (fun r => sigma r 0) (zs[0]?.getD 0) := by
      unfold NanoLoc.dyson
      congr 1
      funext i
      have : g.idxInv[(i : ℕ)]?.getD 0 = 0 := by
        have h2 : (i : ℕ) < g.idxInv.length := by rw [hlen]; exact i.2
        rw [List.getElem?_eq_getElem h2, Option.getD_some]
        have := hinv _ (List.getElem_mem h2)
        omega
      rw [this]
    rw [body_start g hlen hinv hneq _ _ (by rw [hd]; exact hdet 0 hnz), scatter_ok _ _ _ hm, hd]
    refine ⟨_, rfl, fun u hu c hc => ?_⟩
    have h0 : g.idxNeq[u]?.getD 0 = 0 := by have := hm _ (hmem u hu); omega
    obtain rfl : c = 0 := by omega
    simp only [h0, if_true]
    rw [if_pos (by rw [← h0]; exact hmem u hu)]
  · have hm2 : 2 ≤ m := by omega
    rw [if_neg (by positivity), if_neg h1]
    rw [forM'_ok (f := fun (out : ℕ → ℕ → ℂ) c => fun r c' => if c' = c then (if r ∈ g.idxNeq then diagInv (g.dyson (fun r => sigma r c) (zs[c]?.getD 0)) r else out r c) else out r c')]
    · refine ⟨_, rfl, fun u hu c hc => ?_⟩
      have key : ∀ (k : ℕ) (r c : ℕ), r ∈ g.idxNeq → c < k →
          (List.range k).foldl (fun (out : ℕ → ℕ → ℂ) c => fun r c' => if c' = c then (if r ∈ g.idxNeq then diagInv (g.dyson (fun r => sigma r c) (zs[c]?.getD 0)) r else out r c) else out r c') junk r c =
            diagInv (g.dyson (fun r => sigma r c) (zs[c]?.getD 0)) r := by
        intro k
        induction k with
        | zero => intro r c _ h; omega
        | succ k ih =>
          intro r c hr hc
          rw [List.range_succ, List.foldl_append, List.foldl_cons, List.foldl_nil]
          by_cases hck : c = k
          · subst hck; simp [hr]
          · rw [if_neg hck]; exact ih r c hr (by omega)
      exact key _ _ _ (hmem u hu) hc
    · intro st c hc
      rw [body_start g hlen hinv hneq _ _ (hdet c (List.mem_range.mp hc)), scatter_ok _ _ _ hm]
      rfl

/-! ### C102 -/

/-- **C102** (partial: for lattices whose `m` inequivalent sites are the first `m` ones, and `m ≥ 2` or a single frequency) the call returns at every
frequency, for every inequivalent site, the diagonal element of the inverse of `(z+mu)S - H - Hybrid(z) - Σ(z)`, whatever the output array held
before. -/
theorem C102_local_gf_partial (g : NanoLoc n) {m : ℕ} (hg : g.WF m) (hm : ∀ i ∈ g.idxNeq, i < m) (sigma : ℕ → ℕ → ℂ) (zs : List ℂ) (hz : zs ≠ [])
    (hchunk : 2 ≤ m ∨ (m = 1 ∧ zs.length = 1)) (junk : ℕ → ℕ → ℂ)
    (hdet : ∀ c < zs.length, (g.dyson (fun r => sigma r c) (zs[c]?.getD 0)).det ≠ 0) :
    ∃ G, g.call m sigma zs junk = .ok G ∧ ∀ u, ∀ hu : u < g.idxNeq.length, ∀ c, ∀ hc : c < zs.length, ∀ w,
      IsLocalGf (dysonMat g.H g.S (g.Hybrid zs[c]) (fun i => sigma (g.idxInv[(i : ℕ)]'(by rw [hg.invLen]; exact i.2)) c) g.mu zs[c])
        ⟨g.idxNeq[u], hg.neq _ (List.getElem_mem hu)⟩ w ↔ w = G u c := by
  obtain ⟨G, h1, h2⟩ := call_eq g hg.invLen hg.inv hg.neq hm sigma zs hz hchunk junk hdet
  refine ⟨G, h1, fun u hu c hc w => ?_⟩
  have he : dysonMat g.H g.S (g.Hybrid zs[c]) (fun i => sigma (g.idxInv[(i : ℕ)]'(by rw [hg.invLen]; exact i.2)) c) g.mu zs[c] = g.dyson (fun r => sigma r c) (zs[c]?.getD 0) := by
    unfold NanoLoc.dyson
    rw [List.getElem?_eq_getElem hc, Option.getD_some]
    congr 1
    funext i
    have : (i : ℕ) < g.idxInv.length := by rw [hg.invLen]; exact i.2
    simp [List.getElem?_eq_getElem this]
  have hd := hdet c hc
  rw [h2 u hu c hc]
  simp only [he]
  have : g.idxNeq[u]?.getD 0 = g.idxNeq[u] := by rw [List.getElem?_eq_getElem hu, Option.getD_some]
  rw [this]
  exact diagInv_spec hd _ w

/-- **C102** is false of the code when an inequivalent site is not among the first `m` sites: the call raises `IndexError`. -/
theorem C102_refuted_index (g : NanoLoc n) {m : ℕ} (hg : g.WF m) (hm2 : 2 ≤ m) (hm : ∃ i ∈ g.idxNeq, m ≤ i) (sigma : ℕ → ℕ → ℂ) (zs : List ℂ) (hz : zs ≠ [])
    (junk : ℕ → ℕ → ℂ) (hdet : (g.dyson (fun r => sigma r 0) (zs[0]?.getD 0)).det ≠ 0) :
    g.call m sigma zs junk = .error .indexError := by
  unfold NanoLoc.call
  obtain ⟨z, zs, rfl⟩ := List.exists_cons_of_ne_nil hz
  have hne : m * (z :: zs).length ≠ 0 := by rw [List.length_cons]; positivity
  simp only [if_neg hne, if_neg (show m ≠ 1 by omega)]
  rw [List.length_cons, List.range_succ_eq_map, forM']
  rw [body_start g hg.invLen hg.inv hg.neq _ _ hdet, scatter_err _ _ _ hm]
  rfl

/-- **C102** is false of the code when all sites are equivalent: at every frequency but the first the call returns what the output array held before. -/
theorem C102_refuted_one_site (g : NanoLoc n) (hg : g.WF 1) (sigma : ℕ → ℕ → ℂ) (zs : List ℂ) (hz : 2 ≤ zs.length) (junk : ℕ → ℕ → ℂ)
    (h0 : g.idxNeq = [0]) (hdet : (g.dyson (fun _ => sigma 0 0) (zs[0]?.getD 0)).det ≠ 0) :
    ∃ G, g.call 1 sigma zs junk = .ok G ∧ ∀ c, 0 < c → G 0 c = junk 0 c := by
  unfold NanoLoc.call
  simp only [if_neg (show ¬ 1 * zs.length = 0 by omega), if_true]
  have hinv : ∀ i ∈ g.idxInv, i < zs.length := fun i hi => by have := hg.inv i hi; omega
  have hd : g.dyson (fun c => sigma 0 c) (zs[0]?.getD 0) = g.dyson (fun _ => sigma 0 0) (zs[0]?.getD 0) := by
    unfold NanoLoc.dyson
    congr 1
    funext i
    have h2 : (i : ℕ) < g.idxInv.length := by rw [hg.invLen]; exact i.2
    rw [List.getElem?_eq_getElem h2, Option.getD_some]
    have := hg.inv _ (List.getElem_mem h2)
    have : g.idxInv[(i : ℕ)] = 0 := by omega
    rw [this]
  rw [body_start g hg.invLen hinv hg.neq _ _ (by rw [hd]; exact hdet), scatter_ok _ _ _ (by rw [h0]; simp; omega), fancyIdx_ok _ (by rw [h0]; simp)]
  refine ⟨_, rfl, fun c hc => ?_⟩
  rw [h0]
  simp [hc.ne']

/-! ### C103 -/

theorem idxWorld_getElem {α : Type} {size rank m stride : ℕ} {xs : List α} (hlen : xs.length = m) (hm : m = size * stride) (hs : 0 < size) (hr : rank < size) :
    (idxWorld size rank xs).length = stride ∧ ∀ u < stride, (idxWorld size rank xs)[u]? = xs[rank * stride + u]? := by
  unfold idxWorld
  have hst : xs.length / size = stride := by rw [hlen, hm, Nat.mul_div_cancel_left _ hs]
  have hle : rank * stride + stride ≤ xs.length := by
    rw [hlen, hm]
    calc rank * stride + stride = (rank + 1) * stride := by ring
      _ ≤ size * stride := Nat.mul_le_mul_right _ hr
  simp only [hst]
  refine ⟨by rw [List.length_take, List.length_drop]; omega, fun u hu => ?_⟩
  rw [List.getElem?_take, if_pos hu, List.getElem?_drop]

/-- **C103** (partial: if the number of ranks divides the number of inequivalent sites) when rank `r` holds the self-energies `r * stride, …` of the
serial run, on every rank the distributed call succeeds when the serial one does, and its rows are the rows of the serial result that belong to the rank. -/
theorem C103_mpi_partial (g : NanoLoc n) {m : ℕ} (hg : g.WF m) (hm : ∀ i ∈ g.idxNeq, i < m) {size stride : ℕ} (hs : 0 < size) (hd : m = size * stride)
    (sigma : ℕ → ℕ → ℂ) (sigmaLoc : ℕ → ℕ → ℕ → ℂ) (hloc : ∀ r < size, ∀ u < stride, sigmaLoc r u = sigma (r * stride + u)) (zs : List ℂ) (hz : zs ≠ [])
    (hchunk : 2 ≤ m ∨ (m = 1 ∧ zs.length = 1)) (junk junk' : ℕ → ℕ → ℂ) (hdet : ∀ c < zs.length, (g.dyson (fun r => sigma r c) (zs[c]?.getD 0)).det ≠ 0) :
    ∃ G, g.call m sigma zs junk = .ok G ∧ ∀ rank < size, ∃ G', g.callMpi size rank sigmaLoc zs junk' = .ok G' ∧
      ∀ u < stride, ∀ c < zs.length, G' u c = G (rank * stride + u) c := by
  have hall : ∀ r < m, allgather stride sigmaLoc r = sigma r := fun r hr => by
    have hst : 0 < stride := Nat.pos_of_ne_zero fun h0 => by rw [hd, h0, mul_zero] at hr; omega
    unfold allgather
    rw [hloc _ ((Nat.div_lt_iff_lt_mul hst).mpr (by rw [← hd]; exact hr)) _ (Nat.mod_lt _ hst), Nat.div_add_mod']
  have hdy : ∀ c z, g.dyson (fun r => allgather stride sigmaLoc r c) z = g.dyson (fun r => sigma r c) z := fun c z => by
    unfold NanoLoc.dyson
    congr 1
    funext i
    have hi : (i : ℕ) < g.idxInv.length := by rw [hg.invLen]; exact i.2
    rw [List.getElem?_eq_getElem hi, Option.getD_some]
    exact congrFun (hall _ (hg.inv _ (List.getElem_mem hi))) c
  obtain ⟨G, h1, h2⟩ := call_eq g hg.invLen hg.inv hg.neq hm sigma zs hz hchunk junk hdet
  refine ⟨G, h1, fun rank hr => ?_⟩
  obtain ⟨hl, hget⟩ := idxWorld_getElem (xs := g.idxNeq) hg.neqLen hd hs hr
  have hsub : ∀ i ∈ (g.onRank size rank).idxNeq, i ∈ g.idxNeq := by
    intro i hi
    exact List.mem_of_mem_drop (List.mem_of_mem_take hi)
  have hst : g.idxNeq.length / size = stride := by rw [hg.neqLen, hd, Nat.mul_div_cancel_left _ hs]
  obtain ⟨G', h3, h4⟩ := call_eq (g.onRank size rank) (m := m) hg.invLen hg.inv (fun i hi => hg.neq i (hsub i hi)) (fun i hi => hm i (hsub i hi))
    (allgather stride sigmaLoc) zs hz hchunk junk' (fun c hc => by rw [show (g.onRank size rank).dyson = g.dyson from rfl, hdy]; exact hdet c hc)
  refine ⟨G', by unfold NanoLoc.callMpi; simp only [hst, ← hd]; exact h3, fun u hu c hc => ?_⟩
  have hu' : u < (g.onRank size rank).idxNeq.length := by
    show u < (idxWorld size rank g.idxNeq).length
    rw [hl]; exact hu
  have hu2 : rank * stride + u < g.idxNeq.length := by
    rw [hg.neqLen, hd]
    calc rank * stride + u < rank * stride + stride := by omega
      _ = (rank + 1) * stride := by ring
      _ ≤ size * stride := Nat.mul_le_mul_right _ hr
  rw [h4 u hu' c hc, h2 _ hu2 c hc, show (g.onRank size rank).dyson = g.dyson from rfl, hdy]
  show diagInv _ ((idxWorld size rank g.idxNeq)[u]?.getD 0) = _
  rw [hget u hu]

/-- **C103** is false of the code when the number of ranks does not divide the number of inequivalent sites: the last ones belong to no rank, and the
call raises on every rank. -/
theorem C103_refuted (g : NanoLoc n) {m : ℕ} (hg : g.WF m) {size : ℕ} (hs : 0 < size) (hd : ¬ size ∣ m) (sigmaLoc : ℕ → ℕ → ℕ → ℂ) (zs : List ℂ)
    (junk : ℕ → ℕ → ℂ) (rank : ℕ) : Raises (g.callMpi size rank sigmaLoc zs junk) := by
  unfold NanoLoc.callMpi NanoLoc.call
  simp only
  rw [hg.neqLen]
  by_cases h0 : size * (m / size) * zs.length = 0
  · rw [if_pos h0]; exact ⟨_, rfl⟩
  rw [if_neg h0]
  have hsize : 2 ≤ size := by
    rcases Nat.lt_or_ge size 2 with h | h
    · exfalso; apply hd
      obtain rfl : size = 1 := by omega
      exact one_dvd _
    · exact h
  have hst : 0 < m / size := by
    rcases Nat.eq_zero_or_pos (m / size) with h | h
    · rw [h] at h0; simp at h0
    · exact h
  have hz : 0 < zs.length := by
    rcases Nat.eq_zero_or_pos zs.length with h | h
    · rw [h] at h0; simp at h0
    · exact h
  have hne1 : size * (m / size) ≠ 1 := by
    intro h
    have := Nat.eq_one_of_mul_eq_one_right h
    omega
  rw [if_neg hne1]
  have hlt : size * (m / size) < m := by
    refine lt_of_le_of_ne (Nat.mul_div_le m size) fun h => hd ⟨_, h.symm⟩
  have hinv : ∃ i ∈ (g.onRank size rank).idxInv, size * (m / size) ≤ i := by
    have hu := hg.unique (m - 1) (by omega)
    exact ⟨m - 1, List.mem_of_getElem? hu, by omega⟩
  obtain ⟨k, hk⟩ : ∃ k, zs.length = k + 1 := ⟨zs.length - 1, by omega⟩
  rw [hk, List.range_succ_eq_map, forM']
  have hb : ∀ sig z out, (g.onRank size rank).body (size * (m / size)) sig z out = .error .indexError := by
    intro sig z out
    unfold NanoLoc.body
    rw [fancyIdx_err _ hinv]; rfl
  rw [hb]
  exact ⟨_, rfl⟩

/-! ### C104 -/

/-- The inputs of the object are causal at the frequency `z`: Hermitian Hamiltonian, positive overlap matrix, causal hybridisation and self-energy. -/
structure NanoLoc.Causal (g : NanoLoc n) (sig : ℕ → ℂ) (z : ℂ) : Prop where
  herm : g.H.conjTranspose = g.H
  overlap : ∀ v : Fin n → ℂ, (star v ⬝ᵥ (g.S *ᵥ v)).im = 0 ∧ (v ≠ 0 → 0 < (star v ⬝ᵥ (g.S *ᵥ v)).re)
  hybrid : CausalMat (g.Hybrid z)
  sigma : ∀ r, (sig r).im ≤ 0
  upper : 0 < z.im

theorem herm_im {H : Matrix (Fin n) (Fin n) ℂ} (h : H.conjTranspose = H) (v : Fin n → ℂ) : (star v ⬝ᵥ (H *ᵥ v)).im = 0 := by
  have h1 : star (star v ⬝ᵥ (H *ᵥ v)) = star v ⬝ᵥ (H *ᵥ v) := by
    rw [← Matrix.star_dotProduct_star, Matrix.star_mulVec, h, ← Matrix.dotProduct_mulVec]
    congr 2
    funext i
    exact star_star (v i)
  have h2 := congrArg Complex.im h1
  simp only [Complex.star_def, Complex.conj_im] at h2
  linarith

/-- The imaginary part of an expectation value of the Dyson matrix. -/
theorem NanoLoc.Causal.dyson_im {g : NanoLoc n} {sig : ℕ → ℂ} {z : ℂ} (h : g.Causal sig z) (v : Fin n → ℂ) :
    z.im * (star v ⬝ᵥ (g.S *ᵥ v)).re + ∑ i : Fin n, -(sig (g.idxInv[(i : ℕ)]?.getD 0)).im * Complex.normSq (v i) ≤ (star v ⬝ᵥ (g.dyson sig z *ᵥ v)).im := by
  unfold NanoLoc.dyson dysonMat
  rw [Matrix.sub_mulVec, Matrix.sub_mulVec, Matrix.sub_mulVec, Matrix.smul_mulVec, dotProduct_sub, dotProduct_sub, dotProduct_sub, dotProduct_smul, smul_eq_mul]
  simp only [Complex.sub_im, Complex.mul_im, herm_im h.herm, (h.overlap v).1, mul_zero, Complex.add_im, Complex.ofReal_im, add_zero]
  have h1 := h.hybrid v
  have h2 : (star v ⬝ᵥ (Matrix.diagonal (fun i : Fin n => sig (g.idxInv[(i : ℕ)]?.getD 0)) *ᵥ v)).im = ∑ i : Fin n, (sig (g.idxInv[(i : ℕ)]?.getD 0)).im * Complex.normSq (v i) := by
    simp only [dotProduct, Matrix.mulVec_diagonal, Complex.im_sum]
    refine Finset.sum_congr rfl fun i _ => ?_
    simp only [Pi.star_apply, Complex.star_def, Complex.mul_im, Complex.mul_re, Complex.conj_re, Complex.conj_im, Complex.normSq_apply]
    ring
  rw [h2]
  simp only [neg_mul, Finset.sum_neg_distrib]
  linarith

/-- **C104** for causal inputs the matrix that the call inverts is never singular, so the call does not raise `LinAlgError`. -/
theorem C104_nonsingular {g : NanoLoc n} {sig : ℕ → ℂ} {z : ℂ} (h : g.Causal sig z) : (g.dyson sig z).det ≠ 0 := by
  intro h0
  obtain ⟨v, hv, hzero⟩ := Matrix.exists_mulVec_eq_zero_iff.mpr h0
  have h1 := h.dyson_im v
  rw [hzero, dotProduct_zero, Complex.zero_im] at h1
  have h2 := mul_pos h.upper ((h.overlap v).2 hv)
  have h3 : 0 ≤ ∑ i : Fin n, -(sig (g.idxInv[(i : ℕ)]?.getD 0)).im * Complex.normSq (v i) :=
    Finset.sum_nonneg fun i _ => mul_nonneg (by linarith [h.sigma (g.idxInv[(i : ℕ)]?.getD 0)]) (Complex.normSq_nonneg _)
  linarith

/-- The imaginary part of the local Green function, from the solution of `X v = e_i`. -/
theorem localGf_im {X : Matrix (Fin n) (Fin n) ℂ} {i : Fin n} {v : Fin n → ℂ} (hv : X *ᵥ v = Pi.single i 1) : (star v ⬝ᵥ (X *ᵥ v)).im = -(v i).im := by
  rw [hv, dotProduct_single, mul_one, Pi.star_apply, Complex.star_def, Complex.conj_im]

/-- **C104** for causal inputs the local Green function of every site has a negative imaginary part in the upper half plane. -/
theorem C104_causal {g : NanoLoc n} {sig : ℕ → ℂ} {z : ℂ} (h : g.Causal sig z) {i : Fin n} {w : ℂ} (hw : IsLocalGf (g.dyson sig z) i w) : w.im < 0 := by
  obtain ⟨v, hv, rfl⟩ := hw
  have hne : v ≠ 0 := by
    rintro rfl
    rw [Matrix.mulVec_zero] at hv
    have := congrFun hv i
    simp at this
  have h1 := h.dyson_im v
  rw [localGf_im hv] at h1
  have h2 := mul_pos h.upper ((h.overlap v).2 hne)
  have h3 : 0 ≤ ∑ i : Fin n, -(sig (g.idxInv[(i : ℕ)]?.getD 0)).im * Complex.normSq (v i) :=
    Finset.sum_nonneg fun i _ => mul_nonneg (by linarith [h.sigma (g.idxInv[(i : ℕ)]?.getD 0)]) (Complex.normSq_nonneg _)
  linarith

/-- **C104** the whole call, on frequencies in the upper half plane: it returns, with values of negative imaginary part. -/
theorem C104_call (g : NanoLoc n) {m : ℕ} (hg : g.WF m) (hm : ∀ i ∈ g.idxNeq, i < m) (sigma : ℕ → ℕ → ℂ) (zs : List ℂ) (hz : zs ≠ [])
    (hchunk : 2 ≤ m ∨ (m = 1 ∧ zs.length = 1)) (junk : ℕ → ℕ → ℂ) (hc : ∀ c, (h : c < zs.length) → g.Causal (fun r => sigma r c) zs[c]) :
    ∃ G, g.call m sigma zs junk = .ok G ∧ ∀ u < m, ∀ c < zs.length, (G u c).im < 0 := by
  have hc' : ∀ c < zs.length, g.Causal (fun r => sigma r c) (zs[c]?.getD 0) := fun c h => by
    rw [List.getElem?_eq_getElem h, Option.getD_some]; exact hc c h
  obtain ⟨G, h1, h2⟩ := call_eq g hg.invLen hg.inv hg.neq hm sigma zs hz hchunk junk (fun c h => C104_nonsingular (hc' c h))
  refine ⟨G, h1, fun u hu c h => ?_⟩
  have hu' : u < g.idxNeq.length := by rw [hg.neqLen]; exact hu
  rw [h2 u hu' c h]
  have hlt : g.idxNeq[u]?.getD 0 < n := by
    rw [List.getElem?_eq_getElem hu']; exact hg.neq _ (List.getElem_mem _)
  exact C104_causal (hc' c h) ((diagInv_spec (C104_nonsingular (hc' c h)) hlt _).mpr rfl)

/-! ### C105 -/

/-- **C105** (partial: for an orthogonal basis, `S = 1`) the hybridisation handed to the bath fit is causal for causal inputs. -/
theorem C105_delta_partial (g : NanoLoc n) {m : ℕ} (hg : g.WF m) (hm : ∀ i ∈ g.idxNeq, i < m) (sigma : ℕ → ℕ → ℂ) (zs : List ℂ) (hz : zs ≠ [])
    (hchunk : 2 ≤ m ∨ (m = 1 ∧ zs.length = 1)) (junk : ℕ → ℕ → ℂ) (hS : g.S = 1) (hc : ∀ c, (h : c < zs.length) → g.Causal (fun r => sigma r c) zs[c]) :
    ∃ D, g.Delta m sigma zs junk = .ok D ∧ ∀ u < m, ∀ c < zs.length, (D u c).im ≤ 0 := by
  have hc' : ∀ c < zs.length, g.Causal (fun r => sigma r c) (zs[c]?.getD 0) := fun c h => by
    rw [List.getElem?_eq_getElem h, Option.getD_some]; exact hc c h
  obtain ⟨G, h1, h2⟩ := call_eq g hg.invLen hg.inv hg.neq hm sigma zs hz hchunk junk (fun c h => C104_nonsingular (hc' c h))
  unfold NanoLoc.Delta NanoLoc.ed
  rw [h1, fancyIdx_ok _ hg.neq]
  refine ⟨_, rfl, fun u hu c h => ?_⟩
  have hu' : u < g.idxNeq.length := by rw [hg.neqLen]; exact hu
  have hi : g.idxNeq[u] < n := hg.neq _ (List.getElem_mem _)
  have hget : g.idxNeq[u]?.getD 0 = g.idxNeq[u] := by rw [List.getElem?_eq_getElem hu', Option.getD_some]
  have hC := hc' c h
  set z := zs[c]?.getD 0 with hzdef
  obtain ⟨v, hv, hvi⟩ := (diagInv_spec (C104_nonsingular hC) hi _).mpr rfl
  have him := hC.dyson_im v
  have hG : G u c = v ⟨g.idxNeq[u], hi⟩ := by rw [h2 u hu' c h, hget, ← hvi]
  rw [localGf_im hv, hS, Matrix.one_mulVec] at him
  have hnorm : (star v ⬝ᵥ v).re = ∑ i, Complex.normSq (v i) := by
    simp only [dotProduct, Complex.re_sum]
    refine Finset.sum_congr rfl fun i _ => ?_
    simp only [Pi.star_apply, Complex.star_def, Complex.mul_re, Complex.conj_re, Complex.conj_im, Complex.normSq_apply]
    ring
  rw [hnorm, Finset.mul_sum, ← Finset.sum_add_distrib] at him
  have hsig : g.idxInv[g.idxNeq[u]]?.getD 0 = u := by rw [hg.unique u hu]; rfl
  have hone : (z.im - (sigma u c).im) * Complex.normSq (v ⟨g.idxNeq[u], hi⟩) ≤ -(v ⟨g.idxNeq[u], hi⟩).im := by
    refine le_trans ?_ him
    have := Finset.single_le_sum (f := fun i : Fin n => z.im * Complex.normSq (v i) + -(sigma (g.idxInv[(i : ℕ)]?.getD 0) c).im * Complex.normSq (v i))
      (fun i _ => add_nonneg (mul_nonneg hC.upper.le (Complex.normSq_nonneg _))
        (mul_nonneg (by linarith [hC.sigma (g.idxInv[(i : ℕ)]?.getD 0)]) (Complex.normSq_nonneg _))) (Finset.mem_univ (⟨g.idxNeq[u], hi⟩ : Fin n))
    simp only [hsig] at this
    linarith
  have hneg := C104_causal hC ⟨v, hv, rfl⟩
  have hpos : 0 < Complex.normSq (v ⟨g.idxNeq[u], hi⟩) := by
    rw [Complex.normSq_pos]
    intro h0
    rw [h0] at hneg; simp at hneg
  have hed : ((List.map (fun i => if h : i < n then g.H ⟨i, h⟩ ⟨i, h⟩ else 0) g.idxNeq)[u]?.getD 0).im = 0 := by
    rw [List.getElem?_map, List.getElem?_eq_getElem hu']
    simp only [Option.map_some, Option.getD_some, dif_pos hi]
    have := congrFun (congrFun hC.herm ⟨g.idxNeq[u], hi⟩) ⟨g.idxNeq[u], hi⟩
    rw [Matrix.conjTranspose_apply] at this
    have := congrArg Complex.im this
    simp only [Complex.star_def, Complex.conj_im] at this
    linarith
  simp only [nanoWeiss, Complex.sub_im, Complex.add_im, Complex.ofReal_im, hed, hG, Complex.inv_im]
  have : z.im - (sigma u c).im ≤ -(v ⟨g.idxNeq[u], hi⟩).im / Complex.normSq (v ⟨g.idxNeq[u], hi⟩) := by
    rw [le_div_iff₀ hpos]; exact hone
  linarith

/-- Two sites with the overlap `1/2`, and nothing else. -/
noncomputable def overlapLoc : NanoLoc 2 := ⟨0, !![1, 1 / 2; 1 / 2, 1], fun _ => 0, [0, 1], [0, 1], 0⟩

theorem overlapLoc_wf : overlapLoc.WF 2 := by
  refine ⟨rfl, rfl, by simp [overlapLoc], by simp [overlapLoc], by simp [overlapLoc], fun u hu => ?_⟩
  interval_cases u <;> rfl

theorem overlapLoc_causal : overlapLoc.Causal (fun _ => 0) Complex.I := by
  refine ⟨by simp [overlapLoc], fun v => ?_, fun v => by simp [overlapLoc], by simp, by simp⟩
  have e : star v ⬝ᵥ (overlapLoc.S *ᵥ v) = star (v 0) * (v 0 + 1 / 2 * v 1) + star (v 1) * (1 / 2 * v 0 + v 1) := by
    simp [overlapLoc, dotProduct, Matrix.mulVec, Fin.sum_univ_two]
  rw [e]
  constructor
  · simp only [Complex.star_def, Complex.add_im, Complex.mul_im, Complex.add_re, Complex.mul_re, Complex.conj_re, Complex.conj_im]
    norm_num; ring
  · intro hv
    simp only [Complex.star_def, Complex.add_im, Complex.mul_im, Complex.add_re, Complex.mul_re, Complex.conj_re, Complex.conj_im]
    norm_num
    by_contra hle
    apply hv
    have key : (v 0).re = 0 ∧ (v 0).im = 0 ∧ (v 1).re = 0 ∧ (v 1).im = 0 := by
      refine ⟨?_, ?_, ?_, ?_⟩ <;> nlinarith [sq_nonneg ((v 0).re + (v 1).re), sq_nonneg ((v 0).im + (v 1).im), sq_nonneg (v 0).re, sq_nonneg (v 0).im, sq_nonneg (v 1).re, sq_nonneg (v 1).im]
    funext i
    fin_cases i
    · exact Complex.ext key.1 key.2.1
    · exact Complex.ext key.2.2.1 key.2.2.2

/-- **C105** is false of the code for a basis with overlap: two sites that are coupled by their overlap only. All inputs are causal, and the
hybridisation at `z = i` is `i/4`. -/
theorem C105_refuted : ∃ D, overlapLoc.Delta 2 (fun _ _ => 0) [Complex.I] (fun _ _ => 0) = .ok D ∧ D 0 0 = Complex.I / 4 ∧ 0 < (D 0 0).im := by
  have hdet := C104_nonsingular overlapLoc_causal
  obtain ⟨G, h1, h2⟩ := call_eq overlapLoc overlapLoc_wf.invLen overlapLoc_wf.inv overlapLoc_wf.neq (by simp [overlapLoc]) (fun _ _ => 0) [Complex.I] (by simp) (Or.inl le_rfl)
    (fun _ _ => 0) (fun c hc => by
      obtain rfl : c = 0 := by simpa using hc
      exact hdet)
  have hG : G 0 0 = -Complex.I * (4 / 3) := by
    have := h2 0 (by simp [overlapLoc]) 0 (by simp)
    rw [this]
    symm
    refine (diagInv_spec hdet (i := 0) (by norm_num) _).mp ⟨![-Complex.I * (4 / 3), Complex.I * (2 / 3)], ?_, by simp⟩
    have hI := Complex.I_mul_I
    funext i
    fin_cases i
    · simp [NanoLoc.dyson, dysonMat, overlapLoc, Matrix.mulVec, dotProduct, Fin.sum_univ_two]
      linear_combination (-1 : ℂ) * hI
    · simp [NanoLoc.dyson, dysonMat, overlapLoc, Matrix.mulVec, dotProduct, Fin.sum_univ_two]
      ring
  have hD : Complex.I + ((0 : ℝ) : ℂ) - 0 - ((G 0 0)⁻¹ + 0) = Complex.I / 4 := by
    rw [hG, mul_inv, inv_neg, Complex.inv_I]
    push_cast; ring
  unfold NanoLoc.Delta NanoLoc.ed
  rw [h1, fancyIdx_ok _ overlapLoc_wf.neq]
  refine ⟨_, rfl, ?_⟩
  have e : Complex.I + ((overlapLoc.mu : ℝ) : ℂ) - 0 - nanoWeiss G (fun _ _ => 0) 0 0 = Complex.I / 4 := hD
  have e2 : ([Complex.I][0]?.getD 0) + ((overlapLoc.mu : ℝ) : ℂ) - ((List.map (fun i => if h : i < 2 then overlapLoc.H ⟨i, h⟩ ⟨i, h⟩ else 0) overlapLoc.idxNeq)[0]?.getD 0) -
      nanoWeiss G (fun _ _ => 0) 0 0 = Complex.I / 4 := by
    rw [← e]; simp [overlapLoc]
  refine ⟨e2, ?_⟩
  refine lt_of_lt_of_eq ?_ (congrArg Complex.im e2).symm
  norm_num

/-! ### Concrete cases -/

/-- A dimer with two inequivalent sites. -/
noncomputable def dimerLoc : NanoLoc 2 := ⟨!![0, 1; 1, 0], 1, fun _ => 0, [0, 1], [0, 1], 0⟩

theorem dimerLoc_wf : dimerLoc.WF 2 := by
  refine ⟨rfl, rfl, by simp [dimerLoc], by simp [dimerLoc], by simp [dimerLoc], fun u hu => ?_⟩
  interval_cases u <;> rfl

theorem one_overlap (v : Fin n → ℂ) : (star v ⬝ᵥ ((1 : Matrix (Fin n) (Fin n) ℂ) *ᵥ v)).im = 0 ∧ (v ≠ 0 → 0 < (star v ⬝ᵥ ((1 : Matrix (Fin n) (Fin n) ℂ) *ᵥ v)).re) := by
  rw [Matrix.one_mulVec]
  have hre : (star v ⬝ᵥ v).re = ∑ i, Complex.normSq (v i) := by
    simp only [dotProduct, Complex.re_sum]
    refine Finset.sum_congr rfl fun i _ => ?_
    simp only [Pi.star_apply, Complex.star_def, Complex.mul_re, Complex.conj_re, Complex.conj_im, Complex.normSq_apply]
    ring
  refine ⟨?_, fun hv => ?_⟩
  · simp only [dotProduct, Complex.im_sum]
    refine Finset.sum_eq_zero fun i _ => ?_
    simp only [Pi.star_apply, Complex.star_def, Complex.mul_im, Complex.conj_re, Complex.conj_im]
    ring
  · rw [hre]
    obtain ⟨i, hi⟩ := Function.ne_iff.mp hv
    exact Finset.sum_pos' (fun _ _ => Complex.normSq_nonneg _) ⟨i, Finset.mem_univ _, Complex.normSq_pos.mpr hi⟩

theorem dimerLoc_causal {z : ℂ} (hz : 0 < z.im) (sig : ℕ → ℂ) (hs : ∀ r, (sig r).im ≤ 0) : dimerLoc.Causal sig z := by
  refine ⟨?_, fun v => one_overlap v, fun v => by simp [dimerLoc], hs, hz⟩
  ext i j
  fin_cases i <;> fin_cases j <;> simp [dimerLoc, Matrix.conjTranspose_apply]

/-- Non-vacuity of C102, C104 and C105: the dimer at two frequencies with a self-energy. -/
example : ∃ G D, dimerLoc.call 2 (fun _ _ => -Complex.I) [Complex.I, 2 * Complex.I] (fun _ _ => 7) = .ok G ∧ (∀ u < 2, ∀ c < 2, (G u c).im < 0) ∧
    dimerLoc.Delta 2 (fun _ _ => -Complex.I) [Complex.I, 2 * Complex.I] (fun _ _ => 7) = .ok D ∧ ∀ u < 2, ∀ c < 2, (D u c).im ≤ 0 := by
  have hc : ∀ c, (h : c < [Complex.I, 2 * Complex.I].length) → dimerLoc.Causal (fun _ => -Complex.I) [Complex.I, 2 * Complex.I][c] := by
    intro c h
    refine dimerLoc_causal ?_ _ (by simp)
    simp at h
    interval_cases c <;> simp
  obtain ⟨G, h1, h2⟩ := C104_call dimerLoc dimerLoc_wf (by simp [dimerLoc]) (fun _ _ => -Complex.I) [Complex.I, 2 * Complex.I] (by simp) (Or.inl le_rfl) (fun _ _ => 7) hc
  obtain ⟨D, h3, h4⟩ := C105_delta_partial dimerLoc dimerLoc_wf (by simp [dimerLoc]) (fun _ _ => -Complex.I) [Complex.I, 2 * Complex.I] (by simp) (Or.inl le_rfl) (fun _ _ => 7) rfl hc
  exact ⟨G, D, h1, h2, h3, h4⟩

/-- Non-vacuity of C103: the dimer on two ranks. -/
example : ∃ G, dimerLoc.call 2 (fun _ _ => -Complex.I) [Complex.I] (fun _ _ => 0) = .ok G ∧ ∀ rank < 2, ∃ G',
    dimerLoc.callMpi 2 rank (fun _ _ _ => -Complex.I) [Complex.I] (fun _ _ => 0) = .ok G' ∧ ∀ u < 1, ∀ c < 1, G' u c = G (rank * 1 + u) c := by
  refine C103_mpi_partial dimerLoc dimerLoc_wf (by simp [dimerLoc]) (size := 2) (stride := 1) (by norm_num) (by norm_num) (fun _ _ => -Complex.I) (fun _ _ _ => -Complex.I)
    (fun _ _ _ _ => rfl) [Complex.I] (by simp) (Or.inl le_rfl) _ _ fun c hc => C104_nonsingular (dimerLoc_causal ?_ _ (by simp))
  obtain rfl : c = 0 := by simpa using hc
  simp

/-- Non-vacuity of the refutations: three sites of which the first two are equivalent, on one rank (C102) and on three ranks (C103), and two
equivalent sites (C102). -/
noncomputable def trimerLoc : NanoLoc 3 := ⟨0, 1, fun _ => 0, [0, 2], [0, 0, 1], 0⟩

theorem trimerLoc_wf : trimerLoc.WF 2 := by
  refine ⟨rfl, rfl, by simp [trimerLoc], by simp [trimerLoc], by simp [trimerLoc], fun u hu => ?_⟩
  interval_cases u <;> rfl

example : trimerLoc.call 2 (fun _ _ => 0) [Complex.I] (fun _ _ => 0) = .error .indexError :=
  C102_refuted_index trimerLoc trimerLoc_wf le_rfl ⟨2, by simp [trimerLoc], le_rfl⟩ _ _ (by simp) _
    (C104_nonsingular ⟨by simp [trimerLoc], fun v => one_overlap v, fun v => by simp [trimerLoc], by simp, by simp⟩)

example : Raises (trimerLoc.callMpi 3 0 (fun _ _ _ => 0) [Complex.I] (fun _ _ => 0)) :=
  C103_refuted trimerLoc trimerLoc_wf (by norm_num) (by norm_num) _ _ _ 0

noncomputable def pairLoc : NanoLoc 2 := ⟨0, 1, fun _ => 0, [0], [0, 0], 0⟩

example : ∃ G, pairLoc.call 1 (fun _ _ => 0) [Complex.I, 2 * Complex.I] (fun _ _ => 7) = .ok G ∧ ∀ c, 0 < c → G 0 c = 7 :=
  C102_refuted_one_site pairLoc ⟨rfl, rfl, by simp [pairLoc], by simp [pairLoc], by simp [pairLoc], fun u hu => by
      interval_cases u; rfl⟩ _ _ (by simp) _ rfl
    (C104_nonsingular ⟨by simp [pairLoc], fun v => one_overlap v, fun v => by simp [pairLoc], by simp, by simp⟩)

end Edpyt
