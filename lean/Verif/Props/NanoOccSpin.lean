import Verif.Model.NanoOccSpin
import Verif.Props.NanoOcc
import Verif.Props.NanoSpin
/-!
C207: the occupations of a nano lattice with two spins, and with MPI.
-/
namespace Edpyt
open Spec Matrix

variable {n : ℕ}

theorem occSpin_eq (g : NanoLoc n) {m : ℕ} (hg : g.WF m) (hm : ∀ i ∈ g.idxNeq, i < m) (hm2 : 2 ≤ m) (Sigma : List ℂ → ℕ → ℕ → ℕ → ℂ) (junk : ℕ → ℕ → ℕ → ℂ) (mu : ℝ)
    (hdet : ∀ s < 2, ∀ c < 3000, (NanoLoc.dyson { g with mu := mu } (fun r => Sigma occFreqs r s c) (msZ 70 c)).det ≠ 0) {u s : ℕ} (hu : u < m) (hs : s < 2) :
    g.occSpin m Sigma junk mu u s = .ok (msSum 3000 70 fun c => diagInv (NanoLoc.dyson { g with mu := mu } (fun r => Sigma occFreqs r s c) (msZ 70 c)) (g.idxNeq[u]?.getD 0)) := by
  have hg' : NanoLoc.WF ({ g with mu := mu } : NanoLoc n) m := ⟨hg.invLen, hg.neqLen, hg.inv, hg.neq, hg.nodup, hg.unique⟩
  obtain ⟨G, h1⟩ := callSpin_exists { g with mu := mu } hg' hm hm2 (Sigma occFreqs) occFreqs (by rw [Ne, ← List.length_eq_zero_iff, occFreqs_length]; norm_num) junk
    fun s hs c hc => by
      rw [occFreqs_length] at hc
      rw [occFreqs_get hc]
      exact hdet s hs c hc
  unfold NanoLoc.occSpin matsumGf
  simp only
  have h1' : NanoLoc.callSpin { g with mu := mu } m (Sigma ((List.range 3000).map (msZ 70))) ((List.range 3000).map (msZ 70)) junk = .ok G := h1
  rw [h1']
  simp only [Except.map, if_neg (show ¬ (3000 = 0) by norm_num)]
  rw [msSum_congr 70 (fun i hi => ?_) (by norm_num)]
  have := (callSpin_val { g with mu := mu } hg' hm hm2 (Sigma occFreqs) occFreqs junk G h1 hu hs (c := i) (by rw [occFreqs_length]; exact hi)).2
  rw [this, occFreqs_get hi]

theorem occFreqs_elem {c : ℕ} (hc : c < occFreqs.length) : occFreqs[c] = msZ 70 c := by
  have h := occFreqs_get (lt_of_lt_of_eq hc occFreqs_length)
  rw [List.getElem?_eq_getElem hc, Option.getD_some] at h
  exact h

theorem squeezeSpins_many {l : List (ℝ × ℝ)} (h : 2 ≤ l.length) : squeezeSpins l = l.map fun x => x.1 + x.2 := by
  match l, h with
  | _ :: _ :: _, _ => rfl

theorem NanoLoc.WF.sites {g : NanoLoc n} {m : ℕ} (hg : g.WF m) : m ≤ n := by
  rw [← hg.neqLen]
  have h := (List.toFinset_card_of_nodup hg.nodup).symm
  rw [h]
  have : g.idxNeq.toFinset ⊆ Finset.range n := fun i hi => Finset.mem_range.mpr (hg.neq i (List.mem_toFinset.mp hi))
  simpa using Finset.card_le_card this

theorem integrateSpin_eq (g : NanoLoc n) {m : ℕ} (hg : g.WF m) (hm : ∀ i ∈ g.idxNeq, i < m) (hm2 : 2 ≤ m) (Sigma : List ℂ → ℕ → ℕ → ℕ → ℂ) (junk : ℕ → ℕ → ℕ → ℂ) (mu : ℝ)
    (hdet : ∀ s < 2, ∀ c < 3000, (NanoLoc.dyson { g with mu := mu } (fun r => Sigma occFreqs r s c) (msZ 70 c)).det ≠ 0) :
    g.integrateSpin m Sigma junk mu = .ok (g.idxInv.map fun r =>
      (msSum 3000 70 fun c => diagInv (NanoLoc.dyson { g with mu := mu } (fun r => Sigma occFreqs r 0 c) (msZ 70 c)) (g.idxNeq[r]?.getD 0)) +
      (msSum 3000 70 fun c => diagInv (NanoLoc.dyson { g with mu := mu } (fun r => Sigma occFreqs r 1 c) (msZ 70 c)) (g.idxNeq[r]?.getD 0))) := by
  unfold NanoLoc.integrateSpin
  rw [hg.neqLen, mapM_ok_of (g := fun u =>
    ((msSum 3000 70 fun c => diagInv (NanoLoc.dyson { g with mu := mu } (fun r => Sigma occFreqs r 0 c) (msZ 70 c)) (g.idxNeq[u]?.getD 0)),
     (msSum 3000 70 fun c => diagInv (NanoLoc.dyson { g with mu := mu } (fun r => Sigma occFreqs r 1 c) (msZ 70 c)) (g.idxNeq[u]?.getD 0)))) (h := fun u hu => by
      rw [occSpin_eq g hg hm hm2 Sigma junk mu hdet (List.mem_range.mp hu) (by norm_num), occSpin_eq g hg hm hm2 Sigma junk mu hdet (List.mem_range.mp hu) (by norm_num)]
      rfl)]
  simp only [bind, Except.bind]
  rw [mapM_ok_of (g := fun r =>
    ((msSum 3000 70 fun c => diagInv (NanoLoc.dyson { g with mu := mu } (fun r => Sigma occFreqs r 0 c) (msZ 70 c)) (g.idxNeq[r]?.getD 0)),
     (msSum 3000 70 fun c => diagInv (NanoLoc.dyson { g with mu := mu } (fun r => Sigma occFreqs r 1 c) (msZ 70 c)) (g.idxNeq[r]?.getD 0)))) (h := fun r hr => by
      simp [hg.inv r hr])]
  simp only [pure, Except.pure]
  rw [squeezeSpins_many (by rw [List.length_map, hg.invLen]; exact hm2.trans hg.sites), List.map_map]
  rfl

/-- **C207** (two spins; partial: at least two inequivalent sites, whose representatives come first) With causal self-energies of both spins, `integrate(mu)` returns one number for each site:
the sum over the spins of the Fermi occupations, at inverse temperature 70, of the levels of the local Green function of that spin on the representative of the site, up to the
error of the sum over 3000 frequencies. -/
theorem C207_spins_partial (g : NanoLoc n) {m : ℕ} (hg : g.WF m) (hm : ∀ i ∈ g.idxNeq, i < m) (hm2 : 2 ≤ m) (Sigma : List ℂ → ℕ → ℕ → ℕ → ℂ) (junk : ℕ → ℕ → ℕ → ℂ) (mu : ℝ)
    (hc : ∀ s < 2, ∀ c < 3000, g.Causal (fun r => Sigma occFreqs r s c) (msZ 70 c)) :
    ∃ L, g.integrateSpin m Sigma junk mu = .ok L ∧ L.length = n ∧ ∀ (i : Fin n) (κ : Type) [Fintype κ] (a e : ℕ → κ → ℝ), (∀ s < 2, ∑ j, a s j = 1) →
      (∀ s < 2, ∀ c < 3000, IsLocalGf (dysonMat g.H g.S (g.Hybrid (msZ 70 c)) (fun j => Sigma occFreqs (g.idxInv[(j : ℕ)]'(by rw [hg.invLen]; exact j.2)) s c) mu (msZ 70 c)) (hg.rep i)
        (∑ j, (a s j : ℂ) / (msZ 70 c - (e s j : ℂ)))) →
      |L[(i : ℕ)]?.getD 0 - ∑ s ∈ Finset.range 2, ∑ j, a s j * fermiOcc 70 (e s j)| ≤
        ∑ s ∈ Finset.range 2, matsumErr 70 (∑ j, |a s j| * |e s j|) (∑ j, |a s j| * |e s j| ^ 3) 3000 := by
  have hdet : ∀ s < 2, ∀ c < 3000, (NanoLoc.dyson { g with mu := mu } (fun r => Sigma occFreqs r s c) (msZ 70 c)).det ≠ 0 := fun s hs c h => C104_nonsingular ((hc s hs c h).setMu mu)
  refine ⟨_, integrateSpin_eq g hg hm hm2 Sigma junk mu hdet, by rw [List.length_map, hg.invLen], fun i κ _ a e ha hs => ?_⟩
  have hi : (i : ℕ) < g.idxInv.length := by rw [hg.invLen]; exact i.2
  rw [List.getElem?_map, List.getElem?_eq_getElem hi, Option.map_some, Option.getD_some]
  have hr : g.idxInv[(i : ℕ)] < g.idxNeq.length := by rw [hg.neqLen]; exact hg.inv _ (List.getElem_mem _)
  rw [List.getElem?_eq_getElem hr, Option.getD_some]
  have one : ∀ s < 2, |(msSum 3000 70 fun c => diagInv (NanoLoc.dyson { g with mu := mu } (fun r => Sigma occFreqs r s c) (msZ 70 c)) (g.idxNeq[g.idxInv[(i : ℕ)]])) -
      ∑ j, a s j * fermiOcc 70 (e s j)| ≤ matsumErr 70 (∑ j, |a s j| * |e s j|) (∑ j, |a s j| * |e s j| ^ 3) 3000 := by
    intro s hs2
    rw [msSum_congr 70 (g' := fun c => ∑ j, (a s j : ℂ) / (msZ 70 c + ((0 : ℝ) : ℂ) - (e s j : ℂ))) (fun c h => ?_) (by norm_num)]
    · simpa using C85_matsum_error (a s) (e s) (ha s hs2) 0 70 (by norm_num) (by norm_num : 0 < 3000) fun _ => rfl
    · have h1 := (diagInv_spec (hdet s hs2 c h) (hg.rep i).2 _).mp (by
        have := hs s hs2 c h
        unfold NanoLoc.dyson
        convert this using 2
        funext j
        have hj : (j : ℕ) < g.idxInv.length := by rw [hg.invLen]; exact j.2
        simp [List.getElem?_eq_getElem hj])
      simp only [Complex.ofReal_zero, add_zero]
      exact h1.symm
  rw [Finset.sum_range_succ, Finset.sum_range_one, Finset.sum_range_succ, Finset.sum_range_one, add_sub_add_comm]
  exact (abs_add_le _ _).trans (add_le_add (one 0 (by norm_num)) (one 1 (by norm_num)))

/-- **C207** (equal spins; partial as above) If the self-energies of the two spins are equal, the two-spin lattice returns the numbers of the one-spin lattice. -/
theorem C207_equal_partial (g : NanoLoc n) {m : ℕ} (hg : g.WF m) (hm : ∀ i ∈ g.idxNeq, i < m) (hm2 : 2 ≤ m) (Sigma : List ℂ → ℕ → ℕ → ℂ) (junk : ℕ → ℕ → ℂ) (junk' : ℕ → ℕ → ℕ → ℂ)
    (mu : ℝ) (hdet : ∀ c < 3000, (dysonMat g.H g.S (g.Hybrid (msZ 70 c)) (fun j => Sigma occFreqs (g.idxInv[(j : ℕ)]'(by rw [hg.invLen]; exact j.2)) c) mu (msZ 70 c)).det ≠ 0) :
    ∃ L, g.integrate m Sigma junk mu = .ok L ∧ g.integrateSpin m (fun zs r _ c => Sigma zs r c) junk' mu = .ok L := by
  have hdet' : ∀ c < 3000, (NanoLoc.dyson { g with mu := mu } (fun r => Sigma occFreqs r c) (msZ 70 c)).det ≠ 0 := fun c h => by
    have := hdet c h
    unfold NanoLoc.dyson
    convert this using 3
    funext j
    have hj : (j : ℕ) < g.idxInv.length := by rw [hg.invLen]; exact j.2
    simp [List.getElem?_eq_getElem hj]
  refine ⟨_, integrate_eq g hg hm hm2 Sigma junk mu hdet', ?_⟩
  rw [integrateSpin_eq g hg hm hm2 (fun zs r _ c => Sigma zs r c) junk' mu fun s _ c h => hdet' c h]
  congr 1
  exact List.map_congr_left fun r _ => (two_mul _).symm

/-- **C207** (MPI; partial: the number of ranks divides the number of inequivalent sites, of which there are at least two, and whose representatives come first) Dividing the sites
among the ranks gives on every rank the numbers of the serial run, whatever the output arrays held before. -/
theorem C207_mpi_partial (g : NanoLoc n) {m : ℕ} (hg : g.WF m) (hm : ∀ i ∈ g.idxNeq, i < m) (hm2 : 2 ≤ m) {size stride : ℕ} (hs : 0 < size) (hd : m = size * stride)
    (Sigma : List ℂ → ℕ → ℕ → ℂ) (SigmaLoc : ℕ → List ℂ → ℕ → ℕ → ℂ) (hloc : ∀ r < size, ∀ u < stride, ∀ zs, SigmaLoc r zs u = Sigma zs (r * stride + u))
    (junk : ℕ → ℕ → ℂ) (junk' : ℕ → ℕ → ℕ → ℂ)
    (mu : ℝ) (hdet : ∀ c < 3000, (dysonMat g.H g.S (g.Hybrid (msZ 70 c)) (fun j => Sigma occFreqs (g.idxInv[(j : ℕ)]'(by rw [hg.invLen]; exact j.2)) c) mu (msZ 70 c)).det ≠ 0) :
    ∃ L, g.integrate m Sigma junk mu = .ok L ∧ g.integrateMpi size SigmaLoc junk' mu = .ok L := by
  have hdet' : ∀ c < 3000, (NanoLoc.dyson { g with mu := mu } (fun r => Sigma occFreqs r c) (msZ 70 c)).det ≠ 0 := fun c h => by
    have := hdet c h
    unfold NanoLoc.dyson
    convert this using 3
    funext j
    have hj : (j : ℕ) < g.idxInv.length := by rw [hg.invLen]; exact j.2
    simp [List.getElem?_eq_getElem hj]
  have hg' : NanoLoc.WF ({ g with mu := mu } : NanoLoc n) m := ⟨hg.invLen, hg.neqLen, hg.inv, hg.neq, hg.nodup, hg.unique⟩
  refine ⟨_, integrate_eq g hg hm hm2 Sigma junk mu hdet', ?_⟩
  have hst : g.idxNeq.length / size = stride := by rw [hg.neqLen, hd, Nat.mul_div_cancel_left _ hs]
  have hst0 : 0 < stride := by
    rcases Nat.eq_zero_or_pos stride with h | h
    · rw [h] at hd; omega
    · exact h
  have hrow : ∀ r < m, allgather stride (fun rank u => g.occRowMpi size rank SigmaLoc (junk' rank) mu u) r = .ok (msSum 3000 70 fun c =>
      diagInv (NanoLoc.dyson { g with mu := mu } (fun r => Sigma occFreqs r c) (msZ 70 c)) (g.idxNeq[r]?.getD 0)) := by
    intro r hr
    have hrank : r / stride < size := Nat.div_lt_of_lt_mul (by rw [mul_comm, ← hd]; exact hr)
    have hu : r % stride < stride := Nat.mod_lt _ hst0
    obtain ⟨G, h1, h2⟩ := C103_mpi_partial { g with mu := mu } hg' hm hs hd (Sigma occFreqs) (fun r => SigmaLoc r occFreqs) (fun r hr u hu => hloc r hr u hu occFreqs) occFreqs
      (by rw [Ne, ← List.length_eq_zero_iff, occFreqs_length]; norm_num) (Or.inl hm2) junk (junk' (r / stride)) fun c hc => by
        rw [occFreqs_length] at hc
        rw [occFreqs_get hc]
        exact hdet' c hc
    obtain ⟨G', h3, h4⟩ := h2 _ hrank
    have h5 : g.occRow m Sigma junk mu r = .ok (msSum 3000 70 fun c => G r c) := by
      unfold NanoLoc.occRow matsumGf
      have h1' : NanoLoc.call { g with mu := mu } m (Sigma ((List.range 3000).map (msZ 70))) ((List.range 3000).map (msZ 70)) junk = .ok G := h1
      simp only
      rw [h1']
      simp only [Except.map, if_neg (show ¬ (3000 = 0) by norm_num)]
    rw [occRow_eq g hg hm hm2 Sigma junk mu hdet' hr] at h5
    rw [h5]
    unfold allgather NanoLoc.occRowMpi matsumGf
    have h3' : NanoLoc.callMpi { g with mu := mu } size (r / stride) (fun r => SigmaLoc r ((List.range 3000).map (msZ 70))) ((List.range 3000).map (msZ 70)) (junk' (r / stride)) = .ok G' := h3
    simp only
    rw [h3']
    simp only [Except.map, if_neg (show ¬ (3000 = 0) by norm_num)]
    rw [msSum_congr 70 (fun c hc => ?_) (by norm_num)]
    rw [h4 _ hu c (by rw [occFreqs_length]; exact hc), Nat.div_add_mod']
  unfold NanoLoc.integrateMpi
  simp only [hst]
  rw [mapM_ok_of _ _ _ (fun r hr => hrow r (by rw [hd]; exact List.mem_range.mp hr))]
  refine mapM_ok_of _ _ _ fun r hr => ?_
  have := hg.inv r hr
  rw [hd] at this
  simp [this]

/-- **C207** is false of the code for a lattice of one site: `np.squeeze` drops the axis of the sites, and the result has two entries, twice the occupation of each spin. For spin
down that is not even an occupation, but computed from what the output array held before. -/
theorem C207_refuted_one_site (g : NanoLoc 1) (hg : g.WF 1) (Sigma : List ℂ → ℕ → ℕ → ℕ → ℂ) (junk : ℕ → ℕ → ℕ → ℂ) (mu : ℝ)
    (hdet : ∀ c < 3000, (dysonMat g.H g.S (g.Hybrid (msZ 70 c)) (fun _ => Sigma occFreqs 0 0 c) mu (msZ 70 c)).det ≠ 0) :
    ∃ x, g.integrateSpin 1 Sigma junk mu = .ok [2 * x, 2 * msSum 3000 70 (junk 0 1)] := by
  have hinv : g.idxInv = [0] := by
    have h1 := hg.invLen
    match hl : g.idxInv, h1 with
    | [i], _ =>
      have := hg.inv i (by rw [hl]; simp)
      rw [show i = 0 by omega]
  have hneq : g.idxNeq = [0] := by
    have h1 := hg.neqLen
    match hl : g.idxNeq, h1 with
    | [i], _ =>
      have := hg.neq i (by rw [hl]; simp)
      rw [show i = 0 by omega]
  have hg' : NanoLoc.WF ({ g with mu := mu } : NanoLoc 1) 1 := ⟨hg.invLen, hg.neqLen, hg.inv, hg.neq, hg.nodup, hg.unique⟩
  obtain ⟨G, h1, h2⟩ := C143_refuted_one_site { g with mu := mu } hg' hneq (Sigma occFreqs) occFreqs (by rw [Ne, ← List.length_eq_zero_iff, occFreqs_length]; norm_num) junk fun c hc => by
    rw [occFreqs_elem hc]
    exact hdet c (lt_of_lt_of_eq hc occFreqs_length)
  have h1' : NanoLoc.callSpin { g with mu := mu } 1 (Sigma ((List.range 3000).map (msZ 70))) ((List.range 3000).map (msZ 70)) junk = .ok G := h1
  have hx : ∀ s, g.occSpin 1 Sigma junk mu 0 s = .ok (msSum 3000 70 (G 0 s)) := fun s => by
    unfold NanoLoc.occSpin matsumGf
    simp only
    rw [h1']
    simp only [Except.map, if_neg (show ¬ (3000 = 0) by norm_num)]
  have hy : msSum 3000 70 (G 0 1) = msSum 3000 70 (junk 0 1) := msSum_congr 70 (fun c hc => h2 c (by rw [occFreqs_length]; exact hc)) (by norm_num)
  refine ⟨msSum 3000 70 (G 0 0), ?_⟩
  unfold NanoLoc.integrateSpin
  rw [hg.neqLen, hinv, ← hy, show List.range 1 = [0] from rfl]
  simp only [List.mapM_cons, List.mapM_nil, hx, bind, Except.bind, pure, Except.pure, squeezeSpins, List.getElem?_cons_zero]

/-- Non-vacuity: the dimer with the opposite energy shifts `±3/10` for the two spins on its sites, and the dimer on two ranks. -/
example (junk : ℕ → ℕ → ℕ → ℂ) : (∃ L, dimerLoc.integrateSpin 2 (fun _ r s _ => if r = s then ((3 / 10 : ℝ) : ℂ) else -((3 / 10 : ℝ) : ℂ)) junk 0 = .ok L ∧ L.length = 2) ∧
    ∃ L, dimerLoc.integrateMpi 2 (fun r _ u _ => if r + u = 0 then ((3 / 10 : ℝ) : ℂ) else 0) junk 0 = .ok L := by
  have hc : ∀ (sig : ℕ → ℂ), (∀ r, (sig r).im ≤ 0) → ∀ c, dimerLoc.Causal sig (msZ 70 c) := fun sig hs c => dimerLoc_causal (msZ_im_pos (by norm_num) c) sig hs
  constructor
  · obtain ⟨L, h1, h2, -⟩ := C207_spins_partial dimerLoc dimerLoc_wf (by simp [dimerLoc]) le_rfl (fun _ r s _ => if r = s then ((3 / 10 : ℝ) : ℂ) else -((3 / 10 : ℝ) : ℂ)) junk 0
      fun s _ c _ => hc _ (fun r => by split <;> simp) c
    exact ⟨L, h1, h2⟩
  · obtain ⟨L, -, h⟩ := C207_mpi_partial dimerLoc dimerLoc_wf (by simp [dimerLoc]) le_rfl (size := 2) (stride := 1) (by norm_num) rfl (fun _ r _ => if r = 0 then ((3 / 10 : ℝ) : ℂ) else 0)
      (fun r _ u _ => if r + u = 0 then ((3 / 10 : ℝ) : ℂ) else 0) (fun r _ u _ zs => by rw [mul_one]) (fun _ _ => 0) junk 0 fun c _ => by
        have := C104_nonsingular ((hc (fun r => if r = 0 then ((3 / 10 : ℝ) : ℂ) else 0) (fun r => by split <;> simp) c).setMu 0)
        unfold NanoLoc.dyson at this
        convert this using 3
        funext j
        have hj : (j : ℕ) < dimerLoc.idxInv.length := by rw [dimerLoc_wf.invLen]; exact j.2
        simp [List.getElem?_eq_getElem hj]
    exact ⟨L, h⟩

/-- A single level at zero energy. -/
noncomputable def oneSiteLoc : NanoLoc 1 := { H := 0, S := 1, Hybrid := fun _ => 0, idxNeq := [0], idxInv := [0], mu := 0 }

/-- Non-vacuity of the refutation. -/
example (junk : ℕ → ℕ → ℕ → ℂ) : ∃ x, oneSiteLoc.integrateSpin 1 (fun _ _ _ _ => 0) junk 0 = .ok [2 * x, 2 * msSum 3000 70 (junk 0 1)] := by
  refine C207_refuted_one_site oneSiteLoc ⟨rfl, rfl, by simp [oneSiteLoc], by simp [oneSiteLoc], by simp [oneSiteLoc], fun u hu => ?_⟩ _ junk 0 fun c _ => ?_
  · obtain rfl : u = 0 := by omega
    rfl
  · have h := msZ_im_pos (by norm_num : (0 : ℝ) < 70) c
    have h0 : msZ 70 c ≠ 0 := fun e => by rw [e] at h; simp at h
    simpa [oneSiteLoc, dysonMat, Matrix.det_fin_one] using h0

end Edpyt
