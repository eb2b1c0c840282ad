import Verif.Model.LocalMoments
import Verif.Props.OccupationGf
import Verif.Props.SolveHot
import Verif.Props.Atomic
import Verif.Props.CoAmplitude
/-!
Property C125: occupations and local moments from part of the eigenstates.
-/
namespace Edpyt
open Spec Matrix

variable {n : ℕ} {H : Matrix (Finset (Fin (n + n))) (Finset (Fin (n + n))) ℝ} {es es0 es1 : Espace (ℕ × ℕ)}

/-- The states of `I` are among those of `J`. -/
def PartOf (n : ℕ) (I J : Sct) : Prop := ∃ f : ℕ → ℕ, Set.InjOn f (Finset.range I.eigvals.length) ∧ ∀ k < I.eigvals.length,
  f k < J.eigvals.length ∧ I.ket n k = J.ket n (f k) ∧ I.eigvals[k]?.getD 0 = J.eigvals[f k]?.getD 0

theorem SubEspace.extend (h : SubEspace n H es) (h0 : EigenEspace n H es0) : ∃ es1, EigenEspace n H es1 ∧ ∀ p ∈ es, PartOf n p.2 (sctAt es1 p.1) := by
  have key : ∀ q ∈ ndindex2 (n + 1) (n + 1), ∃ J, EigSct n H q J ∧ Complete J.d J.eigvecs ∧ (q ∈ es.map Prod.fst → PartOf n (sctAt es q) J) := by
    intro q hq
    by_cases hk : q ∈ es.map Prod.fst
    · obtain ⟨J, h1, h2, h3⟩ := (h.get hk).2.sub
      exact ⟨J, h1, h2, fun _ => h3⟩
    · have hq0 : q ∈ es0.map Prod.fst := h0.keys.mem_iff.mpr hq
      have hm := (sctAt_mem h0.nodup hq0).1
      obtain ⟨up, dw, -, h2⟩ := h0.ok _ hm
      exact ⟨sctAt es0 q, h0.sct _ hm, h2, fun h => absurd h hk⟩
  haveI : Nonempty Sct := ⟨sctAt es0 (0, 0)⟩
  choose! J hJ using key
  let es1 : Espace (ℕ × ℕ) := (ndindex2 (n + 1) (n + 1)).map fun q => (q, J q)
  have hkeys : es1.map Prod.fst = ndindex2 (n + 1) (n + 1) := by simp [es1, List.map_map, Function.comp_def]
  have hnd : (es1.map Prod.fst).Nodup := hkeys ▸ nodup_ndindex2 _ _
  have hat : ∀ q ∈ ndindex2 (n + 1) (n + 1), sctAt es1 q = J q := by
    intro q hq
    unfold sctAt
    rw [dictGet_mem hnd (s := J q) (List.mem_map.mpr ⟨q, hq, rfl⟩)]
  refine ⟨es1, ⟨⟨hkeys ▸ List.Perm.refl _, fun p hp => ?_⟩, fun p hp k hk => ?_⟩, fun p hp => ?_⟩
  · obtain ⟨q, hq, rfl⟩ := List.mem_map.mp hp
    obtain ⟨h1, h2, -⟩ := hJ q hq
    obtain ⟨up, dw, hok⟩ := h1.ok
    exact ⟨up, dw, hok, h2⟩
  · obtain ⟨q, hq, rfl⟩ := List.mem_map.mp hp
    exact (hJ q hq).1.eig k hk
  · have hq : p.1 ∈ es.map Prod.fst := List.mem_map_of_mem hp
    rw [hat _ (h.grid _ hq)]
    have := (hJ _ (h.grid _ hq)).2.2 hq
    have e : sctAt es p.1 = p.2 := by unfold sctAt; rw [dictGet_mem h.nodup (show (p.1, p.2) ∈ es from hp)]
    rwa [e] at this

/-- A sum over the states of an espace. -/
noncomputable def sctSum (n : ℕ) (F : ℝ → (Finset (Fin (n + n)) → ℝ) → ℝ) (I : Sct) : ℝ := ∑ k ∈ Finset.range I.eigvals.length, F (I.eigvals[k]?.getD 0) (I.ket n k)

theorem sub_sum (h : SubEspace n H es) (h1 : EigenEspace n H es1) (hp : ∀ p ∈ es, PartOf n p.2 (sctAt es1 p.1)) (F : ℝ → (Finset (Fin (n + n)) → ℝ) → ℝ)
    (hF : ∀ q ∈ ndindex2 (n + 1) (n + 1), ∀ k < (sctAt es1 q).eigvals.length, 0 ≤ F ((sctAt es1 q).eigvals[k]?.getD 0) ((sctAt es1 q).ket n k)) :
    (es.map fun p => sctSum n F p.2).sum ≤ ∑ x, F (esVal n es1 x) (esKet n es1 x) := by
  rw [sum_espace h1.toCompleteEspace]
  have e1 : (es1.map fun p => ∑ k ∈ Finset.range p.2.eigvals.length, F (p.2.eigvals[k]?.getD 0) (p.2.ket n k)) = (es1.map Prod.fst).map fun q => sctSum n F (sctAt es1 q) := by
    rw [List.map_map]
    apply List.map_congr_left
    intro p hp
    have : sctAt es1 p.1 = p.2 := by unfold sctAt; rw [dictGet_mem h1.nodup (show (p.1, p.2) ∈ es1 from hp)]
    simp only [Function.comp, this]
    rfl
  rw [e1, finset_sum_keys _ h1.nodup]
  have e2 : (es.map fun p => sctSum n F p.2).sum ≤ ((es.map Prod.fst).map fun q => sctSum n F (sctAt es1 q)).sum := by
    rw [List.map_map]
    refine List.sum_le_sum fun p hpm => ?_
    obtain ⟨f, hf, hfk⟩ := hp p hpm
    simp only [Function.comp, sctSum]
    calc ∑ k ∈ Finset.range p.2.eigvals.length, F (p.2.eigvals[k]?.getD 0) (p.2.ket n k)
        = ∑ j ∈ (Finset.range p.2.eigvals.length).image f, F ((sctAt es1 p.1).eigvals[j]?.getD 0) ((sctAt es1 p.1).ket n j) := by
          rw [Finset.sum_image (fun a ha b hb => hf ha hb)]
          exact Finset.sum_congr rfl fun k hk => by rw [(hfk k (Finset.mem_range.mp hk)).2.2, (hfk k (Finset.mem_range.mp hk)).2.1]
      _ ≤ _ := by
          refine Finset.sum_le_sum_of_subset_of_nonneg (fun j hj => ?_) fun j hj _ => hF _ (h.grid _ (List.mem_map_of_mem hpm)) j (Finset.mem_range.mp hj)
          obtain ⟨k, hk, rfl⟩ := Finset.mem_image.mp hj
          exact Finset.mem_range.mpr (hfk k (Finset.mem_range.mp hk)).1
  refine e2.trans ?_
  rw [finset_sum_keys _ h.nodup]
  refine Finset.sum_le_sum_of_subset_of_nonneg (fun q hq => ?_) fun q hq _ => ?_
  · exact List.mem_toFinset.mpr (h1.keys.mem_iff.mpr (h.grid q (List.mem_toFinset.mp hq)))
  · exact Finset.sum_nonneg fun k hk => hF q (h1.keys.mem_iff.mp (List.mem_toFinset.mp hq)) k (Finset.mem_range.mp hk)

theorem num_expect (b : Bool) (k : Fin n) {x : Finset (Fin (n + n)) → ℝ} (hx : x ⬝ᵥ x = 1) : 0 ≤ x ⬝ᵥ (num ℝ (orb b k) *ᵥ x) ∧ x ⬝ᵥ (num ℝ (orb b k) *ᵥ x) ≤ 1 := by
  have hcar : (cre ℝ (orb b k))ᵀ * cre ℝ (orb b k) + cre ℝ (orb b k) * (cre ℝ (orb b k))ᵀ = (1 : ℝ) • (1 : Matrix (Finset (Fin (n + n))) (Finset (Fin (n + n))) ℝ) := by
    have := ann_cre_anticomm (R := ℝ) (orb b k) (orb b k)
    rw [if_pos rfl] at this
    rw [one_smul, ← this]
    rfl
  have h := car_norm hcar x
  have e : x ⬝ᵥ (num ℝ (orb b k) *ᵥ x) = ((cre ℝ (orb b k))ᵀ *ᵥ x) ⬝ᵥ ((cre ℝ (orb b k))ᵀ *ᵥ x) := by
    have : num ℝ (orb b k) = cre ℝ (orb b k) * (cre ℝ (orb b k))ᵀ := rfl
    rw [this, ← Matrix.mulVec_mulVec, Matrix.dotProduct_mulVec, ← Matrix.mulVec_transpose]
  have p1 : ∀ v : Finset (Fin (n + n)) → ℝ, 0 ≤ v ⬝ᵥ v := fun v => Finset.sum_nonneg fun i _ => mul_self_nonneg _
  have := p1 (cre ℝ (orb b k) *ᵥ x)
  rw [e]
  refine ⟨p1 _, ?_⟩
  rw [hx] at h
  linarith

/-- The error of an average of a number between 0 and 1 over part of the states. -/
theorem avg_err {N K N0 Z0 : ℝ} (hK : 0 < K) (hN : 0 ≤ N) (h1 : N ≤ N0) (h2 : K - N ≤ Z0 - N0) (h3 : N ≤ K) : |N / K - N0 / Z0| ≤ (Z0 - K) / Z0 := by
  have hZ : 0 < Z0 := by linarith
  have e : N / K - N0 / Z0 = (N * (Z0 - K) - (N0 - N) * K) / (Z0 * K) := by field_simp; ring
  rw [e, abs_div, abs_of_pos (by positivity : 0 < Z0 * K), div_le_div_iff₀ (by positivity) hZ]
  have hb : |N * (Z0 - K) - (N0 - N) * K| ≤ (Z0 - K) * K := by
    rw [abs_le]
    constructor
    · nlinarith
    · nlinarith
  nlinarith

theorem occView_mem {occ : List OccSct} (hocc : List.Forall₂ OccView es occ) {s : OccSct} (hs : s ∈ occ) : ∃ p ∈ es, OccView p s := by
  induction hocc with
  | nil => cases hs
  | cons hv _ ih =>
    rcases List.mem_cons.mp hs with rfl | hs
    · exact ⟨_, by simp, hv⟩
    · obtain ⟨p, hp, h⟩ := ih hs
      exact ⟨p, by simp [hp], h⟩

theorem occView_sum {occ : List OccSct} (hocc : List.Forall₂ OccView es occ) (f : OccSct → ℝ) (F : Sct → ℝ) (h : ∀ p ∈ es, ∀ s, OccView p s → f s = F p.2) :
    (occ.map f).sum = (es.map fun p => F p.2).sum := by
  induction hocc with
  | nil => rfl
  | cons hv _ ih =>
    rw [List.map_cons, List.map_cons, List.sum_cons, List.sum_cons, h _ (by simp) _ hv, ih fun p hp => h p (by simp [hp])]

theorem occView_Z {occ : List OccSct} (hocc : List.Forall₂ OccView es occ) (egs beta : ℝ) : (occ.map (boltzZ egs beta)).sum = partition es beta egs := by
  rw [occView_sum hocc (boltzZ egs beta) (sctWt beta egs)]
  · unfold partition
    congr 1
    exact List.map_congr_left fun p _ => sctWt_eq beta egs p.2
  · intro p _ s hv
    unfold boltzZ sctWt
    rw [Finset.sum_range]
    have hlen : s.eigvals.length = p.2.eigvals.length := by rw [hv.vals]
    refine Fintype.sum_equiv (finCongr hlen) _ _ fun j => ?_
    have hj : p.2.eigvals[(j : ℕ)]?.getD 0 = s.eigvals[j] := by rw [← hv.vals]; simp
    simp [hj]

theorem occView_O (h : SubEspace n H es) {occ : List OccSct} (hocc : List.Forall₂ OccView es occ) (egs beta : ℝ) (b : Bool) (k : Fin n) :
    (occ.map (boltzOcc egs beta n b k)).sum = (es.map fun p => sctSum n (fun E x => Real.exp (-beta * (E - egs)) * (x ⬝ᵥ (num ℝ (orb b k) *ᵥ x))) p.2).sum := by
  refine occView_sum hocc _ _ fun p hp s hv => ?_
  obtain ⟨up, dw, hk⟩ := (h.sct p hp).ok
  unfold boltzOcc sctSum
  rw [Finset.sum_range]
  have hlen : s.eigvals.length = p.2.eigvals.length := by rw [hv.vals]
  refine Fintype.sum_equiv (finCongr hlen) _ _ fun j => ?_
  rw [hv.psi hk (by have := j.2; omega)]
  have hj : p.2.eigvals[(j : ℕ)]?.getD 0 = s.eigvals[j] := by rw [← hv.vals]; simp
  simp [hj]

/-- The weight of all states. -/
theorem partition_complete (h0 : EigenEspace n H es0) (h1 : EigenEspace n H es1) (β egs : ℝ) : partition es0 β egs = partition es1 β egs := by
  have key : ∀ es, EigenEspace n H es → partition es β egs = ∑ q ∈ (ndindex2 (n + 1) (n + 1)).toFinset, sctWt β egs (sctAt es q) := fun es h => by
    rw [partition_keys h.nodup, finset_sum_keys _ h.nodup, List.toFinset_eq_of_perm _ _ h.keys]
  rw [key _ h0, key _ h1]
  exact Finset.sum_congr rfl fun q hq => sctWt_complete h0 h1 β egs (List.mem_toFinset.mp hq)

/-- **C125** (part of the states) `get_occupation` on part of the eigenstates of a Hamiltonian: every occupation differs from the thermal one at most by the fraction of the weight that is
missing. -/
theorem C125_truncated (h : SubEspace n H es) (h0 : EigenEspace n H es0) {occ : List OccSct} (hocc : List.Forall₂ OccView es occ) (egs beta : ℝ) (hK : 0 < partition es beta egs) :
    ∃ U D As, getOccupation occ egs beta n = .ok (U, D, As) ∧ ∀ k : Fin n,
      ‖(U k : ℂ) - thermalOcc beta H false k‖ ≤ (partition es0 beta egs - partition es beta egs) / partition es0 beta egs ∧
      ‖(D k : ℂ) - thermalOcc beta H true k‖ ≤ (partition es0 beta egs - partition es beta egs) / partition es0 beta egs := by
  obtain ⟨es1, h1, hp⟩ := h.extend h0
  rw [partition_complete h0 h1]
  have hok : ∀ s ∈ occ, ∃ nup ndw, OccOk n nup ndw s := by
    intro s hs
    obtain ⟨p, hp, hv⟩ := occView_mem hocc hs
    obtain ⟨up, dw, h1⟩ := (h.sct p hp).ok
    exact ⟨_, _, hv.ok h1⟩
  obtain ⟨U, D, As, hr, hUD⟩ := C43_thermal egs beta occ hok
  refine ⟨U, D, As, hr, ?_⟩
  have hexp : ∀ E : ℝ, Real.exp (-beta * (E - egs)) = Real.exp (beta * egs) * Real.exp (-beta * E) := by
    intro E; rw [← Real.exp_add]; congr 1; ring
  have hnorm : ∀ q ∈ ndindex2 (n + 1) (n + 1), ∀ k < (sctAt es1 q).eigvals.length, (sctAt es1 q).ket n k ⬝ᵥ (sctAt es1 q).ket n k = 1 := by
    intro q hq k hk
    exact (h1.subEspace.get (h1.keys.mem_iff.mpr hq)).2.ket_norm hk
  have fin : ∀ (b : Bool) (k : Fin n), ‖(((occ.map (boltzOcc egs beta n b k)).sum / (occ.map (boltzZ egs beta)).sum : ℝ) : ℂ) - thermalOcc beta H b k‖ ≤
      (partition es1 beta egs - partition es beta egs) / partition es1 beta egs := by
    intro b k
    set F : ℝ → (Finset (Fin (n + n)) → ℝ) → ℝ := fun E x => Real.exp (-beta * (E - egs)) * (x ⬝ᵥ (num ℝ (orb b k) *ᵥ x)) with hFd
    set G : ℝ → (Finset (Fin (n + n)) → ℝ) → ℝ := fun E x => Real.exp (-beta * (E - egs)) * (1 - x ⬝ᵥ (num ℝ (orb b k) *ᵥ x)) with hGd
    have hF := sub_sum h h1 hp F fun q hq j hj => mul_nonneg (Real.exp_pos _).le (num_expect b k (hnorm q hq j hj)).1
    have hG := sub_sum h h1 hp G fun q hq j hj => mul_nonneg (Real.exp_pos _).le (by have := (num_expect b k (hnorm q hq j hj)).2; linarith)
    have hpos : ∀ p ∈ es, 0 ≤ sctSum n F p.2 ∧ 0 ≤ sctSum n G p.2 ∧ sctSum n F p.2 + sctSum n G p.2 = sctWt beta egs p.2 := by
      intro p hpm
      refine ⟨Finset.sum_nonneg fun j hj => ?_, Finset.sum_nonneg fun j hj => ?_, ?_⟩
      · exact mul_nonneg (Real.exp_pos _).le (num_expect b k ((h.sct p hpm).ket_norm (Finset.mem_range.mp hj))).1
      · have := (num_expect b k ((h.sct p hpm).ket_norm (Finset.mem_range.mp hj))).2
        exact mul_nonneg (Real.exp_pos _).le (by linarith)
      · unfold sctSum sctWt
        rw [← Finset.sum_add_distrib]
        exact Finset.sum_congr rfl fun j _ => by simp only [hFd, hGd]; ring
    have hN : 0 ≤ (es.map fun p => sctSum n F p.2).sum := List.sum_nonneg fun x hx => by obtain ⟨p, hpm, rfl⟩ := List.mem_map.mp hx; exact (hpos p hpm).1
    have hM : 0 ≤ (es.map fun p => sctSum n G p.2).sum := List.sum_nonneg fun x hx => by obtain ⟨p, hpm, rfl⟩ := List.mem_map.mp hx; exact (hpos p hpm).2.1
    have hFG : (es.map fun p => sctSum n F p.2).sum + (es.map fun p => sctSum n G p.2).sum = partition es beta egs := by
      rw [← List.sum_map_add]
      unfold partition
      congr 1
      exact List.map_congr_left fun p hpm => by rw [(hpos p hpm).2.2, sctWt_eq]
    have hFG1 : ∑ x, F (esVal n es1 x) (esKet n es1 x) + ∑ x, G (esVal n es1 x) (esKet n es1 x) = partition es1 beta egs := by
      rw [← Finset.sum_add_distrib, partition_eq h1.toCompleteEspace, Finset.mul_sum]
      exact Finset.sum_congr rfl fun x _ => by simp only [hFd, hGd]; rw [← hexp]; ring
    have hth : thermalOcc beta H b k = (((∑ x, F (esVal n es1 x) (esKet n es1 x)) / partition es1 beta egs : ℝ) : ℂ) := by
      unfold thermalOcc
      rw [h1.basis.thermal, partition_eq h1.toCompleteEspace]
      have : ∑ x, F (esVal n es1 x) (esKet n es1 x) = Real.exp (beta * egs) * ∑ x, Real.exp (-beta * esVal n es1 x) * (esKet n es1 x ⬝ᵥ (num ℝ (orb b k) *ᵥ esKet n es1 x)) := by
        rw [Finset.mul_sum]
        exact Finset.sum_congr rfl fun x _ => by simp only [hFd]; rw [hexp]; ring
      rw [this, mul_div_mul_left _ _ (Real.exp_pos _).ne']
    rw [hth, ← Complex.ofReal_sub, Complex.norm_real, Real.norm_eq_abs, occView_Z hocc, occView_O h hocc]
    exact avg_err hK hN hF (by linarith) (by linarith)
  exact fun k => ⟨by rw [(hUD k).1]; exact fin false k, by rw [(hUD k).2]; exact fin true k⟩

variable {cfg : LancCfg} {w junk : ℕ} {beta : ℝ} {spin : Bool} {a : HamArgs}

/-- The espace that `Gfimp.solve` stores. -/
theorem impSolve_espace (ha : a.Valid) (hw : a.n ≤ w) (hc : cfg.Ok) (h0 : 0 < a.n) (hβ : 0 ≤ beta) {out : SolveOut} (hr : ImpSolve cfg w junk a beta spin none false (.ok out)) :
    ∃ es, EigenEspace a.n a.ham es ∧ SubEspace a.n a.ham out.es ∧ 1 ≤ partition out.es beta out.egs ∧
      partition es beta out.egs - partition out.es beta out.egs ≤ 4 ^ a.n * (1 / 10 ^ 9 : ℝ) ^ (beta / 10 ^ 6) := by
  obtain ⟨es, egs, h1, es', h2, h3, hr⟩ := impSolve_cases ha hw hr
  have hE := buildEspace_eigen ha hw h1
  obtain ⟨k1, k2⟩ := screen_weights' ha hw h1 (β := beta) (by norm_num) hβ (by norm_num) (by norm_num) h2
  rcases hr with ⟨x, hx, hr⟩ | ⟨e, hx, he⟩
  · obtain ⟨out', e1, hs, -, -, -, hK, -⟩ := gfBuild_sub (g := ⟨cfg, .sp, w, junk, a, beta, egs, spin⟩) (jk := 0) ha hw hc h0 hE h3 hx
    injection e1 with e1; subst e1
    rw [gfBuild_Z hx] at hK
    simp only [DetR, Except.ok.injEq] at hr
    subst hr
    simp only at hK ⊢
    exact ⟨es, hE, hs, by linarith, by linarith⟩
  · cases he

/-- The espace that `SpinGfimp.solve` stores. -/
theorem spinSolve_espace (ha : a.Valid) (hw : a.n ≤ w) (hc : cfg.Ok) (h0 : 0 < a.n) (hβ : 0 ≤ beta) {out : SpinSolveOut} (hr : SpinImpSolve cfg w junk a beta none false (.ok out)) :
    ∃ es, EigenEspace a.n a.ham es ∧ SubEspace a.n a.ham out.es ∧ 1 ≤ partition out.es beta out.egs ∧
      partition es beta out.egs - partition out.es beta out.egs ≤ 4 ^ a.n * (1 / 10 ^ 9 : ℝ) ^ (beta / 10 ^ 6) := by
  rcases hr with ⟨⟨es, e1⟩, h1, hr⟩ | ⟨e, h1, -⟩
  swap
  · exact absurd h1 ((buildEspace_none_ok ha hw).2 e)
  obtain ⟨E, rfl, -⟩ := buildEspace_least ha hw h1
  have hE := buildEspace_eigen ha hw h1
  obtain ⟨es', h2, h3⟩ := hE.subEspace.screen E (10 ^ 6) (1 / 10 ^ 9)
  simp only [WithTop.untopD_coe, screenDefault] at hr
  rw [bindR_ok h2, bindR_ok (adjustIf_false _ _ _)] at hr
  obtain ⟨k1, k2⟩ := screen_weights' ha hw h1 (β := beta) (by norm_num) hβ (by norm_num) (by norm_num) h2
  rcases hr with ⟨x, hx, hr⟩ | ⟨e, hx, he⟩
  swap
  · cases he
  obtain ⟨out1, e1, hs1, -, -, -, hK1, -⟩ := gfBuild_sub (g := ⟨cfg, .sp, w, junk, a, beta, E, false⟩) (jk := 0) ha hw hc h0 hE h3 hx
  injection e1 with e1; subst e1
  rw [gfBuild_Z hx] at hK1
  rcases hr with ⟨y, hy, hr⟩ | ⟨e, hy, he⟩
  swap
  · cases he
  obtain ⟨out2, e1, hs2, -, -, -, hK2, -⟩ := gfBuild_sub (g := ⟨cfg, .sp, w, junk, a, beta, E, true⟩) (jk := 0) ha hw hc h0 hE hs1 hy
  injection e1 with e1; subst e1
  rw [gfBuild_Z hy] at hK2
  simp only [DetR, Except.ok.injEq] at hr
  subst hr
  simp only at hK1 hK2 ⊢
  exact ⟨es, hE, hs2, by linarith, by linarith⟩

theorem loss_frac {Z0 K κ : ℝ} (hκ : 0 ≤ κ) (hK : 1 ≤ K) (h : Z0 - K ≤ κ) (hZ : K ≤ Z0) : (Z0 - K) / Z0 ≤ κ := by
  rw [div_le_iff₀ (by linarith)]
  nlinarith

theorem sub_partition_le (h : SubEspace n H es) (h0 : EigenEspace n H es0) (β egs : ℝ) : partition es β egs ≤ partition es0 β egs := by
  obtain ⟨c1, c2, -⟩ := h.compare (B := 0) (c := 0) (by simp) h0 β egs
  exact c1.trans c2

/-- **C125** (partial) The occupations that `get_occupation` finds in the espace of a solved `Gfimp`: the thermal ones up to `4ⁿ (10⁻⁹)^(beta / 10⁶)`. Missing: the claim for smaller `beta`,
which is false (`C125_refuted`). -/
theorem C125_solve_partial (ha : a.Valid) (hw : a.n ≤ w) (hc : cfg.Ok) (h0 : 0 < a.n) (hβ : 0 ≤ beta) {out : SolveOut} (hr : ImpSolve cfg w junk a beta spin none false (.ok out))
    {occ : List OccSct} (hocc : List.Forall₂ OccView out.es occ) :
    ∃ U D As, getOccupation occ out.egs beta a.n = .ok (U, D, As) ∧ ∀ k : Fin a.n,
      ‖(U k : ℂ) - thermalOcc beta a.ham false k‖ ≤ 4 ^ a.n * (1 / 10 ^ 9 : ℝ) ^ (beta / 10 ^ 6) ∧
      ‖(D k : ℂ) - thermalOcc beta a.ham true k‖ ≤ 4 ^ a.n * (1 / 10 ^ 9 : ℝ) ^ (beta / 10 ^ 6) := by
  obtain ⟨es, hE, hs, hK, hl⟩ := impSolve_espace ha hw hc h0 hβ hr
  obtain ⟨U, D, As, h1, h2⟩ := C125_truncated hs hE hocc out.egs beta (by linarith)
  have := loss_frac (by positivity) hK hl (sub_partition_le hs hE beta out.egs)
  exact ⟨U, D, As, h1, fun k => ⟨(h2 k).1.trans this, (h2 k).2.trans this⟩⟩

/-- An impurity of a nano container after `SpinGfimp.solve` on the Hamiltonian `a`. -/
structure SolvedBy (T : ℝ) (n : ℕ) (a : HamArgs) (g : SolvedImp) : Prop where
  valid : a.Valid
  sites : a.n = n
  beta : g.beta = T
  n : g.n = n
  solve : ∃ (cfg : LancCfg) (w junk : ℕ) (out : SpinSolveOut), cfg.Ok ∧ a.n ≤ w ∧ SpinImpSolve cfg w junk a T none false (.ok out) ∧ g.egs = out.egs ∧ List.Forall₂ OccView out.es g.espace

/-- The number `x` is, up to `κ`, the difference of the occupations of the two spins on the impurity site. -/
def MomentWithin (κ T : ℝ) (a : HamArgs) (x : ℝ) : Prop :=
  ∀ h0 : 0 < a.n, ‖(x : ℂ) - (thermalOcc T a.ham false ⟨0, h0⟩ - thermalOcc T a.ham true ⟨0, h0⟩)‖ ≤ κ

theorem SolvedBy.moment {T : ℝ} {n : ℕ} {a : HamArgs} {g : SolvedImp} (h : SolvedBy T n a g) (hn : 0 < n) (hβ : 0 ≤ T) :
    ∃ U D As, getOccupation g.espace g.egs T n = .ok (U, D, As) ∧ MomentWithin (2 * (4 ^ n * (1 / 10 ^ 9 : ℝ) ^ (T / 10 ^ 6))) T a (U 0 - D 0) := by
  obtain ⟨hv, hs, -, -, cfg, w, junk, out, hc, hw, hr, he, hocc⟩ := h
  subst hs
  obtain ⟨es, hE, hs, hK, hl⟩ := spinSolve_espace hv hw hc hn hβ hr
  obtain ⟨U, D, As, h1, h2⟩ := C125_truncated hs hE hocc out.egs T (by linarith)
  have := loss_frac (by positivity) hK hl (sub_partition_le hs hE T out.egs)
  rw [he]
  refine ⟨U, D, As, h1, fun h0 => ?_⟩
  have h3 := (h2 ⟨0, h0⟩).1.trans this
  have h4 := (h2 ⟨0, h0⟩).2.trans this
  simp only at h3 h4
  generalize (4 ^ a.n * (1 / 10 ^ 9 : ℝ) ^ (T / 10 ^ 6)) = κ at h3 h4 ⊢
  have e : (((U 0 - D 0 : ℝ)) : ℂ) - (thermalOcc T a.ham false ⟨0, h0⟩ - thermalOcc T a.ham true ⟨0, h0⟩) =
      ((U 0 : ℂ) - thermalOcc T a.ham false ⟨0, h0⟩) - ((D 0 : ℂ) - thermalOcc T a.ham true ⟨0, h0⟩) := by push_cast; ring
  rw [e]
  refine (norm_sub_le _ _).trans ?_
  linarith

theorem mapM_forall₂ {α β γ : Type*} {R : β → α → Prop} {Q : β → γ → Prop} (f : α → Except PyErr γ) {bs : List β} {l : List α} (h : List.Forall₂ R bs l)
    (hf : ∀ b a, a ∈ l → R b a → ∃ c, f a = .ok c ∧ Q b c) : ∃ L, l.mapM f = .ok L ∧ List.Forall₂ Q bs L := by
  induction h with
  | nil => exact ⟨[], rfl, .nil⟩
  | @cons b a bs l hR _ ih =>
    obtain ⟨c, hc, hq⟩ := hf b a (by simp) hR
    obtain ⟨L, hL, hL'⟩ := ih fun b a ha => hf b a (by simp [ha])
    refine ⟨c :: L, ?_, .cons hq hL'⟩
    rw [List.mapM_cons, hc, hL]
    rfl

/-- **C125** (partial) `get_local_moments` of a nano container whose impurities have the same temperature and the same number of sites: entry `i` is the difference of the occupations of the
two spins on the impurity site of impurity `i`, up to `2 · 4ⁿ (10⁻⁹)^(beta / 10⁶)`. -/
theorem C125_local_moments_partial {T : ℝ} {n : ℕ} (hn : 0 < n) (hβ : 0 ≤ T) {as : List HamArgs} {imps : List SolvedImp} (h : List.Forall₂ (SolvedBy T n) as imps) :
    ∃ L, getLocalMoments imps = .ok L ∧ List.Forall₂ (MomentWithin (2 * (4 ^ n * (1 / 10 ^ 9 : ℝ) ^ (T / 10 ^ 6))) T) as L := by
  refine mapM_forall₂ _ h fun a g hg hs => ?_
  obtain ⟨U, D, As, h1, h2⟩ := hs.moment hn hβ
  refine ⟨_, ?_, h2⟩
  cases h with
  | nil => cases hg
  | cons hf _ =>
    simp only [hf.beta, hf.n, h1, bind, Except.bind, pure, Except.pure]
    rw [if_neg hn.ne']

/-- **C125** refuted at ordinary temperatures: for the impurity of `C119_refuted` at `beta = log 2`, `get_occupation` on the espace that `solve` stores gives exactly one electron of each
spin on the impurity, whereas there are `8/11`. -/
theorem C125_refuted : ∃ (s : Imp) (U β : ℝ), 0 < β ∧ s = impAfter 1 (fun _ => 0) (fun _ => 0) [] (fun _ => -1) (fun _ => 0) [3] ∧ (s.args 2 U).Valid ∧
    (∀ b, thermalOcc (n := 2) β (s.args 2 U).ham b (0 : Fin 2) = 8 / 11) ∧
    ∀ (cfg : LancCfg) (w junk : ℕ) (spin : Bool), cfg.Ok → 2 ≤ w → (∃ out, ImpSolve cfg w junk (s.args 2 U) β spin none false (.ok out)) ∧
      ∀ out, ImpSolve cfg w junk (s.args 2 U) β spin none false (.ok out) → ∀ occ, List.Forall₂ OccView out.es occ →
        ∃ u d As, getOccupation occ out.egs β 2 = .ok (u, d, As) ∧ u 0 = 1 ∧ d 0 = 1 := by
  refine ⟨hotImp, 2, Real.log 2, Real.log_pos (by norm_num), rfl, hotArgs_valid, fun b => ?_, fun cfg w junk spin hc hw => ⟨?_, fun out hr occ hocc => ?_⟩⟩
  · have hl : ∀ s, hotArgs.siteLevel s (⟨0, by change 0 < 2; norm_num⟩ : Fin hotArgs.n) = -3 := fun s => by
      unfold HamArgs.siteLevel
      change hotImp.H 0 0 + 0 - (if false = true then _ else 0) = _
      rw [hot_00]; simp
    have hU : hotArgs.V.U.getD 0 ((⟨0, by change 0 < 2; norm_num⟩ : Fin hotArgs.n) : ℕ) ((⟨0, by change 0 < 2; norm_num⟩ : Fin hotArgs.n) : ℕ) = 2 := by
      simp [hotArgs, Imp.args, VArg.array]
    obtain ⟨es, hes⟩ := eigenEspace_exists hotArgs_valid
    have h := hot_isolated.occ (beta := Real.log 2) hes b
    rw [hl, hl, hU] at h
    have e3 : Real.exp (-Real.log 2 * -3) = 8 := by
      rw [show -Real.log 2 * -3 = Real.log (2 ^ 3) by rw [Real.log_pow]; push_cast; ring, Real.exp_log (by norm_num)]; norm_num
    have e4 : Real.exp (-Real.log 2 * (-3 + -3 + 2)) = 16 := by
      rw [show -Real.log 2 * (-3 + -3 + 2) = Real.log (2 ^ 4) by rw [Real.log_pow]; push_cast; ring, Real.exp_log (by norm_num)]; norm_num
    have ho : atomicOcc (Real.log 2) (-3) (-3) 2 = 8 / 11 := by
      unfold atomicOcc
      rw [e3, e4]; norm_num
    rw [ho] at h
    refine h.trans (by push_cast; rfl)
  · obtain ⟨r, hr⟩ := impSolve_exists (junk := junk) hotArgs_valid hw hc (by change 0 < 2; norm_num) (Real.log 2) spin
    obtain ⟨out, rfl, -⟩ := hot_gf 0 hw hc (Real.log_pos (by norm_num)).le hr
    exact ⟨out, hr⟩
  · obtain ⟨out', e1, ⟨hkeys, hsub, hK⟩, -⟩ := hot_gf 0 hw hc (Real.log_pos (by norm_num)).le hr
    injection e1 with e1; subst e1
    have hok : ∀ s ∈ occ, ∃ nup ndw, OccOk 2 nup ndw s := by
      intro s hs
      obtain ⟨p, hp, hv⟩ := occView_mem hocc hs
      obtain ⟨up, dw, h1⟩ := (hsub.sct p hp).ok
      exact ⟨_, _, hv.ok h1⟩
    obtain ⟨U, D, As, h1, hUD⟩ := C43_thermal out.egs (Real.log 2) occ hok
    have key : ∀ b, (occ.map (boltzOcc out.egs (Real.log 2) 2 b (0 : Fin 2))).sum = partition out.es (Real.log 2) out.egs := by
      intro b
      rw [occView_O hsub hocc]
      unfold partition
      congr 1
      refine List.map_congr_left fun p hp => ?_
      rw [← sctWt_eq]
      unfold sctSum sctWt
      refine Finset.sum_congr rfl fun k hk => ?_
      have hq : p.1 = (2, 2) := by
        have : p.1 ∈ out.es.map Prod.fst := List.mem_map_of_mem hp
        rw [hkeys] at this
        simpa using this
      have hI := hsub.sct p hp
      rw [hq] at hI
      have hsup := (hot_low hI (Finset.mem_range.mp hk)).2
      have : (num ℝ (orb b (0 : Fin 2))) *ᵥ (p.2.ket 2 k) = p.2.ket 2 k := by
        rw [num_diagonal]
        funext S
        rw [Matrix.mulVec_diagonal]
        by_cases hS : p.2.ket 2 k S = 0
        · rw [hS, mul_zero]
        · rw [hsup S hS]; simp
      simp only
      rw [this, hI.ket_norm (Finset.mem_range.mp hk), mul_one]
    have hK' : partition out.es (Real.log 2) out.egs ≠ 0 := by linarith
    refine ⟨U, D, As, h1, ?_, ?_⟩
    · have := (hUD 0).1
      rw [key, occView_Z hocc, div_self hK'] at this
      exact this
    · have := (hUD 0).2
      rw [key, occView_Z hocc, div_self hK'] at this
      exact this

/-- The hypotheses of `C125_solve_partial` and `C125_local_moments_partial` are met: two such impurities at `beta = 10⁷`, where the bound is below `10⁻⁸⁰`. -/
example : ∃ (cfg : LancCfg) (out : SolveOut) (g : SolvedImp), cfg.Ok ∧ ImpSolve cfg 64 0 hotArgs (10 ^ 7) false none false (.ok out) ∧
    List.Forall₂ OccView out.es (out.es.map fun p => OccSct.ofSct p.2) ∧ List.Forall₂ (SolvedBy (10 ^ 7) 2) [hotArgs, hotArgs] [g, g] ∧
    2 * (4 ^ 2 * (1 / 10 ^ 9 : ℝ) ^ ((10 : ℝ) ^ 7 / 10 ^ 6)) ≤ 1 / 10 ^ 80 := by
  have hc : (⟨20, 2, 1 / 100, fun _ _ => 0, fun _ _ => false⟩ : LancCfg).Ok := ⟨by norm_num, by norm_num, by norm_num⟩
  have hview : ∀ es : Espace (ℕ × ℕ), List.Forall₂ OccView es (es.map fun p => OccSct.ofSct p.2) := fun es => by
    induction es with
    | nil => exact .nil
    | cons p es ih => exact .cons (OccSct.ofSct_view p) ih
  obtain ⟨r, hr⟩ := impSolve_exists (w := 64) (junk := 0) hotArgs_valid (by change 2 ≤ 64; norm_num) hc (by change 0 < 2; norm_num) (10 ^ 7) false
  obtain ⟨out, rfl, -⟩ := hot_gf 0 (by norm_num) hc (by norm_num) hr
  obtain ⟨⟨r, hs⟩, h⟩ := C119_spin_solve_partial (w := 64) (junk := 0) (beta := 10 ^ 7) 0 hotArgs_valid (by change 2 ≤ 64; norm_num) hc (by change 0 < 2; norm_num) (by norm_num)
  obtain ⟨o, rfl, -⟩ := h r hs
  have hg : SolvedBy (10 ^ 7) 2 hotArgs ⟨o.es.map fun p => OccSct.ofSct p.2, o.egs, 10 ^ 7, 2⟩ :=
    ⟨hotArgs_valid, rfl, rfl, rfl, _, 64, 0, o, hc, by change 2 ≤ 64; norm_num, hs, rfl, hview _⟩
  refine ⟨_, out, _, hc, hr, hview _, .cons hg (.cons hg .nil), ?_⟩
  rw [show (10 : ℝ) ^ 7 / 10 ^ 6 = ((10 : ℕ) : ℝ) by norm_num, Real.rpow_natCast]
  norm_num

end Edpyt
