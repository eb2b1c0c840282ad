import Verif.Proof.GfExact
import Verif.Props.Espace
/-!
Properties C35, C36, C37: the exact Green function.
-/
namespace Edpyt
open Spec

/-- The sector stored under a key. -/
def sctAt (es : Espace (ℕ × ℕ)) (q : ℕ × ℕ) : Sct :=
  match dictGet es q with
  | .ok s => s
  | .error _ => ⟨.total [], 0, [], []⟩

/-- `Σ_k e^{-β(E_k - E0)} ‖A|k⟩‖²` over the eigenstates of a sector. -/
noncomputable def thermalNorm (n : ℕ) (beta egs : ℝ) (s : Sct) (A : Matrix (Finset (Fin (n + n))) (Finset (Fin (n + n))) ℝ) : ℝ :=
  ∑ k ∈ Finset.range s.eigvals.length, Real.exp (-beta * ((s.eigvals[k]?.getD 0) - egs)) * normSq (A.mulVec (s.ket n k))

variable {n pos junk : ℕ} {es : Espace (ℕ × ℕ)} {beta egs : ℝ}

theorem gfExact_step (hn : n ≤ 32) (hpos : pos < n) (hes : CompleteEspace n es) {u d : ℕ} (hu : u ≤ n) (hd : d ≤ n) :
    ∃ L Q : List ℝ, (∀ st, gfExactStep (projectExactUp junk pos n .cdg) n es beta egs st (u, d) = .ok (st.1 ++ L, st.2 ++ Q)) ∧
      L.length = Q.length ∧ (∀ q ∈ Q, 0 ≤ q) ∧
      Q.sum = if u + 1 ≤ n then thermalNorm n beta egs (sctAt es (u, d)) (cre ℝ (orb false ⟨pos, hpos⟩)) +
        thermalNorm n beta egs (sctAt es (u + 1, d)) (ann ℝ (orb false ⟨pos, hpos⟩)) else 0 := by
  obtain ⟨I, hImem, hI⟩ := hes.get hu hd
  by_cases h : u + 1 ≤ n
  · obtain ⟨J, hJmem, hJ⟩ := hes.get h hd
    obtain ⟨upI, dwI, hIok, hIc⟩ := hes.ok _ hImem
    obtain ⟨upJ, dwJ, hJok, hJc⟩ := hes.ok _ hJmem
    simp only at hIok hIc hJok hJc
    obtain ⟨A, B, hA, hB, hAB⟩ := C34_adjoint_up (junk := junk) hn hpos hIok hJok
    have s1 := sum_sq_project hn hpos .cdg (p := u) (q := u + 1) rfl hIok hJok hJc hA
    have s2 := sum_sq_project hn hpos .c (p := u + 1) (q := u) rfl hJok hIok hIc hB
    refine ⟨(ndindex2 J.eigvals.length I.eigvals.length).map (fun jk => ((J.eigvals[jk.1]?.getD 0) - egs) - ((I.eigvals[jk.2]?.getD 0) - egs)),
      (ndindex2 J.eigvals.length I.eigvals.length).map (fun jk => A jk.1 jk.2 ^ 2 *
        (Real.exp (-beta * ((J.eigvals[jk.1]?.getD 0) - egs)) + Real.exp (-beta * ((I.eigvals[jk.2]?.getD 0) - egs)))), fun st => ?_, ?_, ?_, ?_⟩
    · unfold gfExactStep
      simp only [hI, bind, Except.bind, pure, Except.pure]
      rw [if_neg (by omega), hJ]
      simp only [hA]
    · simp
    · intro q hq
      obtain ⟨jk, -, rfl⟩ := List.mem_map.mp hq
      positivity
    · rw [if_pos h, sum_ndindex2]
      simp only [sctAt, hI, hJ, thermalNorm]
      simp only [mul_add, Finset.sum_add_distrib]
      rw [add_comm]
      congr 1
      · rw [Finset.sum_comm]
        apply Finset.sum_congr rfl; intro k hk
        rw [← Finset.sum_mul, s1 k (Finset.mem_range.mp hk), mul_comm]; rfl
      · apply Finset.sum_congr rfl; intro j hj
        rw [← Finset.sum_mul, mul_comm]
        congr 1
        refine Eq.trans ?_ (s2 j (Finset.mem_range.mp hj))
        apply Finset.sum_congr rfl; intro k hk
        rw [hAB j k (Finset.mem_range.mp hj) (Finset.mem_range.mp hk)]
  · refine ⟨[], [], fun st => ?_, rfl, by simp, by rw [if_neg h]; rfl⟩
    unfold gfExactStep
    simp only [hI, bind, Except.bind, pure, Except.pure]
    rw [if_pos (by omega)]; simp

theorem gfExact_loop (hn : n ≤ 32) (hpos : pos < n) (hes : CompleteEspace n es) (keys : List (ℕ × ℕ))
    (hk : ∀ q ∈ keys, q.1 ≤ n ∧ q.2 ≤ n) (st : List ℝ × List ℝ) :
    ∃ L Q : List ℝ, forM' (gfExactStep (projectExactUp junk pos n .cdg) n es beta egs) keys st = .ok (st.1 ++ L, st.2 ++ Q) ∧
      L.length = Q.length ∧ (∀ q ∈ Q, 0 ≤ q) ∧
      Q.sum = (keys.map fun q => if q.1 + 1 ≤ n then thermalNorm n beta egs (sctAt es q) (cre ℝ (orb false ⟨pos, hpos⟩)) +
        thermalNorm n beta egs (sctAt es (q.1 + 1, q.2)) (ann ℝ (orb false ⟨pos, hpos⟩)) else 0).sum := by
  induction keys generalizing st with
  | nil => exact ⟨[], [], by simp [forM'], rfl, by simp, by simp⟩
  | cons q keys ih =>
    obtain ⟨L1, Q1, a1, a2, a3, a4⟩ := gfExact_step (junk := junk) (beta := beta) (egs := egs) hn hpos hes (hk q (by simp)).1 (hk q (by simp)).2
    obtain ⟨L2, Q2, b1, b2, b3, b4⟩ := ih (fun q hq => hk q (by simp [hq])) (st.1 ++ L1, st.2 ++ Q1)
    refine ⟨L1 ++ L2, Q1 ++ Q2, ?_, by simp [a2, b2], ?_, ?_⟩
    · rw [forM', a1 st]
      simp only [b1, List.append_assoc]
    · intro x hx
      rcases List.mem_append.mp hx with h | h
      · exact a3 x h
      · exact b3 x h
    · rw [List.sum_append, a4, b4, List.map_cons, List.sum_cons]

theorem thermalNorm_split (hn : n ≤ 32) (hpos : pos < n) (s : Sct) (hok : ∃ p up dw nd, SctOk n p nd s up dw ∧ Complete s.d s.eigvecs) :
    thermalNorm n beta egs s (cre ℝ (orb false ⟨pos, hpos⟩)) + thermalNorm n beta egs s (ann ℝ (orb false ⟨pos, hpos⟩))
      = (s.eigvals.map fun E => Real.exp (-beta * (E - egs))).sum := by
  obtain ⟨p, up, dw, nd, hok, hc⟩ := hok
  unfold thermalNorm
  rw [← Finset.sum_add_distrib]
  have hlen : s.eigvals.length = s.d := by rw [← hok.len, hc.len]
  have h1 : ∀ k ∈ Finset.range s.eigvals.length, Real.exp (-beta * ((s.eigvals[k]?.getD 0) - egs)) * normSq ((cre ℝ (orb false (⟨pos, hpos⟩ : Fin n))).mulVec (s.ket n k))
      + Real.exp (-beta * ((s.eigvals[k]?.getD 0) - egs)) * normSq ((ann ℝ (orb false (⟨pos, hpos⟩ : Fin n))).mulVec (s.ket n k))
      = Real.exp (-beta * ((s.eigvals[k]?.getD 0) - egs)) := by
    intro k hk
    have hkd : k < s.d := by rw [← hlen]; exact Finset.mem_range.mp hk
    rw [← mul_add, norm_split]
    have : normSq (s.ket n k) = 1 := by
      rw [hok.ket_eq, normSq, ket_inner hok.hup hok.hdw, ← hok.d, hc.orth k k hkd hkd, if_pos rfl]
    rw [this, mul_one]
  rw [Finset.sum_congr rfl h1, ← sum_map_range]
  congr 1
  apply List.ext_getElem
  · simp
  · intro i h2 h3
    simp at h2
    simp [List.getElem?_eq_getElem h2]

/-- **C35** sum rule: for every complete espace, temperature, site and reference energy `build_gf_exact` (spin up)
succeeds, all normalised residues `q / Z` are non-negative and they add up to one. -/
theorem C35_sum_rule (hn : n ≤ 32) (hpos : pos < n) (hes : CompleteEspace n es) :
    ∃ g, buildGfExact junk n es beta egs pos false = .ok g ∧ g.l.length = g.q.length ∧ 0 < g.Z ∧
      (∀ q ∈ g.q, 0 ≤ q / g.Z) ∧ (g.q.map (· / g.Z)).sum = 1 := by
  have hkeys : ∀ q ∈ es.map Prod.fst, q.1 ≤ n ∧ q.2 ≤ n := by
    intro q hq
    have := mem_ndindex2.mp (hes.keys.mem_iff.mp hq)
    omega
  obtain ⟨L, Q, h1, h2, h3, h4⟩ := gfExact_loop (junk := junk) (beta := beta) (egs := egs) hn hpos hes _ hkeys ([], [])
  simp only [List.nil_append] at h1
  set X := fun q => thermalNorm n beta egs (sctAt es q) (cre ℝ (orb false ⟨pos, hpos⟩)) with hX
  set Y := fun q => thermalNorm n beta egs (sctAt es q) (ann ℝ (orb false ⟨pos, hpos⟩)) with hY
  have hat : ∀ p ∈ es, sctAt es p.1 = p.2 := by
    intro p hp
    unfold sctAt
    rw [dictGet_mem hes.nodup (show (p.1, p.2) ∈ es from hp)]
  have hZ : partition es beta egs = ∑ u ∈ Finset.range (n + 1), ∑ d ∈ Finset.range (n + 1), (X (u, d) + Y (u, d)) := by
    have : partition es beta egs = ((es.map Prod.fst).map fun q => X q + Y q).sum := by
      unfold partition
      rw [List.map_map]
      congr 1
      apply List.map_congr_left
      intro p hp
      simp only [Function.comp, hX, hY, hat p hp]
      obtain ⟨up, dw, hok, hc⟩ := hes.ok p hp
      exact (thermalNorm_split hn hpos p.2 ⟨_, up, dw, _, hok, hc⟩).symm
    rw [this, (hes.keys.map _).sum_eq, sum_ndindex2]
  have hXn : ∀ d, d ≤ n → X (n, d) = 0 := by
    intro d hd
    obtain ⟨s, hs, he⟩ := hes.get le_rfl hd
    obtain ⟨up, dw, hok, -⟩ := hes.ok _ hs
    simp only at hok
    simp only [hX, sctAt, he, thermalNorm]
    apply Finset.sum_eq_zero; intro k _
    have := ladder_boundary hn hpos .cdg hok (Or.inl ⟨rfl, rfl⟩) k
    simp only [Ladder.mat] at this
    rw [this, normSq, zero_dotProduct, mul_zero]
  have hY0 : ∀ d, d ≤ n → Y (0, d) = 0 := by
    intro d hd
    obtain ⟨s, hs, he⟩ := hes.get (Nat.zero_le n) hd
    obtain ⟨up, dw, hok, -⟩ := hes.ok _ hs
    simp only at hok
    simp only [hY, sctAt, he, thermalNorm]
    apply Finset.sum_eq_zero; intro k _
    have := ladder_boundary hn hpos .c hok (Or.inr ⟨rfl, rfl⟩) k
    simp only [Ladder.mat] at this
    rw [this, normSq, zero_dotProduct, mul_zero]
  have hQ : Q.sum = partition es beta egs := by
    rw [h4, (hes.keys.map _).sum_eq, sum_ndindex2, hZ]
    simp only [Finset.sum_add_distrib]
    rw [Finset.sum_range_succ, Finset.sum_eq_zero (s := Finset.range (n + 1)) (f := fun j => if n + 1 ≤ n then _ else _)
      (fun d _ => if_neg (by omega)), add_zero]
    rw [Finset.sum_range_succ (fun u => ∑ d ∈ Finset.range (n + 1), X (u, d)), Finset.sum_range_succ' (fun u => ∑ d ∈ Finset.range (n + 1), Y (u, d))]
    rw [Finset.sum_eq_zero (s := Finset.range (n + 1)) (f := fun d => X (n, d)) (fun d hd => hXn d (by have := Finset.mem_range.mp hd; omega)),
      Finset.sum_eq_zero (s := Finset.range (n + 1)) (f := fun d => Y (0, d)) (fun d hd => hY0 d (by have := Finset.mem_range.mp hd; omega)),
      add_zero, add_zero, ← Finset.sum_add_distrib]
    apply Finset.sum_congr rfl; intro u hu
    rw [← Finset.sum_add_distrib]
    apply Finset.sum_congr rfl; intro d _
    rw [if_pos (by have := Finset.mem_range.mp hu; omega)]
  have hpos' : 0 < partition es beta egs := by
    obtain ⟨s, hs, he⟩ := hes.get (Nat.zero_le n) (Nat.zero_le n)
    obtain ⟨up, dw, hok, hc⟩ := hes.ok _ hs
    simp only at hok hc
    unfold partition
    refine lt_of_lt_of_le ?_ (List.single_le_sum ?_ _ (List.mem_map.mpr ⟨_, hs, rfl⟩))
    · have hl : 0 < s.eigvals.length := by
        rw [← hok.len, hc.len, hok.d, hok.hup.len, hok.hdw.len]; simp
      apply List.sum_pos
      · intro y hy
        obtain ⟨E, -, rfl⟩ := List.mem_map.mp hy
        positivity
      · intro h; simp only at h; rw [List.map_eq_nil_iff] at h; simp [h] at hl
    · intro x hx
      obtain ⟨p, -, rfl⟩ := List.mem_map.mp hx
      apply List.sum_nonneg
      intro y hy
      obtain ⟨E, -, rfl⟩ := List.mem_map.mp hy
      positivity
  refine ⟨⟨Q, L, partition es beta egs⟩, ?_, h2, hpos', ?_, ?_⟩
  · unfold buildGfExact
    simp only [Bool.false_eq_true, if_false, h1, bind, Except.bind, pure, Except.pure]
  · intro q hq; exact div_nonneg (h3 q hq) hpos'.le
  · simp only [div_eq_mul_inv]
    rw [List.sum_map_mul_right, List.map_id', hQ, mul_inv_cancel₀ hpos'.ne']

/-- What `build_espace` returns without truncation is a complete espace. -/
theorem buildEspace_complete' {a : HamArgs} (ha : a.Valid) {w : ℕ} (hw : a.n ≤ w) {es : Espace (ℕ × ℕ)} {egs : WithTop ℝ}
    (h : BuildEspace w a none (.ok (es, egs))) :
    CompleteEspace a.n es ∧ es.map Prod.fst = ndindex2 (a.n + 1) (a.n + 1) := by
  have hl : neigOrDefault a.n none .sz = .ok ((ndindex2 (a.n + 1) (a.n + 1)).map fun p => a.n.choose p.1 * a.n.choose p.2) := by
    simp only [neigOrDefault]; rw [getEspaceDim_sz]; simp [clipDim]
  set l := (ndindex2 (a.n + 1) (a.n + 1)).map fun p => a.n.choose p.1 * a.n.choose p.2 with hldef
  have h' : BuildEspace w a (some l) (.ok (es, egs)) := by
    simp only [BuildEspace, hl] at h
    simpa only [BuildEspace, neigOrDefault] using h
  have hlv : ∀ p q, p ≤ a.n → q ≤ a.n → l[p * (a.n + 1) + q]?.getD 0 = a.n.choose p * a.n.choose q := by
    intro p q hp hq
    have hlt : p * (a.n + 1) + q < (ndindex2 (a.n + 1) (a.n + 1)).length := by
      rw [length_ndindex2]
      calc p * (a.n + 1) + q < (p + 1) * (a.n + 1) := by rw [Nat.succ_mul]; omega
        _ ≤ _ := Nat.mul_le_mul_right _ (by omega)
    have hdm := divmod_split (n := a.n + 1) (b := p) (i := q) (by omega)
    simp [hldef, List.getElem?_eq_getElem hlt, getElem_ndindex2, hdm.1, hdm.2]
  obtain ⟨c1, c2, -⟩ := C28_build_espace ha hw l es egs h'
  have hk : es.map Prod.fst = ndindex2 (a.n + 1) (a.n + 1) := by
    rw [c1, List.filter_eq_self]
    intro q hq
    obtain ⟨b1, b2⟩ := mem_ndindex2.mp hq
    rw [hlv _ _ (by omega) (by omega), decide_eq_true_eq]
    have := Nat.choose_pos (show q.1 ≤ a.n by omega)
    have := Nat.choose_pos (show q.2 ≤ a.n by omega)
    positivity
  refine ⟨⟨by rw [hk], fun p hp => ?_⟩, hk⟩
  obtain ⟨d1, d2, d3, d4, d5⟩ := c2 p hp
  have hpk : p.1 ∈ ndindex2 (a.n + 1) (a.n + 1) := hk ▸ List.mem_map.mpr ⟨p, hp, rfl⟩
  obtain ⟨b1, b2⟩ := mem_ndindex2.mp hpk
  have su := sectorList_of_generate ha.le hw (by omega) (generateStates_gs (w := w) (n := a.n) (p := p.1.1) (by omega))
  have sd := sectorList_of_generate ha.le hw (by omega) (generateStates_gs (w := w) (n := a.n) (p := p.1.2) (by omega))
  have hd : p.2.d = (gs w a.n p.1.1).length * (gs w a.n p.1.2).length := by rw [d2, su.len, sd.len]
  refine ⟨_, _, ⟨d1, su, sd, hd, d5⟩, ?_⟩
  rw [hlv _ _ (by omega) (by omega), ← d2] at d3
  obtain ⟨D, w', v', e1, e2, e3, e4⟩ := d3
  have hsz : D.size = p.2.d := by rw [e1.size, hd]
  have hv : p.2.eigvecs = v' := by rw [e4]; exact List.take_of_length_le (by rw [e2.vlen, hsz])
  refine ⟨by rw [hv, e2.vlen, hsz], fun i j hi hj => ?_⟩
  rw [hv]
  have hiv : i < v'.length := by rw [e2.vlen, hsz]; exact hi
  have hjv : j < v'.length := by rw [e2.vlen, hsz]; exact hj
  have := e2.orth i j hiv hjv
  rw [hsz] at this
  rw [List.getElem?_eq_getElem hiv, List.getElem?_eq_getElem hjv]
  exact this

theorem buildEspace_complete {a : HamArgs} (ha : a.Valid) {w : ℕ} (hw : a.n ≤ w) {es : Espace (ℕ × ℕ)} {egs : WithTop ℝ}
    (h : BuildEspace w a none (.ok (es, egs))) : CompleteEspace a.n es := (buildEspace_complete' ha hw h).1

/-- **C35** end to end: whatever complete eigenbasis LAPACK/ARPACK returned, the Green function computed from
`build_espace` satisfies the sum rule. -/
theorem C35_from_build_espace {a : HamArgs} (ha : a.Valid) {w : ℕ} (hw : a.n ≤ w) {e0 : WithTop ℝ}
    (h : BuildEspace w a none (.ok (es, e0))) (hp : pos < a.n) :
    ∃ g, buildGfExact junk a.n es beta egs pos false = .ok g ∧ (∀ q ∈ g.q, 0 ≤ q / g.Z) ∧ (g.q.map (· / g.Z)).sum = 1 := by
  obtain ⟨g, h1, -, -, h2, h3⟩ := C35_sum_rule (junk := junk) (beta := beta) (egs := egs) ha.le hp (buildEspace_complete ha hw h)
  exact ⟨g, h1, h2, h3⟩

/-- Non-vacuity: the two-site example has a complete espace. -/
example : ∃ es, CompleteEspace 2 es ∧ es.length = 9 := by
  obtain ⟨l, hl, hlb⟩ := C25_default_neig exampleArgs.n
  obtain ⟨⟨⟨es, e0⟩, h⟩, -⟩ := C25_build_espace_partial exampleArgs_valid (w := 64) (by simp [exampleArgs]) l hlb
  have h' : BuildEspace 64 exampleArgs none (.ok (es, e0)) := by
    simp only [BuildEspace, hl]
    simpa only [BuildEspace, neigOrDefault] using h
  have hc := buildEspace_complete exampleArgs_valid (by simp [exampleArgs]) h'
  exact ⟨es, hc, by rw [← List.length_map (f := Prod.fst), hc.keys.length_eq, length_ndindex2]; rfl⟩

/-! ### C36 -/

theorem im_pole (l q e eta : ℝ) : (((e + Complex.I * eta : ℂ) - (l : ℂ))⁻¹ * (q : ℂ)).im = -(eta * q / ((e - l) ^ 2 + eta ^ 2)) := by
  rw [Complex.mul_im, Complex.inv_im, Complex.inv_re]
  simp [Complex.normSq_apply]
  ring

/-- **C36** causality of a spectral representation: with non-negative residues and `eta > 0` the imaginary part is
never positive, and it is negative as soon as one residue is positive. -/
theorem C36_causal (g : GfEx) (hZ : 0 < g.Z) (hlen : g.l.length = g.q.length) (hq : ∀ q ∈ g.q, 0 ≤ q) (e eta : ℝ) (heta : 0 < eta) :
    (g.call e eta).im ≤ 0 ∧ ((∃ q ∈ g.q, 0 < q) → (g.call e eta).im < 0) := by
  obtain ⟨qs, ls, Z⟩ := g
  simp only at hZ hlen hq ⊢
  have key : ∀ (ls qs : List ℝ), ls.length = qs.length → (∀ q ∈ qs, 0 ≤ q) →
      (List.zipWith (fun (l q : ℝ) => ((e + Complex.I * eta : ℂ) - (l : ℂ))⁻¹ * (q : ℂ)) ls qs).sum.im ≤ 0 ∧
      ((∃ q ∈ qs, 0 < q) → (List.zipWith (fun (l q : ℝ) => ((e + Complex.I * eta : ℂ) - (l : ℂ))⁻¹ * (q : ℂ)) ls qs).sum.im < 0) := by
    intro ls
    induction ls with
    | nil => intro qs h _; cases qs <;> simp_all
    | cons l ls ih =>
      intro qs h hq
      cases qs with
      | nil => simp at h
      | cons q qs =>
        obtain ⟨i1, i2⟩ := ih qs (by simpa using h) (fun x hx => hq x (by simp [hx]))
        have hden : 0 < (e - l) ^ 2 + eta ^ 2 := by positivity
        have hq0 := hq q (by simp)
        rw [List.zipWith_cons_cons, List.sum_cons, Complex.add_im, im_pole]
        have hle : 0 ≤ eta * q / ((e - l) ^ 2 + eta ^ 2) := by positivity
        refine ⟨by linarith, ?_⟩
        rintro ⟨x, hx, hx0⟩
        rcases List.mem_cons.mp hx with rfl | hx'
        · have : 0 < eta * x / ((e - l) ^ 2 + eta ^ 2) := by positivity
          linarith
        · have := i2 ⟨x, hx', hx0⟩; linarith
  obtain ⟨k1, k2⟩ := key ls qs hlen hq
  have hdiv : ((⟨qs, ls, Z⟩ : GfEx).call e eta).im = (List.zipWith (fun (l q : ℝ) => ((e + Complex.I * eta : ℂ) - (l : ℂ))⁻¹ * (q : ℂ)) ls qs).sum.im / Z := by
    unfold GfEx.call
    rw [Complex.div_ofReal_im]
  rw [hdiv]
  exact ⟨div_nonpos_of_nonpos_of_nonneg k1 hZ.le, fun h => div_neg_of_neg_of_pos (k2 h) hZ⟩

/-- **C36** for the exact Green function: its spectral function is positive at every energy. -/
theorem C36_exact (hn : n ≤ 32) (hpos : pos < n) (hes : CompleteEspace n es) (e eta : ℝ) (heta : 0 < eta) :
    ∃ g, buildGfExact junk n es beta egs pos false = .ok g ∧ (g.call e eta).im < 0 := by
  obtain ⟨g, h1, h2, h3, h4, h5⟩ := C35_sum_rule (junk := junk) (beta := beta) (egs := egs) hn hpos hes
  have hq : ∀ q ∈ g.q, 0 ≤ q := fun q hq => by
    have := h4 q hq
    rwa [le_div_iff₀ h3, zero_mul] at this
  refine ⟨g, h1, (C36_causal g h3 h2 hq e eta heta).2 ?_⟩
  by_contra hno
  push Not at hno
  have : (g.q.map (· / g.Z)).sum ≤ 0 := by
    have hall : ∀ x ∈ g.q.map (· / g.Z), x ≤ 0 := by
      intro x hx
      obtain ⟨q, hq', rfl⟩ := List.mem_map.mp hx
      exact div_nonpos_of_nonpos_of_nonneg (hno q hq') h3.le
    have h0 := List.sum_le_card_nsmul _ 0 hall
    simpa using h0
  linarith

/-! ### C37 -/

theorem rowsDw_neg (d dup : ℕ) : rowsDw d dup (-1) = .ok [] := by
  unfold rowsDw pySlice
  simp only
  rw [if_neg (by omega)]
  congr 1
  apply filter_range_eq _ _ _ List.Pairwise.nil
  intro k
  simp only [List.not_mem_nil, false_iff, decide_eq_true_eq, not_and]
  intro _ _ h
  simp at h
  omega

/-- **C37 is false**: with a complete espace of at least one site that starts with the sector `(0, 0)` — as `build_espace`
returns it — `build_gf_exact(..., ispin=1)` always raises. The arrival sector is the one of an added *up* electron, the
lookup of the down state fails and the matrix product has mismatched shapes. -/
theorem C37_refuted (hn : n ≤ 32) (hpos : pos < n) (hes : CompleteEspace n es) (hfirst : (es.map Prod.fst).head? = some (0, 0)) :
    buildGfExact junk n es beta egs pos true = .error .valueError := by
  obtain ⟨rest, hrest⟩ : ∃ rest, es.map Prod.fst = (0, 0) :: rest := by
    cases h : es.map Prod.fst with
    | nil => rw [h] at hfirst; cases hfirst
    | cons q r => rw [h] at hfirst; simp at hfirst; exact ⟨r, by rw [hfirst]⟩
  obtain ⟨I, hImem, hI⟩ := hes.get (Nat.zero_le n) (Nat.zero_le n)
  obtain ⟨J, hJmem, hJ⟩ := hes.get (show 1 ≤ n by omega) (Nat.zero_le n)
  obtain ⟨upI, dwI, hIok, -⟩ := hes.ok _ hImem
  obtain ⟨upJ, dwJ, hJok, -⟩ := hes.ok _ hJmem
  simp only at hIok hJok
  have hlen : dwI.length = 1 := by rw [hIok.hdw.len]; simp
  have hlu : upI.length = 1 := by rw [hIok.hup.len]; simp
  have h0 : 0 < dwI.length := by omega
  have hin := (hIok.hdw.mem _).mp (List.getElem_mem h0)
  have hz : dwI[0] = 0 := by
    have h1 := card_occF hin.1
    rw [hin.2] at h1
    exact occF_inj hin.1 (by positivity) (by rw [Finset.card_eq_zero.mp h1]; ext i; simp)
  have hproj : projectExactDw junk pos n .cdg I J = .error .valueError := by
    unfold projectExactDw
    rw [hIok.states, hJok.states]
    simp only [hlen]
    rw [show List.range 1 = [0] from rfl, forM']
    have hstep : projectExactStep rowsDw junk .cdg pos n dwI dwJ upI.length upJ.length I J (fun _ _ => 0) 0 = .error .valueError := by
      unfold projectExactStep
      rw [show ((0 : ℕ) : ℤ) = ((0 : ℕ) : ℤ) from rfl, getItem_natCast _ _ h0]
      simp only [bind, Except.bind, pure, Except.pure, hz]
      have hc : Ladder.check .cdg 0 pos ≠ 0 := by simp [Ladder.check, checkEmpty_eq]
      rw [if_pos hc]
      have happ : Ladder.apply .cdg 0 pos n = .ok (fsgn 0 pos n, flip 0 pos) :=
        cdg_of_empty (by norm_num) (by omega) (by simp)
      rw [happ]
      have hnot : flip 0 pos ∉ dwJ := by
        rw [hJok.hdw.mem]
        rintro ⟨hlt, hp0⟩
        rw [← card_occF hlt] at hp0
        have h2 := Finset.card_eq_zero.mp hp0
        have h3 : (⟨pos, hpos⟩ : Fin n) ∈ occF n (flip 0 pos) := by
          rw [mem_occF, flip_testBit (by norm_num) (by omega)]; simp
        rw [h2] at h3; simp at h3
      have hbs : binsearch junk dwJ (flip 0 pos) = -1 :=
        (C03_binsearch_complete junk dwJ _ (hJok.hdw.sorted.imp fun h => le_of_lt h)).mpr hnot
      simp only [hbs, rowsDw_neg, hIok.d]
      rw [show ((0 : ℕ) : ℤ) = ((0 : ℕ) : ℤ) from rfl, rowsDw_eq (i := 0) h0]
      simp [hlu]
    rw [hstep]
  unfold buildGfExact
  simp only [if_true, hrest, bind, Except.bind, pure, Except.pure]
  rw [forM']
  have : gfExactStep (projectExactDw junk pos n .cdg) n es beta egs ([], []) (0, 0) = .error .valueError := by
    unfold gfExactStep
    simp only [hI, bind, Except.bind, pure, Except.pure]
    rw [if_neg (by omega), hJ]
    simp only [hproj]
  rw [this]

/-- **C37 is false** end to end: no espace that `build_espace` returns works. -/
theorem C37_refuted_from_build_espace {a : HamArgs} (ha : a.Valid) {w : ℕ} (hw : a.n ≤ w) {e0 : WithTop ℝ}
    (h : BuildEspace w a none (.ok (es, e0))) (hp : pos < a.n) :
    buildGfExact junk a.n es beta egs pos true = .error .valueError := by
  obtain ⟨h1, h2⟩ := buildEspace_complete' ha hw h
  refine C37_refuted ha.le hp h1 ?_
  rw [h2]
  simp [ndindex2, List.range_succ_eq_map]

/-- **C37**, the part that holds: for `ispin = 0` the call succeeds on every complete espace and its pole weights and
positions are those of the up-spin matrix elements (see C34, C35). -/
theorem C37_up_partial (hn : n ≤ 32) (hpos : pos < n) (hes : CompleteEspace n es) :
    ∃ g, buildGfExact junk n es beta egs pos false = .ok g := by
  obtain ⟨g, h, -⟩ := C35_sum_rule (junk := junk) (beta := beta) (egs := egs) hn hpos hes
  exact ⟨g, h⟩

end Edpyt
