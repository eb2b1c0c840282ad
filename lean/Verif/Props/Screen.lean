import Verif.Proof.Screen
import Verif.Props.Espace
/-!
Properties of `screen_espace` and `adjust_neigsector`: C30, C31, C32.
-/
namespace Edpyt

/-- A dictionary of solved sectors: distinct keys, one eigenvector column per eigenvalue. -/
structure EspaceOk {α : Type} (es : Espace α) : Prop where
  nodup : (es.map Prod.fst).Nodup
  pairs : ∀ p ∈ es, p.2.eigvals.length = p.2.eigvecs.length

/-- The eigenpairs of `s` whose Boltzmann factor exceeds the cutoff, in the old order. -/
noncomputable def Spec.boltzmannPairs (egs beta cutoff : ℝ) (s : Sct) : List (ℝ × (ℕ → ℝ)) :=
  (s.eigvals.zip s.eigvecs).filter fun p => decide (Real.exp (-beta * (p.1 - egs)) > cutoff)

theorem unzip_fst {α β : Type} (l : List (α × β)) : (l.map Prod.fst).zip (l.map Prod.snd) = l := by
  induction l with
  | nil => rfl
  | cons x xs ih => simp [ih]

/-- **C30.** `screen_espace` never fails on a dictionary of solved sectors. Afterwards exactly the
eigenpairs with `exp(-beta(E-egs)) > cutoff` remain, eigenvalue and eigenvector still paired and in the old
order; sectors without survivors are gone and the others keep their order, states and dimension. -/
theorem C30_screen_espace {α : Type} [DecidableEq α] (es : Espace α) (hes : EspaceOk es) (egs beta cutoff : ℝ) :
    ∃ es', screenEspace es egs beta cutoff = .ok es' ∧ EspaceOk es' ∧
      es'.map Prod.fst = (es.filter fun p => decide (Spec.boltzmannPairs egs beta cutoff p.2 ≠ [])).map Prod.fst ∧
      ∀ p' ∈ es', ∃ p ∈ es, p'.1 = p.1 ∧ p'.2.states = p.2.states ∧ p'.2.d = p.2.d ∧
        p'.2.eigvals.zip p'.2.eigvecs = Spec.boltzmannPairs egs beta cutoff p.2 ∧ p'.2.eigvals ≠ [] := by
  refine ⟨_, screenEspace_eq egs beta cutoff es hes.pairs hes.nodup, ⟨?_, ?_⟩, ?_, ?_⟩
  · rw [List.map_map]
    exact hes.nodup.sublist (List.filter_sublist.map Prod.fst)
  · intro p hp
    obtain ⟨q, -, rfl⟩ := List.mem_map.mp hp
    simp [screenedSct]
  · rw [List.map_map]; rfl
  · intro p' hp'
    obtain ⟨p, hp, rfl⟩ := List.mem_map.mp hp'
    refine ⟨p, List.mem_of_mem_filter hp, rfl, rfl, rfl, ?_, ?_⟩
    · simp only [screenedSct, unzip_fst]; rfl
    · have := (List.mem_filter.mp hp).2
      simpa [screenedSct] using this

/-- **C30.** A second call with the same arguments changes nothing. -/
theorem C30_idempotent {α : Type} [DecidableEq α] (es es' : Espace α) (hes : EspaceOk es) (egs beta cutoff : ℝ)
    (h : screenEspace es egs beta cutoff = .ok es') : screenEspace es' egs beta cutoff = .ok es' := by
  obtain ⟨es'', h1, hok, -⟩ := C30_screen_espace es hes egs beta cutoff
  obtain rfl : es'' = es' := by rw [h] at h1; exact (Except.ok.inj h1).symm
  rw [screenEspace_eq egs beta cutoff es'' hok.pairs hok.nodup]
  rw [screenEspace_eq egs beta cutoff es hes.pairs hes.nodup] at h
  have h := Except.ok.inj h
  have hid : ∀ s, survivors egs beta cutoff (screenedSct egs beta cutoff s) = survivors egs beta cutoff s := by
    intro s
    unfold survivors
    simp only [screenedSct, unzip_fst]
    unfold survivors
    rw [List.filter_filter]
    simp
  congr 1
  rw [← h, List.filter_map, List.map_map]
  have : ((es.filter fun p => decide (survivors egs beta cutoff p.2 ≠ [])).filter
      ((fun p : α × Sct => decide (survivors egs beta cutoff p.2 ≠ [])) ∘ fun p => (p.1, screenedSct egs beta cutoff p.2))) =
      es.filter fun p => decide (survivors egs beta cutoff p.2 ≠ []) := by
    apply List.filter_eq_self.mpr
    intro p hp
    simpa [Function.comp, hid] using (List.mem_filter.mp hp).2
  rw [this]
  apply List.map_congr_left
  intro p _
  simp only [Function.comp, screenedSct, Prod.mk.injEq, true_and, Sct.mk.injEq]
  have := hid p.2
  simp only [screenedSct] at this
  rw [this]
  exact ⟨rfl, rfl⟩

/-- **C30.** The ground state survives whenever `cutoff < 1`. -/
theorem C30_ground_state {α : Type} [DecidableEq α] (es es' : Espace α) (hes : EspaceOk es) (egs beta cutoff : ℝ) (hc : cutoff < 1)
    (p : α × Sct) (hp : p ∈ es) (hg : egs ∈ p.2.eigvals) (h : screenEspace es egs beta cutoff = .ok es') :
    ∃ p' ∈ es', p'.1 = p.1 ∧ egs ∈ p'.2.eigvals := by
  rw [screenEspace_eq egs beta cutoff es hes.pairs hes.nodup] at h
  have h := Except.ok.inj h
  obtain ⟨i, hi, he⟩ := List.getElem_of_mem hg
  have hi' : i < p.2.eigvecs.length := by rw [← hes.pairs p hp]; exact hi
  have hm : (egs, p.2.eigvecs[i]) ∈ survivors egs beta cutoff p.2 := by
    refine List.mem_filter.mpr ⟨?_, by simp [keepE, hc]⟩
    rw [List.mem_iff_getElem]
    exact ⟨i, by simp [hi, hi'], by simp [he]⟩
  refine ⟨(p.1, screenedSct egs beta cutoff p.2), ?_, rfl, List.mem_map.mpr ⟨_, hm, rfl⟩⟩
  rw [← h]
  refine List.mem_map.mpr ⟨p, List.mem_filter.mpr ⟨hp, ?_⟩, rfl⟩
  simp only [ne_eq, decide_eq_true_eq]
  exact List.ne_nil_of_mem hm

/-- Non-vacuity: a sector with energies 0 and 1. -/
example : EspaceOk ([((1, 0), ⟨.spin [1, 2] [0], 2, [0, 1], [fun i => if i = 0 then 1 else 0, fun i => if i = 1 then 1 else 0]⟩)] : Espace (ℕ × ℕ)) :=
  ⟨by simp, by simp⟩

/-- **C31.** For an espace with keys in sector order `adjust_neigsector` succeeds; a sector holding exactly
`neig` eigenvalues gets one more (at most its dimension), an absent sector or one holding fewer gets one
less (at least 1), any other is unchanged. -/
theorem C31_adjust {n : ℕ} (es : Espace (ℕ × ℕ)) (hord : (es.map Prod.fst).Sublist (ndindex2 (n + 1) (n + 1))) (neig : List ℕ)
    (hl : neig.length = (n + 1) * (n + 1)) :
    ∃ neig', adjustNeigsector es neig n = .ok neig' ∧ neig'.length = (n + 1) * (n + 1) ∧
      ∀ p q, p ≤ n → q ≤ n →
        let x := neig[p * (n + 1) + q]?.getD 0
        let y := neig'[p * (n + 1) + q]?.getD 0
        ((p, q) ∉ es.map Prod.fst → y = max 1 (x - 1)) ∧
        ∀ s, ((p, q), s) ∈ es →
          (s.eigvals.length = x → y = min (n.choose p * n.choose q) (x + 1)) ∧
          (s.eigvals.length < x → y = max 1 (x - 1)) ∧
          (s.eigvals.length > x → y = x) := by
  obtain ⟨neig', h1, h2, h3⟩ := adjustLoop es (ndindex2 (n + 1) (n + 1)) (fun q hq => hq) (nodup_ndindex2 _ _) hord neig hl
  refine ⟨neig', h1, h2, ?_⟩
  intro p q hp hq
  have hm : (p, q) ∈ ndindex2 (n + 1) (n + 1) := mem_ndindex2.mpr ⟨by simp; omega, by simp; omega⟩
  have h := h3 (p, q) hm
  simp only [hm, if_true, sidx] at h
  have hnd := (nodup_ndindex2 (n + 1) (n + 1)).sublist hord
  refine ⟨?_, ?_⟩
  · intro hno
    have : es.lookup (p, q) = none := by
      rw [List.lookup_eq_none_iff]
      intro y hy
      simp only [beq_iff_eq, ne_eq, bne_iff_ne]
      intro hye
      exact hno (hye ▸ List.mem_map_of_mem hy)
    rw [h, newVal, this]; rfl
  · intro s hs
    have hlook : es.lookup (p, q) = some s := by
      clear h h1 h2 h3 hl hord
      induction es with
      | nil => simp at hs
      | cons y ys ih =>
        rw [List.map_cons, List.nodup_cons] at hnd
        rcases List.mem_cons.mp hs with h | hs'
        · rw [← h]; simp
        · have hne : (p, q) ≠ y.1 := fun he => hnd.1 (he ▸ List.mem_map_of_mem hs')
          rw [List.lookup_cons, beq_false_of_ne hne]
          exact ih hnd.2 hs'
    rw [h, newVal, hlook]
    simp only [presentVal, getSectorDim, binom_natCast]
    refine ⟨fun e => by rw [if_pos e], fun e => by rw [if_neg (by omega), if_pos e], fun e => by rw [if_neg (by omega), if_neg (by omega)]⟩

/-- `1 ≤ neig ≤ dim` for every sector. -/
def NeigInRange (n : ℕ) (neig : List ℕ) : Prop :=
  neig.length = (n + 1) * (n + 1) ∧
    ∀ p q, p ≤ n → q ≤ n → 1 ≤ neig[p * (n + 1) + q]?.getD 0 ∧ neig[p * (n + 1) + q]?.getD 0 ≤ n.choose p * n.choose q

/-- **C31.** The result stays within `[1, dim]`. -/
theorem C31_bounds {n : ℕ} (es : Espace (ℕ × ℕ)) (hord : (es.map Prod.fst).Sublist (ndindex2 (n + 1) (n + 1))) (neig neig' : List ℕ)
    (hr : NeigInRange n neig) (h : adjustNeigsector es neig n = .ok neig') : NeigInRange n neig' := by
  obtain ⟨neig'', h1, h2, h3⟩ := C31_adjust es hord neig hr.1
  obtain rfl : neig'' = neig' := by rw [h] at h1; exact (Except.ok.inj h1).symm
  refine ⟨h2, ?_⟩
  intro p q hp hq
  obtain ⟨b1, b2⟩ := hr.2 p q hp hq
  obtain ⟨c1, c2⟩ := h3 p q hp hq
  have hd : 1 ≤ n.choose p * n.choose q := Nat.mul_pos (Nat.choose_pos hp) (Nat.choose_pos hq)
  by_cases hm : (p, q) ∈ es.map Prod.fst
  · obtain ⟨⟨k, s⟩, hs, hk⟩ := List.mem_map.mp hm
    obtain rfl : k = (p, q) := hk
    obtain ⟨d1, d2, d3⟩ := c2 s hs
    rcases lt_trichotomy s.eigvals.length (neig[p * (n + 1) + q]?.getD 0) with hlt | he | hgt
    · rw [d2 hlt]; omega
    · rw [d1 he]; omega
    · rw [d3 hgt]; omega
  · rw [c1 hm]; omega

/-- **C31.** The documented assumption is necessary: if the keys are not in sector order (as a
subsequence of all sectors), `adjust_neigsector` raises `StopIteration`. -/
theorem C31_unordered_raises {n : ℕ} (es : Espace (ℕ × ℕ)) (hord : ¬ (es.map Prod.fst).Sublist (ndindex2 (n + 1) (n + 1)))
    (neig : List ℕ) (hl : neig.length = (n + 1) * (n + 1)) : adjustNeigsector es neig n = .error .stopIteration := by
  unfold adjustNeigsector
  rw [adjustLoop_stop es _ (fun q hq => hq) (nodup_ndindex2 _ _) hord neig hl]
  rfl

example : (([((0, 1), ⟨.spin [0] [1, 2], 2, [0, 1], [fun _ => 0, fun _ => 1]⟩), ((2, 0), ⟨.spin [3] [0], 1, [5], [fun _ => 1]⟩)] :
    Espace (ℕ × ℕ)).map Prod.fst).Sublist (ndindex2 3 3) ∧
    adjustNeigsector [((0, 1), ⟨.spin [0] [1, 2], 2, [0, 1], [fun _ => 0, fun _ => 1]⟩), ((2, 0), ⟨.spin [3] [0], 1, [5], [fun _ => 1]⟩)]
      [1, 1, 1, 2, 4, 1, 1, 2, 1] 2 = .ok [1, 1, 1, 1, 3, 1, 1, 1, 1] :=
  ⟨by decide, by rfl⟩

/-- **C32.** One round (solve, screen, adjust) on an admissible Hamiltonian with `n` sites never raises
and keeps `1 ≤ neig ≤ dim`. -/
theorem round_ok {n w : ℕ} (hw : n ≤ w) (neig : List ℕ) (hr : NeigInRange n neig) (x : HamArgs × ℝ × ℝ) (hx : x.1.Valid)
    (hxn : x.1.n = n) :
    (∀ r, Round w neig x r → ∃ neig', r = .ok neig' ∧ NeigInRange n neig') ∧ ∃ r, Round w neig x r := by
  subst hxn
  have hb : NeigBounded x.1.n neig := ⟨hr.1, fun p q hp hq => (hr.2 p q hp hq).2⟩
  obtain ⟨⟨res, h1⟩, h2⟩ := C25_build_espace_partial hx hw neig hb
  constructor
  · rintro r (⟨e, he, -⟩ | ⟨es, egs, hes, rfl⟩)
    · obtain ⟨_, h⟩ := h2 _ he; cases h
    · obtain ⟨k1, s1, -⟩ := C28_build_espace hx hw neig es egs hes
      have hnd : (es.map Prod.fst).Nodup := by rw [k1]; exact (nodup_ndindex2 _ _).sublist List.filter_sublist
      have hok : EspaceOk es := ⟨hnd, fun p hp => (s1 p hp).2.2.2.2.symm⟩
      obtain ⟨es', g1, -, g2, -⟩ := C30_screen_espace es hok (egs.untopD 0) x.2.1 x.2.2
      have hsub : (es'.map Prod.fst).Sublist (ndindex2 (x.1.n + 1) (x.1.n + 1)) := by
        rw [g2]
        refine (List.filter_sublist.map Prod.fst).trans ?_
        rw [k1]; exact List.filter_sublist
      obtain ⟨neig', f1, -⟩ := C31_adjust es' hsub neig hr.1
      refine ⟨neig', ?_, C31_bounds es' hsub neig neig' hr f1⟩
      rw [g1]; exact f1
  · obtain ⟨es, egs⟩ := res
    exact ⟨_, Or.inr ⟨es, egs, h1, rfl⟩⟩

/-- **C32.** Over every history of rounds (the Hamiltonian, temperature and cutoff may change from round
to round) starting from an admissible `neig`, no round raises — in particular never `StopIteration` — and
every number of requested eigenvalues stays within `[1, dim]`. -/
theorem C32_history {n w : ℕ} (hw : n ≤ w) (rounds : List (HamArgs × ℝ × ℝ)) (hx : ∀ x ∈ rounds, x.1.Valid ∧ x.1.n = n)
    (neig : List ℕ) (hr : NeigInRange n neig) :
    (∀ r, ForR (Round w) rounds neig r → ∃ neig', r = .ok neig' ∧ NeigInRange n neig') ∧ ∃ r, ForR (Round w) rounds neig r := by
  induction rounds generalizing neig with
  | nil => exact ⟨fun r h => ⟨neig, h, hr⟩, _, rfl⟩
  | cons x xs ih =>
    obtain ⟨hv, hn⟩ := hx x (by simp)
    obtain ⟨h1, r, h2⟩ := round_ok hw neig hr x hv hn
    have ih' := fun neig hr => ih (fun y hy => hx y (by simp [hy])) neig hr
    constructor
    · rintro r (⟨st', g1, g2⟩ | ⟨e, g1, -⟩)
      · obtain ⟨neig', he, hr'⟩ := h1 _ g1
        obtain rfl := Except.ok.inj he
        exact (ih' st' hr').1 r g2
      · obtain ⟨_, he, -⟩ := h1 _ g1; cases he
    · obtain ⟨neig', rfl, hr'⟩ := h1 _ h2
      obtain ⟨r, h3⟩ := (ih' neig' hr').2
      exact ⟨r, Or.inl ⟨neig', h2, h3⟩⟩

/-- Non-vacuity: the default request of C25 is a possible start, and two rounds on the two-site model. -/
example : ∃ r, ForR (Round 64) [(exampleArgs, 10, 1 / 100), (exampleArgs, 20, 1 / 100)] [1, 2, 1, 2, 4, 2, 1, 2, 1] r := by
  refine (C32_history (n := 2) (by norm_num) _ ?_ _ ?_).2
  · intro x hx
    simp only [List.mem_cons, List.not_mem_nil, or_false] at hx
    rcases hx with rfl | rfl <;> exact ⟨exampleArgs_valid, rfl⟩
  · refine ⟨rfl, ?_⟩
    intro p q hp hq
    interval_cases p <;> interval_cases q <;> decide

end Edpyt
