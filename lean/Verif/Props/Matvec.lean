import Verif.Proof.Hubbard
/-!
Properties C17, C24, C26, C27: operators of a sector and their kernels.
-/
namespace Edpyt
open Spec

section kernels
variable {K : Type} [Field K]

/-- **C26, up spins.** Whatever the schedule, `UPmultiply` adds `(1 ⊗ A) W`. -/
theorem C26_UPmultiply (m : Csr K) (h : m.WF) (hsq : m.cols = m.rows) (ndw : ℕ) (hpos : 0 < m.rows) (W res res' : List K)
    (hW : W.length = ndw * m.rows) (hr : res.length = ndw * m.rows) (hrun : KRun (upMultiplyOps m W.length) W res res') :
    res'.length = res.length ∧ ∀ b i, b < ndw → i < m.rows → res'[b * m.rows + i]? =
      some ((res[b * m.rows + i]?.getD 0) + ∑ j ∈ Finset.range m.rows, m.dense i j * (W[b * m.rows + j]?.getD 0)) := by
  obtain ⟨g1, g2⟩ := kRun_eq (upMultiply_disjoint m W.length) hrun
  refine ⟨g1, fun b i hb hi => ?_⟩
  have hlt : b * m.rows + i < ndw * m.rows := by
    calc b * m.rows + i < (b + 1) * m.rows := by rw [Nat.succ_mul]; omega
      _ ≤ ndw * m.rows := Nat.mul_le_mul_right _ hb
  rw [g2, List.getElem?_eq_getElem (by omega), kSum_up h hsq W (by rw [hW, Nat.mul_div_cancel _ hpos]; exact hb) hi]
  rfl

/-- **C26, down spins.** Whatever the schedule, `DWmultiply` adds `(A ⊗ 1) W`. -/
theorem C26_DWmultiply (m : Csr K) (h : m.WF) (hsq : m.cols = m.rows) (nup : ℕ) (hpos : 0 < m.rows) (W res res' : List K)
    (hW : W.length = m.rows * nup) (hr : res.length = m.rows * nup) (hrun : KRun (dwMultiplyOps m W.length) W res res') :
    res'.length = res.length ∧ ∀ i s, i < m.rows → s < nup → res'[i * nup + s]? =
      some ((res[i * nup + s]?.getD 0) + ∑ j ∈ Finset.range m.rows, m.dense i j * (W[j * nup + s]?.getD 0)) := by
  obtain ⟨g1, g2⟩ := kRun_eq (dwMultiply_disjoint m W.length) hrun
  refine ⟨g1, fun i s hi hs => ?_⟩
  have hlt : i * nup + s < m.rows * nup := by
    calc i * nup + s < (i + 1) * nup := by rw [Nat.succ_mul]; omega
      _ ≤ m.rows * nup := Nat.mul_le_mul_right _ hi
  have hdiv : W.length / m.rows = nup := by rw [hW, Nat.mul_div_cancel_left _ hpos]
  have key := kSum_dw h hsq W (s := s) (i := i) (by rw [hdiv]; exact hs) hi
  rw [hdiv] at key
  rw [g2, List.getElem?_eq_getElem (by omega), key]
  rfl

/-- **C26, full vector.** Whatever the schedule, `Multiply` adds `A W`. -/
theorem C26_Multiply (m : Csr K) (h : m.WF) (W res res' : List K) (hr : res.length = m.rows)
    (hrun : KRun (multiplyOps m) W res res') :
    res'.length = res.length ∧ ∀ i, i < m.rows → res'[i]? =
      some ((res[i]?.getD 0) + ∑ j ∈ Finset.range m.cols, m.dense i j * (W[j]?.getD 0)) := by
  obtain ⟨g1, g2⟩ := kRun_eq (multiply_disjoint m) hrun
  refine ⟨g1, fun i hi => ?_⟩
  rw [g2, List.getElem?_eq_getElem (by omega), kSum_mul h W hi]
  rfl

/-- **C26, memory safety.** Every address used by the three kernels is inside the arrays. -/
theorem C26_addresses (m : Csr K) (h : m.WF) (hsq : m.cols = m.rows) (N other : ℕ) (hN : N = other * m.rows) (hpos : 0 < m.rows) :
    (∀ it ∈ upMultiplyOps m N, ∀ o ∈ it, o.loc < N ∧ 0 ≤ o.src ∧ o.src < N) ∧
    (∀ it ∈ dwMultiplyOps m N, ∀ o ∈ it, o.loc < N ∧ 0 ≤ o.src ∧ o.src < N) ∧
    (∀ it ∈ multiplyOps m, ∀ o ∈ it, o.loc < m.rows ∧ 0 ≤ o.src ∧ o.src < m.rows) := by
  have hdiv : N / m.rows = other := by rw [hN, Nat.mul_div_cancel _ hpos]
  have up : ∀ b i : ℕ, b < other → i < m.rows → b * m.rows + i < N := by
    intro b i hb hi
    calc b * m.rows + i < (b + 1) * m.rows := by rw [Nat.succ_mul]; omega
      _ ≤ N := by rw [hN]; exact Nat.mul_le_mul_right _ hb
  have dw : ∀ i s : ℕ, i < m.rows → s < other → i * other + s < N := by
    intro i s hi hs
    calc i * other + s < (i + 1) * other := by rw [Nat.succ_mul]; omega
      _ ≤ m.rows * other := Nat.mul_le_mul_right _ hi
      _ = N := by rw [hN, mul_comm]
  refine ⟨?_, ?_, ?_⟩
  · intro it hit o ho
    simp only [upMultiplyOps, List.mem_map, List.mem_range] at hit
    obtain ⟨b, hb, rfl⟩ := hit
    simp only [csrGaxpy, List.mem_flatMap, List.mem_map, List.mem_range] at ho
    obtain ⟨i, hi, p, hp, rfl⟩ := ho
    obtain ⟨j, hj, e⟩ := h.col hi hp
    have := up b i (by omega) hi
    have := up b j (by omega) (by omega)
    simp only [e]
    refine ⟨by omega, by positivity, by exact_mod_cast this⟩
  · intro it hit o ho
    simp only [dwMultiplyOps, List.mem_map, List.mem_range] at hit
    obtain ⟨i, hi, rfl⟩ := hit
    simp only [csrSaxpy, List.mem_flatMap, List.mem_map, List.mem_range] at ho
    obtain ⟨p, hp, s, hs, rfl⟩ := ho
    obtain ⟨j, hj, e⟩ := h.col hi hp
    rw [hdiv] at hs ⊢
    have := dw i s hi hs
    have := dw j s (by omega) hs
    simp only [e]
    refine ⟨by omega, by positivity, by exact_mod_cast this⟩
  · intro it hit o ho
    simp only [multiplyOps, List.mem_map, List.mem_range] at hit
    obtain ⟨i, hi, rfl⟩ := hit
    obtain ⟨p, hp, rfl⟩ := List.mem_map.mp ho
    obtain ⟨j, hj, e⟩ := h.col hi hp
    simp only [e]
    refine ⟨hi, by positivity, by omega⟩

/-- Every kernel has at least one run (the sequential one), so the statements above are not vacuous. -/
theorem kRun_exists (ops : List (List (KOp K))) (W res : List K) : ∃ res', KRun ops W res res' :=
  ⟨_, _, Interleaving.sequential _, rfl⟩

/-- Non-vacuity: a 2×2 CSR matrix. -/
example : (⟨[3, 5], [0, 1, 2], [1, 0], 2, 2⟩ : Csr ℚ).WF := by
  constructor
  · intro i hi p hp
    have : i = 0 ∨ i = 1 := by simp at hi; omega
    rcases this with rfl | rfl <;> simp [Csr.rowRange, pyRange] at hp <;> subst hp <;> simp
  · intro x hx; simp at hx; rcases hx with rfl | rfl <;> norm_num

end kernels

section ham
variable {K : Type} [Field K] [LinearOrder K]

/-- Hypotheses shared by the theorems on spin-resolved sectors: `n` sites (`2 ≤ n ≤ 32`), the states
of the sector and the operators returned by `build_mb_ham`. -/
structure SpinBuild (w n p q : ℕ) (up dw : List ℕ) (H : ℕ → ℕ → ℕ → K) (U : ℕ → ℕ → K) (Jx Jp : Option (ℕ → ℕ → K))
    (z : Option (ℕ → K)) (hf : Bool) (mu : K) (ops : List (Op K)) : Prop where
  two_le : 2 ≤ n
  le : n ≤ 32
  width : n ≤ w
  hp : p ≤ n
  hq : q ≤ n
  hup : generateStates w n (p : ℤ) = .ok up
  hdw : generateStates w n (q : ℤ) = .ok dw
  built : ∃ jk bj, BuildMbHam jk bj n H ⟨some U, Jx, Jp⟩ z hf mu (.spin up dw) (.ok ops)

/-- Facts common to C17, C24 and C27. -/
theorem spinBuild_core {w n p q : ℕ} {up dw : List ℕ} {H : ℕ → ℕ → ℕ → K} {U : ℕ → ℕ → K} {Jx Jp : Option (ℕ → ℕ → K)}
    {z : Option (ℕ → K)} {hf : Bool} {mu : K} {ops : List (Op K)} (h : SpinBuild w n p q up dw H U Jx Jp z hf mu ops) :
    ∃ jk bj diag diag' ops', ops = .loc diag' :: ops' ∧ ops' ≠ [] ∧ diag'.length = dw.length * up.length ∧
      (∀ op ∈ ops', op.WF (dw.length * up.length) ∧ op.diag1 = none) ∧ BuildHamLocal n H U z hf mu up dw diag ∧
      diag.length = dw.length * up.length ∧
      ∃ a b : Csr K, (∀ (r c : ℕ) (_ : r < up.length) (_ : c < up.length),
          a.dense r c = oneBody (offdiag (n := n) (H 0)) (occF n up[c]) (occF n up[r])) ∧
        (∀ (r c : ℕ) (_ : r < dw.length) (_ : c < dw.length),
          b.dense r c = oneBody (offdiag (n := n) (H 1)) (occF n dw[c]) (occF n dw[r])) ∧
        a.rows = up.length ∧
        ((Jx = none ∧ Jp = none ∧ diag' = diag ∧ ops' = [.up a dw.length, .dw b up.length]) ∨
         ∃ J m, Jx = some J ∧ ops' = [.up a dw.length, .dw b up.length, .non m] ∧
           buildNonLocal jk bj n (some J) Jp up dw diag = .ok (false, m, diag')) := by
  obtain ⟨jk, bj, hb⟩ := h.built
  simp only [BuildMbHam] at hb
  obtain ⟨diag, hdl, hres⟩ := hb
  have hlen : diag.length = dw.length * up.length := by
    rw [(C18_local_energy n H U z hf mu up dw diag hdl).1, mul_comm]
  have hV : Jx = none → Jp = none := by
    intro hx
    cases hp : Jp with
    | none => rfl
    | some A =>
      exfalso
      subst hx
      have hlt : n > 1 := h.two_le
      unfold mbHamSpin at hres
      rw [if_pos hlt] at hres
      cases hh : buildHamHopping jk bj n H up dw with
      | error e => rw [hh] at hres; simp [bind, Except.bind] at hres
      | ok ab =>
        rw [hh, hp] at hres
        simp [bind, Except.bind, pure, Except.pure, buildNonLocal] at hres
  obtain ⟨diag', ops', e1, e2, e3, e4, a, b, e5, e6, e7, e8⟩ :=
    mbHamSpin_core h.two_le h.le h.width h.hp h.hq h.hup h.hdw jk bj H ⟨some U, Jx, Jp⟩ hV diag hlen
  rw [e1] at hres
  have hops := Except.ok.inj hres
  refine ⟨jk, bj, diag, diag', ops', hops, e2, e3, e4, hdl, hlen, a, b, e5, e6, e7, ?_⟩
  rcases e8 with ⟨g1, g2, g3⟩ | g
  · exact Or.inl ⟨g1, hV g1, g2, g3⟩
  · exact Or.inr g

/-- **C24.** For the operators built for a sector, `matvec_operator(*ops)(v)` is `todense(*ops) @ v`:
for every vector, every schedule of the parallel kernels and every initial content of the freshly
allocated output. -/
theorem C24_matvec_eq_todense {w n p q : ℕ} {up dw : List ℕ} {H : ℕ → ℕ → ℕ → K} {U : ℕ → ℕ → K}
    {Jx Jp : Option (ℕ → ℕ → K)} {z : Option (ℕ → K)} {hf : Bool} {mu : K} {ops : List (Op K)}
    (h : SpinBuild w n p q up dw H U Jx Jp z hf mu ops) :
    ∃ D, todense ops = .ok D ∧ D.size = up.length * dw.length ∧
      ∀ vec result : List K, vec.length = D.size → MatvecOperator ops vec result →
        result.length = D.size ∧ ∀ r, r < D.size → result[r]? =
          some (∑ c ∈ Finset.range D.size, D.val r c * (vec[c]?.getD 0)) := by
  obtain ⟨jk, bj, diag, diag', ops', rfl, h1, h2, h3, -⟩ := spinBuild_core h
  refine ⟨_, todense_eq h1 h2 h3, mul_comm _ _, ?_⟩
  intro vec result hv hm
  obtain ⟨g1, g2⟩ := matvecOperator_eq h2 h3 hv hm
  refine ⟨g1, fun r hr => ?_⟩
  have := g2 r hr
  rw [List.getElem?_eq_getElem (by simp only at hr; omega), Option.getD_some] at this
  rw [List.getElem?_eq_getElem (by simp only at hr; omega), this]

/-- The product always exists (some schedule always exists). -/
theorem C24_matvec_exists (ops : List (Op K)) (vec : List K) : ∃ result, MatvecOperator ops vec result := by
  suffices ∀ out, ∃ r, OpsRun vec ops out r by
    obtain ⟨r, hr⟩ := this (List.replicate vec.length 0)
    exact ⟨r, _, by simp, hr⟩
  induction ops with
  | nil => intro out; exact ⟨out, .nil out⟩
  | cons op ops ih =>
    intro out
    have : ∃ o1, op.Matvec vec out o1 := by
      cases op with
      | loc d => exact ⟨_, rfl⟩
      | up A d => exact kRun_exists _ _ _
      | dw A d => exact kRun_exists _ _ _
      | non A => exact kRun_exists _ _ _
    obtain ⟨o1, h1⟩ := this
    obtain ⟨r, hr⟩ := ih o1
    exact ⟨r, .cons op ops out o1 r h1 hr⟩

theorem oneBody_symm {n : ℕ} {A : ℕ → ℕ → K} (hA : ∀ i j, i < n → j < n → A i j = A j i) (S T : Finset (Fin n)) :
    oneBody (offdiag (n := n) A) S T = oneBody (offdiag (n := n) A) T S := by
  have h := congrFun (congrFun (oneBody_transpose (offdiag (n := n) A)) T) S
  rw [Matrix.transpose_apply] at h
  rw [h]
  congr 2
  funext i j
  exact (offdiag_symm hA i j).symm

/-- **C27, with exchange terms.** In the product basis the dense matrix of the built operators is the
extended Hubbard Hamiltonian on the `2n`-mode Fock space with one global order, plus the code's
exchange terms. `kept` is the one-body matrix with `mu` added on the diagonal and off-diagonal elements
up to `1e-7` dropped (`kept_apply`). -/
theorem C27_todense_with_exchange [CharZero K] {w n p q : ℕ} {up dw : List ℕ} {H : ℕ → ℕ → ℕ → K} {U : ℕ → ℕ → K}
    {Jx Jp : Option (ℕ → ℕ → K)} {z : Option (ℕ → K)} {hf : Bool} {mu : K} {ops : List (Op K)}
    (h : SpinBuild w n p q up dw H U Jx Jp z hf mu ops)
    (hH : ∀ s i j, i < n → j < n → H s i j = H s j i)
    (hx : ∀ A ∈ Jx, ∀ i j, i < n → j < n → A i j = A j i) (hJp : ∀ A ∈ Jp, ∀ i j, i < n → j < n → A i j = A j i) :
    ∃ D, todense ops = .ok D ∧ D.size = up.length * dw.length ∧
      ∀ (iu id ju jd : ℕ) (_ : iu < up.length) (_ : id < dw.length) (_ : ju < up.length) (_ : jd < dw.length),
        D.val (iu + up.length * id) (ju + up.length * jd) =
          (hubbard hf (fun s => kept (n := n) mu (H (if s then 1 else 0)))
            (fun i => (z.getD (fun _ => if hf then 1 else 0)) i) (fun i j => U i j) + codeExchange Jx Jp : Matrix _ _ K)
            (occ2 n up[iu] dw[id]) (occ2 n up[ju] dw[jd]) := by
  obtain ⟨jk, bj, diag, diag', ops', rfl, h1, h2, h3, hl, hlen, a, b, ha, hb, har, hcase⟩ := spinBuild_core h
  refine ⟨_, todense_eq h1 h2 h3, mul_comm _ _, ?_⟩
  intro iu id ju jd hiu hid hju hjd
  have hu := sectorList_of_generate h.le h.width h.hp h.hup
  have hd := sectorList_of_generate h.le h.width h.hq h.hdw
  have b1 := ((hu.mem _).mp (List.getElem_mem hiu)).1
  have b2 := ((hd.mem _).mp (List.getElem_mem hid)).1
  have b3 := ((hu.mem _).mp (List.getElem_mem hju)).1
  have b4 := ((hd.mem _).mp (List.getElem_mem hjd)).1
  have m1 : ∀ i d, i < up.length → (i + up.length * d) / up.length = d := by
    intro i d hi; rw [Nat.add_mul_div_left _ _ (by omega), Nat.div_eq_of_lt hi, Nat.zero_add]
  have m2 : ∀ i d, i < up.length → (i + up.length * d) % up.length = i := by
    intro i d hi; rw [Nat.add_mul_mod_self_left, Nat.mod_eq_of_lt hi]
  have hloc := (C18_local_energy n H U z hf mu up dw diag hl).2 iu id hiu hid
  rw [mul_comm id] at hloc
  have hidx : (iu + up.length * id = ju + up.length * jd) ↔ (up[iu] = up[ju] ∧ dw[id] = dw[jd]) := by
    rw [hu.nodup.getElem_inj_iff, hd.nodup.getElem_inj_iff]
    constructor
    · intro e
      exact ⟨by rw [← m2 iu id hiu, e, m2 ju jd hju], by rw [← m1 iu id hiu, e, m1 ju jd hju]⟩
    · rintro ⟨rfl, rfl⟩; rfl
  -- hopping operators at these indices
  have hupv : (Op.up a dw.length).val (iu + up.length * id) (ju + up.length * jd) =
      oneBody (offdiag (n := n) (H 0)) (occF n up[iu]) (occF n up[ju]) * (if dw[id] = dw[jd] then 1 else 0) := by
    simp only [Op.val, har, m1 _ _ hiu, m1 _ _ hju, m2 _ _ hiu, m2 _ _ hju]
    rw [ha iu ju hiu hju, oneBody_symm (hH 0), mul_comm]
    simp only [hd.nodup.getElem_inj_iff]
  have hdwv : (Op.dw b up.length).val (iu + up.length * id) (ju + up.length * jd) =
      (if up[iu] = up[ju] then 1 else 0) * oneBody (offdiag (n := n) (H 1)) (occF n dw[id]) (occF n dw[jd]) := by
    simp only [Op.val, m1 _ _ hiu, m1 _ _ hju, m2 _ _ hiu, m2 _ _ hju]
    rw [hb id jd hid hjd, oneBody_symm (hH 1), mul_comm]
    simp only [hu.nodup.getElem_inj_iff]
  rw [Matrix.add_apply, hubbard_occ2 hf mu H U _ b1 b2 b3 b4]
  have hE : (if up[iu] = up[ju] ∧ dw[id] = dw[jd] then localEnergy n (fun i => H 0 i i) (fun i => H 1 i i) U
        (z.getD (fun _ => if hf then 1 else 0)) hf mu up[ju] dw[jd] else 0) =
      if up[iu] = up[ju] ∧ dw[id] = dw[jd] then localEnergy n (fun i => H 0 i i) (fun i => H 1 i i) U
        (z.getD (fun _ => if hf then 1 else 0)) hf mu up[iu] dw[id] else 0 := by
    by_cases hc : up[iu] = up[ju] ∧ dw[id] = dw[jd]
    · rw [if_pos hc, if_pos hc, hc.1, hc.2]
    · rw [if_neg hc, if_neg hc]
  rw [hE]
  rcases hcase with ⟨rfl, rfl, rfl, rfl⟩ | ⟨J, m, rfl, rfl, hnl⟩
  · have hz : codeExchange (n := n) (none : Option (ℕ → ℕ → K)) none = 0 := by
      simp [codeExchange, exchangeSame, exchangeFlip, pairHopping, optMat, offdiag_zero]
    rw [hz]
    simp only [List.map_cons, List.map_nil, List.sum_cons, List.sum_nil, add_zero, hupv, hdwv, Matrix.zero_apply]
    simp only [Op.val, hidx, hloc, Option.getD_some]
    ring
  · obtain ⟨m', v', f1, f2, f3⟩ := C22_nonlocal_elements_partial h.two_le h.le h.width h.hp h.hq h.hup h.hdw J Jp
      (hx J rfl) hJp diag hlen jk bj
    rw [hnl] at f1
    simp only [Except.ok.injEq, Prod.mk.injEq, true_and] at f1
    obtain ⟨rfl, rfl⟩ := f1
    simp only [List.map_cons, List.map_nil, List.sum_cons, List.sum_nil, add_zero, hupv, hdwv]
    have hnon : (Op.non m).val (iu + up.length * id) (ju + up.length * jd) = m.dense (iu + up.length * id) (ju + up.length * jd) := rfl
    have hsame : exchangeSame (offdiag (n := n) J) (occ2 n up[iu] dw[id]) (occ2 n up[ju] dw[jd]) =
        if up[iu] = up[ju] ∧ dw[id] = dw[jd] then
          exchangeSame (offdiag (n := n) J) (occ2 n up[iu] dw[id]) (occ2 n up[iu] dw[id]) else 0 := by
      by_cases hc : up[iu] = up[ju] ∧ dw[id] = dw[jd]
      · rw [if_pos hc, hc.1, hc.2]
      · rw [if_neg hc, exchangeSame_occ2 _ (by intro i; simp [offdiag]) b3, if_neg]
        rw [occ2_inj b1 b2 b3 b4]; exact hc
    rw [hnon, f2 iu id ju jd hiu hid hju hjd]
    simp only [Op.val, hidx, f3 iu id hiu hid, hloc, Option.getD_some, codeExchange, Matrix.add_apply, Matrix.sub_apply,
      optMat, hsame]
    split_ifs <;> ring

/-- **C27.** Without exchange terms (`V` an array): the dense matrix is the extended Hubbard
Hamiltonian, for every number of sites, every sector, all symmetric parameters, both filling modes. -/
theorem C27_todense_is_hubbard [CharZero K] {w n p q : ℕ} {up dw : List ℕ} {H : ℕ → ℕ → ℕ → K} {U : ℕ → ℕ → K}
    {z : Option (ℕ → K)} {hf : Bool} {mu : K} {ops : List (Op K)}
    (h : SpinBuild w n p q up dw H U none none z hf mu ops) (hH : ∀ s i j, i < n → j < n → H s i j = H s j i) :
    ∃ D, todense ops = .ok D ∧ D.size = up.length * dw.length ∧
      ∀ (iu id ju jd : ℕ) (_ : iu < up.length) (_ : id < dw.length) (_ : ju < up.length) (_ : jd < dw.length),
        D.val (iu + up.length * id) (ju + up.length * jd) =
          hubbard hf (fun s => kept (n := n) mu (H (if s then 1 else 0)))
            (fun i => (z.getD (fun _ => if hf then 1 else 0)) i) (fun i j => U i j)
            (occ2 n up[iu] dw[id]) (occ2 n up[ju] dw[jd]) := by
  obtain ⟨D, e1, e2, e3⟩ := C27_todense_with_exchange h hH (by simp) (by simp)
  refine ⟨D, e1, e2, ?_⟩
  intro iu id ju jd hiu hid hju hjd
  rw [e3 iu id ju jd hiu hid hju hjd]
  have hz : codeExchange (n := n) (none : Option (ℕ → ℕ → K)) none = 0 := by
    simp [codeExchange, exchangeSame, exchangeFlip, pairHopping, optMat, offdiag_zero]
  rw [hz, add_zero]

/-- **C17.** The dense matrix is symmetric when all parameters are. -/
theorem C17_symmetric [CharZero K] {w n p q : ℕ} {up dw : List ℕ} {H : ℕ → ℕ → ℕ → K} {U : ℕ → ℕ → K}
    {Jx Jp : Option (ℕ → ℕ → K)} {z : Option (ℕ → K)} {hf : Bool} {mu : K} {ops : List (Op K)}
    (h : SpinBuild w n p q up dw H U Jx Jp z hf mu ops)
    (hH : ∀ s i j, i < n → j < n → H s i j = H s j i)
    (hx : ∀ A ∈ Jx, ∀ i j, i < n → j < n → A i j = A j i) (hJp : ∀ A ∈ Jp, ∀ i j, i < n → j < n → A i j = A j i) :
    ∃ D, todense ops = .ok D ∧ D.size = up.length * dw.length ∧ ∀ r c, r < D.size → c < D.size → D.val r c = D.val c r := by
  obtain ⟨D, e1, e2, e3⟩ := C27_todense_with_exchange h hH hx hJp
  refine ⟨D, e1, e2, ?_⟩
  have hu := sectorList_of_generate h.le h.width h.hp h.hup
  have hd := sectorList_of_generate h.le h.width h.hq h.hdw
  intro r c hr hc
  rw [e2, mul_comm] at hr hc
  obtain ⟨id, iu, hid, hiu, rfl⟩ := lt_mul_split hr
  obtain ⟨jd, ju, hjd, hju, rfl⟩ := lt_mul_split hc
  have b1 := ((hu.mem _).mp (List.getElem_mem hiu)).1
  have b2 := ((hd.mem _).mp (List.getElem_mem hid)).1
  have b3 := ((hu.mem _).mp (List.getElem_mem hju)).1
  have b4 := ((hd.mem _).mp (List.getElem_mem hjd)).1
  have sw : ∀ i d : ℕ, d * up.length + i = i + up.length * d := by intro i d; ring
  rw [sw, sw, e3 iu id ju jd hiu hid hju hjd, e3 ju jd iu id hju hjd hiu hid, Matrix.add_apply, Matrix.add_apply]
  have hox : ∀ i j : Fin n, offdiag (n := n) (optMat Jx) i j = offdiag (n := n) (optMat Jx) j i := by
    apply offdiag_symm
    intro i j hi hj
    cases Jx with
    | none => rfl
    | some A => exact hx A rfl i j hi hj
  have hop : ∀ i j : Fin n, offdiag (n := n) (optMat Jp) i j = offdiag (n := n) (optMat Jp) j i := by
    apply offdiag_symm
    intro i j hi hj
    cases Jp with
    | none => rfl
    | some A => exact hJp A rfl i j hi hj
  congr 1
  · rw [hubbard_occ2 hf mu H U _ b1 b2 b3 b4, hubbard_occ2 hf mu H U _ b3 b4 b1 b2, oneBody_symm (hH 0), oneBody_symm (hH 1)]
    simp only [eq_comm (a := up[ju]), eq_comm (a := dw[jd])]
    by_cases h1 : up[iu] = up[ju] <;> by_cases h2 : dw[id] = dw[jd] <;> simp [h1, h2]
  · simp only [codeExchange, Matrix.add_apply, Matrix.sub_apply]
    rw [pairHopping_symm _ hop, exchangeFlip_symm _ hox, exchangeSame_occ2 _ (by intro i; simp [offdiag]) b3,
      exchangeSame_occ2 _ (by intro i; simp [offdiag]) b1]
    simp only [occ2_inj b1 b2 b3 b4, occ2_inj b3 b4 b1 b2, eq_comm (a := up[ju]), eq_comm (a := dw[jd])]
    by_cases h1 : up[iu] = up[ju] <;> by_cases h2 : dw[id] = dw[jd] <;> simp [h1, h2]

/-- The hypotheses are met: for `2 ≤ n ≤ 32`, every sector and all parameters (with `Jx` present
whenever `Jp` is) `build_mb_ham` returns an operator list. -/
theorem spinBuild_exists {w n p q : ℕ} (h2 : 2 ≤ n) (hn : n ≤ 32) (hnw : n ≤ w) (hp : p ≤ n) (hq : q ≤ n) {up dw : List ℕ}
    (hup : generateStates w n (p : ℤ) = .ok up) (hdw : generateStates w n (q : ℤ) = .ok dw)
    (H : ℕ → ℕ → ℕ → K) (U : ℕ → ℕ → K) (Jx Jp : Option (ℕ → ℕ → K)) (hV : Jx = none → Jp = none)
    (z : Option (ℕ → K)) (hf : Bool) (mu : K) :
    ∃ ops, SpinBuild w n p q up dw H U Jx Jp z hf mu ops := by
  have hl : BuildHamLocal n H U z hf mu up dw _ := ⟨_, Interleaving.sequential _, rfl⟩
  have hlen := (C18_local_energy n H U z hf mu up dw _ hl).1
  obtain ⟨diag', ops, e1, -⟩ := mbHamSpin_core h2 hn hnw hp hq hup hdw (⟨fun _ => 0, fun _ => 0⟩ : Junk K) 0 H
    ⟨some U, Jx, Jp⟩ hV _ (by rw [hlen, mul_comm])
  exact ⟨_, h2, hn, hnw, hp, hq, hup, hdw, _, _, ⟨_, hl, e1.symm⟩⟩

example (H : ℕ → ℕ → ℕ → ℚ) (U Jx : ℕ → ℕ → ℚ) : ∃ ops, SpinBuild 64 3 1 2 [1, 2, 4] [3, 5, 6] H U (some Jx) none none true (-1) ops :=
  spinBuild_exists (by norm_num) (by norm_num) (by norm_num) (by norm_num) (by norm_num) (by decide) (by decide) H U _ _ (by simp) _ _ _

end ham
end Edpyt
