import Verif.Proof.Local
import Mathlib.Tactic.FieldSimp
import Mathlib.Tactic.Linarith
/-!
Properties C18, C19, C20: the local (diagonal) Hamiltonian.
-/
namespace Edpyt
open Spec

variable {K : Type} [Field K]

/-- **C18.** For every schedule of the parallel loop, the diagonal has one entry per pair of spin
states and the entry at `iup + idw·dup` is the closed local energy; reference occupations default to
1 in half-filling mode and 0 otherwise. -/
theorem C18_local_energy (n : ℕ) (H : ℕ → ℕ → ℕ → K) (V : ℕ → ℕ → K) (z : Option (ℕ → K)) (hf : Bool) (mu : K)
    (up dw : List ℕ) (res : List K) (h : BuildHamLocal n H V z hf mu up dw res) :
    res.length = up.length * dw.length ∧
    ∀ (iup idw : ℕ) (hu : iup < up.length) (hd : idw < dw.length),
      res[iup + idw * up.length]? = some (localEnergy n (fun i => H 0 i i) (fun i => H 1 i i) V
        (z.getD (fun _ => if hf then 1 else 0)) hf mu up[iup] dw[idw]) := by
  obtain ⟨out, hint, rfl⟩ := h
  have hz : defaultZ hf z = z.getD (fun _ => if hf then 1 else 0) := by
    cases z <;> cases hf <;> rfl
  rw [hz] at hint
  have hmem : ∀ (k : ℕ) o, o ∈ (localOps n H V (z.getD (fun _ => if hf then 1 else 0)) hf mu up dw)[k]?.getD [] →
      ∃ (iup : ℕ) (hu : iup < up.length) (hk : k < dw.length), o.loc = iup + k * up.length ∧
        o.f = fun _ => localEntry n H V (z.getD (fun _ => if hf then 1 else 0)) hf mu up[iup] dw[k] := by
    intro k o ho
    simp only [localOps, List.getElem?_map, List.getElem?_zipIdx] at ho
    cases hk : dw[k]? with
    | none => simp [hk] at ho
    | some sdw =>
      obtain ⟨hkl, hke⟩ := List.getElem?_eq_some_iff.mp hk
      simp only [hk, Option.map_some, Option.getD_some, zero_add, List.mem_map] at ho
      obtain ⟨⟨sup, iup⟩, hm, rfl⟩ := ho
      rw [List.mem_zipIdx_iff_getElem?] at hm
      obtain ⟨hul, hue⟩ := List.getElem?_eq_some_iff.mp hm
      exact ⟨iup, hul, hkl, rfl, by simp only [hue, hke]⟩
  rw [runOps_interleaving hint]
  · constructor
    · simp [runOps_length]
    · intro iup idw hu hd
      rw [← localEntry_eq]
      apply runOps_store
      · simp only [List.length_replicate]
        calc iup + idw * up.length < up.length + idw * up.length := by omega
          _ = (idw + 1) * up.length := by ring
          _ ≤ dw.length * up.length := Nat.mul_le_mul_right _ hd
          _ = up.length * dw.length := Nat.mul_comm _ _
      · refine ⟨⟨iup + idw * up.length, fun _ => localEntry n H V (z.getD (fun _ => if hf then 1 else 0)) hf mu
          up[iup] dw[idw]⟩, ?_, rfl⟩
        rw [List.mem_flatten]
        refine ⟨up.zipIdx.map fun (sup, iup) => ⟨iup + idw * up.length,
          fun _ => localEntry n H V (z.getD (fun _ => if hf then 1 else 0)) hf mu sup dw[idw]⟩, ?_, ?_⟩
        · unfold localOps
          rw [List.mem_map]
          exact ⟨(dw[idw], idw), by rw [List.mem_zipIdx_iff_getElem?]; simp [hd], rfl⟩
        · rw [List.mem_map]
          exact ⟨(up[iup], iup), by rw [List.mem_zipIdx_iff_getElem?]; simp [hu], rfl⟩
      · intro o ho hloc
        rw [List.mem_flatten] at ho
        obtain ⟨l, hl, ho⟩ := ho
        obtain ⟨k, hk, rfl⟩ := List.getElem_of_mem hl
        obtain ⟨iup', hu', hk', h1, h2⟩ := hmem k o (by rw [List.getElem?_eq_getElem hk]; exact ho)
        rw [hloc] at h1
        have e1 : iup = iup' := by
          have := congrArg (· % up.length) h1
          simpa [Nat.add_mul_mod_self_right, Nat.mod_eq_of_lt hu, Nat.mod_eq_of_lt hu'] using this
        have e2 : idw = k := by
          subst e1
          exact Nat.eq_of_mul_eq_mul_right (by omega) (by omega : idw * up.length = k * up.length)
        subst e1 e2
        exact h2
  · intro i j a b hij ha hb heq
    obtain ⟨iu, hu, hk, h1, -⟩ := hmem i a ha
    obtain ⟨ju, hju, hj, h2, -⟩ := hmem j b hb
    rw [h1, h2] at heq
    have e1 : iu = ju := by
      have := congrArg (· % up.length) heq
      simpa [Nat.add_mul_mod_self_right, Nat.mod_eq_of_lt hu, Nat.mod_eq_of_lt hju] using this
    subst e1
    exact hij (Nat.eq_of_mul_eq_mul_right (by omega) (by omega : i * up.length = j * up.length))

/-- The entries in the particle-number symmetry, for every schedule. -/
theorem C18_n_local_energy (n : ℕ) (hn : n ≤ 32) (H : ℕ → ℕ → ℕ → K) (V : ℕ → ℕ → K) (z : Option (ℕ → K)) (hf : Bool)
    (mu : K) (states : List ℕ) (hst : ∀ s ∈ states, s < 2 ^ (n + n)) (res : List K)
    (h : NBuildHamLocal n H V z hf mu states res) :
    res.length = states.length ∧
    ∀ (k : ℕ) (hk : k < states.length), res[k]? = some (localEnergy n (fun i => H 1 i i) (fun i => H 1 i i) V
        (z.getD (fun _ => if hf then 1 else 0)) hf mu (states[k] % 2 ^ n) (states[k] / 2 ^ n)) := by
  obtain ⟨out, hint, rfl⟩ := h
  have hz : defaultZ hf z = z.getD (fun _ => if hf then 1 else 0) := by
    cases z <;> cases hf <;> rfl
  rw [hz] at hint
  have hmem : ∀ (k : ℕ) o, o ∈ (nLocalOps n H V (z.getD (fun _ => if hf then 1 else 0)) hf mu states)[k]?.getD [] →
      ∃ hk : k < states.length, o.loc = k ∧
        o.f = fun _ => nLocalEntry n H V (z.getD (fun _ => if hf then 1 else 0)) hf mu states[k] := by
    intro k o ho
    simp only [nLocalOps, List.getElem?_map, List.getElem?_zipIdx] at ho
    cases hk : states[k]? with
    | none => simp [hk] at ho
    | some s =>
      obtain ⟨hkl, hke⟩ := List.getElem?_eq_some_iff.mp hk
      simp only [hk, Option.map_some, Option.getD_some, zero_add, List.mem_singleton] at ho
      subst ho
      exact ⟨hkl, rfl, by simp only [hke]⟩
  rw [runOps_interleaving hint]
  · constructor
    · simp [runOps_length]
    · intro k hk
      have hs := hst states[k] (List.getElem_mem _)
      have hdec : states[k] = states[k] % 2 ^ n + 2 ^ n * (states[k] / 2 ^ n) := (Nat.mod_add_div _ _).symm
      rw [← nLocalEntry_eq n hn H V _ hf mu _ _ (Nat.mod_lt _ (by positivity))
        (Nat.div_lt_of_lt_mul (by rw [← pow_add]; exact hs)), ← hdec]
      apply runOps_store
      · simpa using hk
      · refine ⟨⟨k, fun _ => nLocalEntry n H V (z.getD (fun _ => if hf then 1 else 0)) hf mu states[k]⟩, ?_, rfl⟩
        rw [List.mem_flatten]
        refine ⟨[⟨k, fun _ => nLocalEntry n H V (z.getD (fun _ => if hf then 1 else 0)) hf mu states[k]⟩], ?_, by simp⟩
        unfold nLocalOps
        rw [List.mem_map]
        exact ⟨(states[k], k), by rw [List.mem_zipIdx_iff_getElem?]; simp [hk], rfl⟩
      · intro o ho hloc
        rw [List.mem_flatten] at ho
        obtain ⟨l, hl, ho⟩ := ho
        obtain ⟨k', hk', rfl⟩ := List.getElem_of_mem hl
        obtain ⟨hk'', h1, h2⟩ := hmem k' o (by rw [List.getElem?_eq_getElem hk']; exact ho)
        rw [hloc] at h1
        subst h1
        exact h2
  · intro i j a b hij ha hb heq
    obtain ⟨-, h1, -⟩ := hmem i a ha
    obtain ⟨-, h2, -⟩ := hmem j b hb
    exact hij (by rw [← h1, ← h2, heq])

/-- Non-vacuity: a schedule exists for every input. -/
theorem C18_schedule_exists (n : ℕ) (H : ℕ → ℕ → ℕ → K) (V : ℕ → ℕ → K) (z : Option (ℕ → K)) (hf : Bool) (mu : K)
    (up dw states : List ℕ) :
    (∃ res, BuildHamLocal n H V z hf mu up dw res) ∧ ∃ res, NBuildHamLocal n H V z hf mu states res :=
  ⟨⟨_, _, Interleaving.sequential _, rfl⟩, _, _, Interleaving.sequential _, rfl⟩

example : localEnergy 2 (fun i => (i : ℚ)) (fun _ => 1) (fun _ _ => 4) (fun _ => 0) false 0 0b11 0b10 =
    0 + 1 + 1 + 4 + 4 * 1 * 2 := by
  decide +kernel

/-- **C19**, refuted for spin dependent on-site energies: one site, `e↑ = 1`, `e↓ = 0`, one up
electron. The Sz code gives 1, the particle-number code gives 0. -/
theorem C19_refuted :
    ∃ (H : ℕ → ℕ → ℕ → ℚ) (V : ℕ → ℕ → ℚ) (sup sdw : ℕ),
      localEntry 1 H V (fun _ => 0) false 0 sup sdw ≠ nLocalEntry 1 H V (fun _ => 0) false 0 (sup + 2 ^ 1 * sdw) := by
  refine ⟨fun σ _ _ => if σ = 0 then 1 else 0, fun _ _ => 0, 1, 0, ?_⟩
  rw [localEntry_eq, nLocalEntry_eq 1 (by norm_num) _ _ _ _ _ _ _ (by norm_num) (by norm_num)]
  simp [localEnergy, bitNum]

/-- **C19**, what holds: if the on-site energies of both spins agree, the diagonal element of a Fock
state is the same in the Sz-conserving and in the particle-number conserving construction.
Missing: spin dependent on-site energies, for which the code is wrong (`C19_refuted`). -/
theorem C19_symmetries_agree_partial (n : ℕ) (hn : n ≤ 32) (H : ℕ → ℕ → ℕ → K)
    (hH : ∀ i, i < n → H 0 i i = H 1 i i) (V : ℕ → ℕ → K)
    (z : Option (ℕ → K)) (hf : Bool) (mu : K) (up dw states : List ℕ) (hst : ∀ s ∈ states, s < 2 ^ (n + n))
    (rs rn : List K) (hs : BuildHamLocal n H V z hf mu up dw rs) (hN : NBuildHamLocal n H V z hf mu states rn)
    (iup idw k : ℕ) (hu : iup < up.length) (hd : idw < dw.length) (hk : k < states.length)
    (hup : up[iup] < 2 ^ n) (hsame : states[k] = up[iup] + 2 ^ n * dw[idw]) :
    rs[iup + idw * up.length]? = rn[k]? := by
  rw [(C18_local_energy n H V z hf mu up dw rs hs).2 iup idw hu hd,
    (C18_n_local_energy n hn H V z hf mu states hst rn hN).2 k hk, hsame, Nat.add_mul_mod_self_left,
    Nat.mod_eq_of_lt hup, Nat.add_mul_div_left _ _ (by positivity), Nat.div_eq_of_lt hup, zero_add]
  unfold localEnergy
  congr 3
  apply Finset.sum_congr rfl; intro i _
  simp only [hH i i.2]

example : ∀ i, i < 2 → (fun σ i j : ℕ => if i = j then (i + 1 : ℚ) else σ) 0 i i =
    (fun σ i j : ℕ => if i = j then (i + 1 : ℚ) else σ) 1 i i := by simp

/-- **C20.** In half-filling mode with the default reference occupations and vanishing on-site
energies, a state and its particle-hole conjugate (all `n` occupations of both spins inverted) have
the same diagonal element. -/
theorem C20_particle_hole [CharZero K] (n : ℕ) (H : ℕ → ℕ → ℕ → K) (V : ℕ → ℕ → K) (mu : K)
    (hH : ∀ i, i < n → H 0 i i + mu = 0 ∧ H 1 i i + mu = 0) (up dw : List ℕ) (res : List K)
    (h : BuildHamLocal n H V none true mu up dw res) (iup idw jup jdw : ℕ) (hiu : iup < up.length)
    (hid : idw < dw.length) (hju : jup < up.length) (hjd : jdw < dw.length)
    (hcu : ∀ k, k < n → up[jup].testBit k = !up[iup].testBit k)
    (hcd : ∀ k, k < n → dw[jdw].testBit k = !dw[idw].testBit k) :
    res[jup + jdw * up.length]? = res[iup + idw * up.length]? := by
  rw [(C18_local_energy n H V none true mu up dw res h).2 iup idw hiu hid,
    (C18_local_energy n H V none true mu up dw res h).2 jup jdw hju hjd]
  have hu : ∀ k : Fin n, bitNum K up[jup] k = 1 - bitNum K up[iup] k := by
    intro k; unfold bitNum; rw [hcu k k.2]; cases up[iup].testBit k <;> simp
  have hd : ∀ k : Fin n, bitNum K dw[jdw] k = 1 - bitNum K dw[idw] k := by
    intro k; unfold bitNum; rw [hcd k k.2]; cases dw[idw].testBit k <;> simp
  unfold localEnergy
  simp only [hu, hd, Option.getD_none, if_true]
  congr 2
  · congr 1
    · apply Finset.sum_congr rfl; intro i _
      rw [(hH i i.2).1, (hH i i.2).2]; ring
    · apply Finset.sum_congr rfl; intro i _
      have h2 : (2 : K) ≠ 0 := by exact_mod_cast (two_ne_zero : (2 : ℕ) ≠ 0)
      field_simp; ring
  · congr 1
    apply Finset.sum_congr rfl; intro i _
    apply Finset.sum_congr rfl; intro j _
    split_ifs
    · ring
    · rfl

/-- Non-vacuity of C20: two sites, `up = {01, 10}`; `01` and `10` are conjugate. -/
example : ∀ k, k < 2 → (0b10 : ℕ).testBit k = !(0b01 : ℕ).testBit k := by decide

end Edpyt
