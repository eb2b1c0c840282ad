import Verif.Model.Ded
import Verif.Model.Sector
import Verif.Props.Ded
import Verif.Props.Sector
import Verif.Proof.NonInt
import Verif.Proof.Py
import Verif.Proof.Resolvent
/-!
Theorems about `get_occupation` and `build_moam` of `edpyt/dedlib.py`.
-/
namespace Edpyt

open Spec

/-- One if the site is occupied. -/
def bitR (s pos : ℕ) : ℝ := if s.testBit pos then 1 else 0

theorem occ_loop (states : List ℕ) (pos : ℕ) (w : ℕ → ℝ) (N0 : ℝ) :
    forM' (fun N i => do
      let s ← getItem states (i : ℕ)
      pure (if (s >>> pos) &&& 1 ≠ 0 then N + w i else N)) (List.range states.length) N0 =
    .ok (N0 + ∑ i ∈ Finset.range states.length, bitR (states[i]?.getD 0) pos * w i) := by
  obtain ⟨N, h1, h2⟩ := forM'_range_inv (fun (N : ℝ) (i : ℕ) => (do
      let s ← getItem states (i : ℕ)
      pure (if (s >>> pos) &&& 1 ≠ 0 then N + w i else N) : Except PyErr ℝ))
    (fun k N => N = N0 + ∑ i ∈ Finset.range k, bitR (states[i]?.getD 0) pos * w i) states.length N0 (by simp) (fun k N hk hN => by
      refine ⟨_, ?_, rfl⟩
      rw [getItem_natCast states k hk]
      simp only [bind, Except.bind, pure, Except.pure, hN, Finset.sum_range_succ, shr_and_one, List.getElem?_eq_getElem hk, Option.getD_some, bitR]
      congr 1
      split_ifs <;> ring)
  rw [h1, h2]

/-- **C90.** For every vector, every two lists of states and every site, `get_occupation` is the expectation value of the number of electrons of both spins on the site: the sum over the basis
states of the squared coefficient times the occupation; the coefficient of the states number `iup` and `idw` is element `iup + idw*dup`. -/
theorem C90_occupation (v : ℕ → ℝ) (up dw : List ℕ) (pos : ℕ) :
    dedOccupation v up dw pos = .ok (∑ iup ∈ Finset.range up.length, ∑ idw ∈ Finset.range dw.length,
      v (iup + idw * up.length) ^ 2 * ((if (up[iup]?.getD 0).testBit pos then 1 else 0) + (if (dw[idw]?.getD 0).testBit pos then 1 else 0))) := by
  unfold dedOccupation
  simp only
  rw [occ_loop up pos (fun i => ((List.range dw.length).map fun r => v (r * up.length + i) ^ 2).sum)]
  simp only [bind, Except.bind]
  refine (occ_loop dw pos (fun i => ((List.range up.length).map fun c => v (i * up.length + c) ^ 2).sum) _).trans ?_
  congr 1
  rw [zero_add]
  have e1 : ∑ i ∈ Finset.range up.length, bitR (up[i]?.getD 0) pos * ((List.range dw.length).map fun r => v (r * up.length + i) ^ 2).sum =
      ∑ iup ∈ Finset.range up.length, ∑ idw ∈ Finset.range dw.length, v (iup + idw * up.length) ^ 2 * bitR (up[iup]?.getD 0) pos :=
    Finset.sum_congr rfl fun i _ => by
      rw [ded_sum_map_range, Finset.mul_sum]
      exact Finset.sum_congr rfl fun r _ => by rw [add_comm i]; ring
  have e2 : ∑ i ∈ Finset.range dw.length, bitR (dw[i]?.getD 0) pos * ((List.range up.length).map fun c => v (i * up.length + c) ^ 2).sum =
      ∑ iup ∈ Finset.range up.length, ∑ idw ∈ Finset.range dw.length, v (iup + idw * up.length) ^ 2 * bitR (dw[idw]?.getD 0) pos := by
    rw [Finset.sum_comm]
    exact Finset.sum_congr rfl fun i _ => by
      rw [ded_sum_map_range, Finset.mul_sum]
      exact Finset.sum_congr rfl fun c _ => by rw [add_comm c]; ring
  rw [e1, e2, ← Finset.sum_add_distrib]
  refine Finset.sum_congr rfl fun i _ => ?_
  rw [← Finset.sum_add_distrib]
  exact Finset.sum_congr rfl fun r _ => by simp only [bitR]; ring

theorem moam_sum_bits {n s : ℕ} (hs : s < 2 ^ n) : ∑ pos ∈ Finset.range n, bitR s pos = particles s := by
  rw [← countBits_particles hs, countBits_eq, Finset.card_filter]
  push_cast
  exact Finset.sum_congr rfl fun i _ => by simp [bitR]

/-- **C90.** For every normalised vector of a sector, the occupations of all sites add up to the number of electrons of the sector. -/
theorem C90_total {n nup ndw : ℕ} {up dw : List ℕ} (hup : ∀ s ∈ up, InSector n nup s) (hdw : ∀ s ∈ dw, InSector n ndw s) (v : ℕ → ℝ)
    (hv : ∑ idw ∈ Finset.range dw.length, ∑ iup ∈ Finset.range up.length, v (iup + idw * up.length) ^ 2 = 1) :
    ∃ occ : ℕ → ℝ, (∀ pos, dedOccupation v up dw pos = .ok (occ pos)) ∧ ∑ pos ∈ Finset.range n, occ pos = nup + ndw := by
  refine ⟨_, fun pos => C90_occupation v up dw pos, ?_⟩
  rw [Finset.sum_comm]
  have e : ∀ i ∈ Finset.range up.length, ∑ pos ∈ Finset.range n, ∑ idw ∈ Finset.range dw.length, v (i + idw * up.length) ^ 2 *
      ((if (up[i]?.getD 0).testBit pos then 1 else 0) + (if (dw[idw]?.getD 0).testBit pos then 1 else 0)) =
      ∑ idw ∈ Finset.range dw.length, v (i + idw * up.length) ^ 2 * ((nup : ℝ) + ndw) := fun i hi => by
    rw [Finset.sum_comm]
    refine Finset.sum_congr rfl fun idw hd => ?_
    rw [← Finset.mul_sum, Finset.sum_add_distrib]
    have hi := Finset.mem_range.mp hi
    have hd := Finset.mem_range.mp hd
    have h1 := hup _ (List.getElem_mem hi)
    have h2 := hdw _ (List.getElem_mem hd)
    have s1 := moam_sum_bits h1.1
    have s2 := moam_sum_bits h2.1
    simp only [bitR] at s1 s2
    simp only [List.getElem?_eq_getElem hi, List.getElem?_eq_getElem hd, Option.getD_some]
    rw [s1, s2, h1.2, h2.2]
  rw [Finset.sum_congr rfl e, Finset.sum_comm]
  simp only [← Finset.sum_mul]
  rw [hv, one_mul]

/-- Non-vacuity: two sites with one electron of each spin. -/
example : (∀ s ∈ [1, 2], InSector 2 1 s) ∧ ∑ idw ∈ Finset.range [1, 2].length, ∑ iup ∈ Finset.range [1, 2].length,
    (fun k : ℕ => if k = 1 then (1 : ℝ) else 0) (iup + idw * [1, 2].length) ^ 2 = 1 := by
  refine ⟨by simp [InSector, particles, occ]; decide, ?_⟩
  simp [Finset.sum_range_succ]

/-- Index of bath site `k` of impurity `i`. -/
def bathIx (nimp nb i k : ℕ) : ℕ := nimp + i * nb + k

theorem bathIx_inj {nimp nb i k i' k' : ℕ} (hk : k < nb) (hk' : k' < nb) (h : bathIx nimp nb i k = bathIx nimp nb i' k') : i = i' ∧ k = k' := by
  unfold bathIx at h
  have h1 : i * nb + k = i' * nb + k' := by omega
  have hd : (i * nb + k) / nb = (i' * nb + k') / nb := by rw [h1]
  rw [mul_comm i, mul_comm i', Nat.mul_add_div (by omega), Nat.mul_add_div (by omega), Nat.div_eq_of_lt hk, Nat.div_eq_of_lt hk'] at hd
  have : i = i' := by simpa using hd
  subst this
  exact ⟨rfl, by omega⟩

/-- The element belongs to impurity `i`: its level, its bath levels or its couplings. -/
def OfImp (nimp nb i r c : ℕ) : Prop :=
  (r = i ∧ c = i) ∨ ∃ k < nb, (r = i ∧ c = bathIx nimp nb i k) ∨ (r = bathIx nimp nb i k ∧ c = i) ∨ (r = bathIx nimp nb i k ∧ c = bathIx nimp nb i k)

/-- The elements of impurity `i` hold its parameters. -/
structure HoldsImp (nimp nb i : ℕ) (g : Gfimp) (H : ℕ → ℕ → ℝ) : Prop where
  level : H i i = g.e0
  row : ∀ k < nb, H i (bathIx nimp nb i k) = -Real.sqrt (g.vk2[k]?.getD 0)
  col : ∀ k < nb, H (bathIx nimp nb i k) i = -Real.sqrt (g.vk2[k]?.getD 0)
  bath : ∀ k < nb, H (bathIx nimp nb i k) (bathIx nimp nb i k) = g.ek[k]?.getD 0

theorem moamStep_spec {n nimp nb i : ℕ} {g : Gfimp} {H : ℕ → ℕ → ℝ} (hn : n = nimp + nimp * nb) (hi : i < nimp) (hv : g.vk2.length = nb) (he : g.ek.length = nb) :
    ∃ H', moamStep n nimp H (g, i) = .ok H' ∧ HoldsImp nimp nb i g H' ∧ ∀ r c, r < n → c < n → ¬ OfImp nimp nb i r c → H' r c = H r c := by
  have hle : (i + 1) * nb ≤ nimp * nb := Nat.mul_le_mul_right _ hi
  have hle' : i * nb + nb ≤ nimp * nb := by rw [← Nat.succ_mul]; exact hle
  unfold moamStep
  simp only [List.length_map, hv, he]
  rw [if_neg (by rw [not_or]; exact ⟨by omega, by simp⟩)]
  refine ⟨_, rfl, ?_, ?_⟩
  · have hflat : ∀ r c, r < n → c < n → ((nimp + i * nb) * (n + 1) ≤ r * n + c ∧ r * n + c < (nimp + i * nb) * (n + 1) + nb * (n + 1) ∧
        (r * n + c - (nimp + i * nb) * (n + 1)) % (n + 1) = 0) → r = c := fun r c hr hc h => by
      refine ((flat_diag hr hc).1).mp ?_
      obtain ⟨h1, -, h3⟩ := h
      have : r * n + c = (r * n + c - (nimp + i * nb) * (n + 1)) + (nimp + i * nb) * (n + 1) := by omega
      rw [this, Nat.add_mul_mod_self_right, h3]
    refine ⟨by simp, fun k hk => ?_, fun k hk => ?_, fun k hk => ?_⟩
    · have hb : bathIx nimp nb i k < n := by unfold bathIx; omega
      have hne : bathIx nimp nb i k ≠ i := by unfold bathIx; omega
      rw [if_neg (by simp [hne]), if_neg (fun h => hne (hflat i _ (by omega) hb h).symm), if_pos ⟨rfl, by unfold bathIx; omega, by unfold bathIx; omega⟩]
      rw [show bathIx nimp nb i k - (i * nb + nimp) = k by unfold bathIx; omega]
      simp [hv, hk]
    · have hb : bathIx nimp nb i k < n := by unfold bathIx; omega
      have hne : bathIx nimp nb i k ≠ i := by unfold bathIx; omega
      rw [if_neg (by simp [hne]), if_neg (fun h => hne (hflat _ i hb (by omega) h)), if_neg (by simp [hne]), if_pos ⟨rfl, by unfold bathIx; omega, by unfold bathIx; omega⟩]
      rw [show bathIx nimp nb i k - (i * nb + nimp) = k by unfold bathIx; omega]
      simp [hv, hk]
    · have hne : bathIx nimp nb i k ≠ i := by unfold bathIx; omega
      have hd : bathIx nimp nb i k * n + bathIx nimp nb i k = (nimp + i * nb) * (n + 1) + k * (n + 1) := by unfold bathIx; ring
      have hd' : bathIx nimp nb i k * n + bathIx nimp nb i k - (nimp + i * nb) * (n + 1) = k * (n + 1) := by omega
      have hk1 : k * (n + 1) < nb * (n + 1) := Nat.mul_lt_mul_of_pos_right hk (by omega)
      rw [if_neg (by simp [hne]), if_pos ⟨by omega, by omega, by rw [hd', Nat.mul_mod_left]⟩, hd', Nat.mul_div_cancel _ (by omega)]
  · intro r c hr hc hno
    rw [OfImp, not_or, not_exists] at hno
    obtain ⟨h1, h2⟩ := hno
    have hk : ∀ x, i * nb + nimp ≤ x → x < i * nb + nimp + nb → ∃ k < nb, x = bathIx nimp nb i k := fun x ha hb => ⟨x - (i * nb + nimp), by omega, by unfold bathIx; omega⟩
    rw [if_neg h1, if_neg, if_neg, if_neg]
    · rintro ⟨rfl, ha, hb⟩
      obtain ⟨k, hk1, hk2⟩ := hk r ha hb
      exact h2 k ⟨hk1, Or.inr (Or.inl ⟨hk2, rfl⟩)⟩
    · rintro ⟨rfl, ha, hb⟩
      obtain ⟨k, hk1, hk2⟩ := hk c ha hb
      exact h2 k ⟨hk1, Or.inl ⟨rfl, hk2⟩⟩
    · rintro ⟨ha, hb, hm⟩
      obtain ⟨q, hq⟩ := Nat.dvd_of_mod_eq_zero hm
      have he' : r * n + c = (n + 1) * (nimp + i * nb + q) := by rw [mul_add, ← hq, mul_comm (n + 1)]; omega
      have hrc : r = c := ((flat_diag hr hc).1).mp (by rw [he', Nat.mul_mod_right])
      subst hrc
      have hrq : r = nimp + i * nb + q := by
        have : (n + 1) * r = (n + 1) * (nimp + i * nb + q) := by rw [← he']; ring
        exact Nat.eq_of_mul_eq_mul_left (by omega) this
      have hq2 : q < nb := by
        have : (n + 1) * q < (n + 1) * nb := by rw [← hq, mul_comm (n + 1) nb]; omega
        exact Nat.lt_of_mul_lt_mul_left this
      exact h2 q ⟨hq2, Or.inr (Or.inr ⟨hrq, hrq⟩)⟩

/-- The elements of different impurities are different. -/
theorem ofImp_disjoint {nimp nb i l r c : ℕ} (hi : i < nimp) (hl : l < nimp) (h : OfImp nimp nb i r c) (h' : OfImp nimp nb l r c) : i = l := by
  have hb : ∀ x k, x < nimp → x ≠ bathIx nimp nb l k ∧ x ≠ bathIx nimp nb i k := fun x k hx => by unfold bathIx; omega
  rcases h with ⟨rfl, rfl⟩ | ⟨k, hk, ⟨rfl, rfl⟩ | ⟨rfl, rfl⟩ | ⟨rfl, rfl⟩⟩ <;> rcases h' with ⟨h1, h2⟩ | ⟨k', hk', ⟨h1, h2⟩ | ⟨h1, h2⟩ | ⟨h1, h2⟩⟩
  all_goals first
    | exact h1
    | exact h2
    | exact absurd h1 (hb _ _ hi).1
    | exact absurd h2 (hb _ _ hi).1
    | exact absurd h1.symm (hb _ _ hl).2
    | exact absurd h2.symm (hb _ _ hl).2
    | exact (bathIx_inj hk hk' h1).1
    | exact (bathIx_inj hk hk' h2).1

/-- **C91.** For every number of impurities, each with the same number of bath sites, `build_moam` stores in a zero array of fitting size the levels, bath levels and couplings of each impurity, and nothing
else. -/
theorem C91_entries {n nb : ℕ} (gs : List Gfimp) (hn : n = gs.length + gs.length * nb) (hlen : ∀ g ∈ gs, g.vk2.length = nb ∧ g.ek.length = nb) :
    ∃ H, buildMoam n (fun _ _ => 0) gs = .ok H ∧ (∀ i (hi : i < gs.length), HoldsImp gs.length nb i gs[i] H) ∧
      ∀ r c, r < n → c < n → (∀ i < gs.length, ¬ OfImp gs.length nb i r c) → H r c = 0 := by
  unfold buildMoam
  obtain ⟨nimp, hN⟩ : ∃ k, k = gs.length := ⟨_, rfl⟩
  rw [← hN] at hn
  have key : ∀ (l : List Gfimp) (q : ℕ) (H : ℕ → ℕ → ℝ), q + l.length = nimp → (∀ j (hj : j < l.length), ∃ hq : q + j < gs.length, l[j] = gs[q + j]) →
      (∀ i (hi : i < gs.length), i < q → HoldsImp nimp nb i gs[i] H) → (∀ r c, r < n → c < n → (∀ i < q, ¬ OfImp nimp nb i r c) → H r c = 0) →
      ∃ H', forM' (moamStep n nimp) (l.zipIdx q) H = .ok H' ∧ (∀ i (hi : i < gs.length), HoldsImp nimp nb i gs[i] H') ∧
        ∀ r c, r < n → c < n → (∀ i < nimp, ¬ OfImp nimp nb i r c) → H' r c = 0 := by
    intro l
    induction l with
    | nil =>
      intro q H hq _ h1 h2
      have : q = nimp := by simpa using hq
      subst this
      exact ⟨H, rfl, fun i hi => h1 i hi (by omega), h2⟩
    | cons g l ih =>
      intro q H hq hg h1 h2
      simp only [List.length_cons] at hq
      obtain ⟨hq0, hg0⟩ := hg 0 (by simp)
      simp only [List.getElem_cons_zero, add_zero] at hg0 hq0
      obtain ⟨hv, he⟩ := hlen g (by rw [hg0]; exact List.getElem_mem _)
      obtain ⟨H1, e1, e2, e3⟩ := moamStep_spec (H := H) hn (show q < nimp by omega) hv he
      obtain ⟨H', f1, f2⟩ := ih (q + 1) H1 (by omega) (fun j hj => by
        obtain ⟨a, b⟩ := hg (j + 1) (by simpa using hj)
        refine ⟨by omega, ?_⟩
        simpa [show q + (j + 1) = q + 1 + j by ring] using b) (fun i hi hiq => by
        rcases Nat.lt_succ_iff_lt_or_eq.mp hiq with hlt | rfl
        · have hnot : ∀ r c, OfImp nimp nb i r c → ¬ OfImp nimp nb q r c := fun r c ha hb => by
            have := ofImp_disjoint (by omega) (by omega) ha hb
            omega
          have hh := h1 i hi hlt
          have hlt' : ∀ k < nb, bathIx nimp nb i k < n := fun k hk => by
            have : (i + 1) * nb ≤ nimp * nb := Nat.mul_le_mul_right _ (by omega)
            rw [Nat.succ_mul] at this
            unfold bathIx
            omega
          have hin : i < n := by omega
          exact ⟨by rw [e3 i i hin hin (hnot _ _ (Or.inl ⟨rfl, rfl⟩))]; exact hh.level,
            fun k hk => by rw [e3 _ _ hin (hlt' k hk) (hnot _ _ (Or.inr ⟨k, hk, Or.inl ⟨rfl, rfl⟩⟩))]; exact hh.row k hk,
            fun k hk => by rw [e3 _ _ (hlt' k hk) hin (hnot _ _ (Or.inr ⟨k, hk, Or.inr (Or.inl ⟨rfl, rfl⟩)⟩))]; exact hh.col k hk,
            fun k hk => by rw [e3 _ _ (hlt' k hk) (hlt' k hk) (hnot _ _ (Or.inr ⟨k, hk, Or.inr (Or.inr ⟨rfl, rfl⟩)⟩))]; exact hh.bath k hk⟩
        · rw [← hg0]; exact e2) (fun r c hr hc hno => by
        rw [e3 r c hr hc (hno q (by omega))]
        exact h2 r c hr hc fun i hi => hno i (by omega))
      refine ⟨H', ?_, f2⟩
      rw [List.zipIdx_cons]
      unfold forM'
      rw [e1]
      exact f1
  obtain ⟨H, a, b, c⟩ := key gs 0 (fun _ _ => 0) (by omega) (fun j hj => ⟨by omega, by simp⟩) (fun i _ h => absurd h (by omega)) (fun _ _ _ _ _ => rfl)
  subst hN
  exact ⟨H, a, b, c⟩

theorem moam_sum_blocks (a b : ℕ) (f : ℕ → ℂ) : ∑ j ∈ Finset.range (a * b), f j = ∑ i ∈ Finset.range a, ∑ k ∈ Finset.range b, f (i * b + k) := by
  induction a with
  | zero => simp
  | succ a ih => rw [Nat.succ_mul, Finset.sum_range_add, ih, Finset.sum_range_succ]

/-- A row of the matrix of `build_moam` times a vector. -/
theorem moam_row {n nimp nb : ℕ} {gs : List Gfimp} {H : ℕ → ℕ → ℝ} (hn : n = nimp + nimp * nb) (hz : ∀ r c, r < n → c < n → (∀ i < nimp, ¬ OfImp nimp nb i r c) → H r c = 0)
    (x : ℕ → ℂ) (r : ℕ) (hr : r < n) (l : ℕ) (hl : l < nimp) (hown : ∀ i < nimp, ∀ c, OfImp nimp nb i r c → i = l) :
    ∑ j : Fin n, (H r j : ℂ) * x j = (H r l : ℂ) * x l + ∑ k ∈ Finset.range nb, (H r (bathIx nimp nb l k) : ℂ) * x (bathIx nimp nb l k) := by
  have hbn : ∀ i k, i < nimp → k < nb → bathIx nimp nb i k < n := fun i k hi hk => by
    have : (i + 1) * nb ≤ nimp * nb := Nat.mul_le_mul_right _ hi
    rw [Nat.succ_mul] at this
    unfold bathIx
    omega
  rw [Finset.sum_range (n := n) (f := fun j => (H r j : ℂ) * x j) |>.symm]
  subst hn
  rw [Finset.sum_range_add, moam_sum_blocks]
  congr 1
  · rw [Finset.sum_eq_single l]
    · intro c hc hcl
      rw [hz r c hr (by have := Finset.mem_range.mp hc; omega) fun i hi ho => ?_]
      · simp
      · have := hown i hi c ho
        subst this
        have hc := Finset.mem_range.mp hc
        rcases ho with ⟨-, h⟩ | ⟨k, -, ⟨-, h⟩ | ⟨-, h⟩ | ⟨-, h⟩⟩
        · exact hcl h
        · unfold bathIx at h; omega
        · exact hcl h
        · unfold bathIx at h; omega
    · intro h
      exact absurd (Finset.mem_range.mpr hl) h
  · rw [Finset.sum_eq_single l]
    · exact Finset.sum_congr rfl fun k _ => by rw [bathIx, add_assoc]
    · intro i hi hil
      refine Finset.sum_eq_zero fun k hk => ?_
      have hi := Finset.mem_range.mp hi
      have hk := Finset.mem_range.mp hk
      rw [← add_assoc]
      change (H r (bathIx nimp nb i k) : ℂ) * _ = 0
      rw [hz r _ hr (hbn i k hi hk) fun i' hi' ho => ?_]
      · simp
      · have := hown i' hi' _ ho
        subst this
        rcases ho with ⟨-, h⟩ | ⟨k', hk', ⟨-, h⟩ | ⟨-, h⟩ | ⟨-, h⟩⟩
        · unfold bathIx at h; omega
        · exact hil (bathIx_inj hk hk' h).1
        · unfold bathIx at h; omega
        · exact hil (bathIx_inj hk hk' h).1
    · intro h
      exact absurd (Finset.mem_range.mpr hl) h

theorem hyb_ne_zero {n : ℕ} {e0 : ℝ} {v2 e : ℕ → ℝ} (hv : ∀ k, k < n → 0 ≤ v2 k) {z : ℂ} (hz : z.im ≠ 0) :
    z - (e0 : ℂ) - ∑ k ∈ Finset.range n, (v2 k : ℂ) * (z - (e k : ℂ))⁻¹ ≠ 0 := by
  intro h0
  have him := congrArg Complex.im h0
  simp only [Complex.sub_im, Complex.ofReal_im, sub_zero, Complex.im_sum, Complex.im_ofReal_mul, Complex.inv_im, Complex.zero_im] at him
  have : z.im * (1 + ∑ k ∈ Finset.range n, v2 k / Complex.normSq (z - (e k : ℂ))) = 0 := by
    rw [mul_add, mul_one, Finset.mul_sum, ← him, sub_eq_add_neg, ← Finset.sum_neg_distrib]
    congr 1
    exact Finset.sum_congr rfl fun k _ => by ring
  rcases mul_eq_zero.mp this with h | h
  · exact hz h
  · have : 0 ≤ ∑ k ∈ Finset.range n, v2 k / Complex.normSq (z - (e k : ℂ)) :=
      Finset.sum_nonneg fun k hk => div_nonneg (hv k (Finset.mem_range.mp hk)) (Complex.normSq_nonneg _)
    linarith

/-- **C91.** For all impurities with bath couplings whose squares are not negative, the matrix that `build_moam` stores is symmetric, and at every non-real frequency its resolvent at impurity `i` is the Green function
of impurity `i` and its resolvent between different impurities vanishes: the impurities do not see each other. -/
theorem C91_resolvent {n nb : ℕ} (gs : List Gfimp) (hn : n = gs.length + gs.length * nb) (hlen : ∀ g ∈ gs, g.vk2.length = nb ∧ g.ek.length = nb) (hpos : ∀ g ∈ gs, ∀ v ∈ g.vk2, 0 ≤ v) :
    ∃ H, buildMoam n (fun _ _ => 0) gs = .ok H ∧ (Matrix.of fun i j : Fin n => H i j).IsSymm ∧
      ∀ (z : ℂ) (_ : z.im ≠ 0) (i l : ℕ) (hi : i < gs.length) (hl : l < gs.length),
        Spec.resolvent z (Matrix.of fun i j : Fin n => H i j) ⟨l, by omega⟩ ⟨i, by omega⟩ = if l = i then gfimpCall gs[i] z else 0 := by
  obtain ⟨H, h1, h2, h3⟩ := C91_entries gs hn hlen
  have hbn : ∀ i k, i < gs.length → k < nb → bathIx gs.length nb i k < n := fun i k hi hk => by
    have : (i + 1) * nb ≤ gs.length * nb := Nat.mul_le_mul_right _ hi
    rw [Nat.succ_mul] at this
    unfold bathIx
    omega
  have hform : ∀ r, r < n → r < gs.length ∨ ∃ i k, i < gs.length ∧ k < nb ∧ r = bathIx gs.length nb i k := fun r hr => by
    by_cases hrl : r < gs.length
    · exact Or.inl hrl
    · have hnb : 0 < nb := Nat.pos_of_ne_zero (by rintro rfl; simp at hn; omega)
      refine Or.inr ⟨(r - gs.length) / nb, (r - gs.length) % nb, ?_, Nat.mod_lt _ hnb, ?_⟩
      · rw [Nat.div_lt_iff_lt_mul hnb]; omega
      · unfold bathIx
        have := Nat.div_add_mod (r - gs.length) nb
        rw [mul_comm] at this
        omega
  have hsym0 : ∀ r c, r < n → c < n → H r c = H c r := fun r c hr hc => by
    by_cases hex : ∃ i < gs.length, OfImp gs.length nb i r c
    · obtain ⟨i, hi, ho⟩ := hex
      have hh := h2 i hi
      rcases ho with ⟨rfl, rfl⟩ | ⟨k, hk, ⟨rfl, rfl⟩ | ⟨rfl, rfl⟩ | ⟨rfl, rfl⟩⟩
      · rfl
      · rw [hh.row k hk, hh.col k hk]
      · rw [hh.row k hk, hh.col k hk]
      · rfl
    · have hno : ∀ i < gs.length, ¬ OfImp gs.length nb i r c := fun i hi h => hex ⟨i, hi, h⟩
      rw [h3 r c hr hc hno, h3 c r hc hr fun i hi ho => hno i hi ?_]
      rcases ho with ⟨h, h'⟩ | ⟨k, hk, ⟨h, h'⟩ | ⟨h, h'⟩ | ⟨h, h'⟩⟩
      · exact Or.inl ⟨h', h⟩
      · exact Or.inr ⟨k, hk, Or.inr (Or.inl ⟨h', h⟩)⟩
      · exact Or.inr ⟨k, hk, Or.inl ⟨h', h⟩⟩
      · exact Or.inr ⟨k, hk, Or.inr (Or.inr ⟨h', h⟩)⟩
  have hsym : (Matrix.of fun i j : Fin n => H i j).IsSymm := by
    ext i j
    exact hsym0 _ _ j.2 i.2
  refine ⟨H, h1, hsym, fun z hz i l hi hl => ?_⟩
  have hh := h2 i hi
  set g := gs[i] with hg
  obtain ⟨hv, he⟩ := hlen g (List.getElem_mem hi)
  have hvp : ∀ k, k < nb → 0 ≤ g.vk2[k]?.getD 0 := fun k hk => by
    rw [List.getElem?_eq_getElem (by omega), Option.getD_some]
    exact hpos g (List.getElem_mem hi) _ (List.getElem_mem _)
  have hze : ∀ x : ℝ, z - (x : ℂ) ≠ 0 := fun x h => hz (by rw [sub_eq_zero.mp h]; exact Complex.ofReal_im x)
  set v : ℕ → ℝ := fun k => g.vk2[k]?.getD 0 with hvd
  set e : ℕ → ℝ := fun k => g.ek[k]?.getD 0 with hed
  have hD := hyb_ne_zero (e0 := g.e0) (v2 := v) (e := e) hvp hz
  set D := z - (g.e0 : ℂ) - ∑ k ∈ Finset.range nb, (v k : ℂ) * (z - (e k : ℂ))⁻¹ with hDd
  let x : ℕ → ℂ := fun r => if r = i then D⁻¹ else if bathIx gs.length nb i 0 ≤ r ∧ r < bathIx gs.length nb i nb then
    -((Real.sqrt (v (r - bathIx gs.length nb i 0)) : ℝ) : ℂ) * (z - (e (r - bathIx gs.length nb i 0) : ℂ))⁻¹ * D⁻¹ else 0
  have xi : x i = D⁻¹ := if_pos rfl
  have xb : ∀ k < nb, x (bathIx gs.length nb i k) = -((Real.sqrt (v k) : ℝ) : ℂ) * (z - (e k : ℂ))⁻¹ * D⁻¹ := fun k hk => by
    have : bathIx gs.length nb i k - bathIx gs.length nb i 0 = k := by unfold bathIx; omega
    simp only [x]
    rw [if_neg (by unfold bathIx; omega), if_pos (by unfold bathIx; omega), this]
  have xl : ∀ l, l < gs.length → l ≠ i → x l = 0 := fun l hl hne => by
    simp only [x]
    rw [if_neg hne, if_neg (by unfold bathIx; omega)]
  have xlb : ∀ l k, l < gs.length → l ≠ i → k < nb → x (bathIx gs.length nb l k) = 0 := fun l k hl hne hk => by
    simp only [x]
    rw [if_neg (by unfold bathIx; omega), if_neg]
    rintro ⟨ha, hb⟩
    have : bathIx gs.length nb l k = bathIx gs.length nb i (bathIx gs.length nb l k - bathIx gs.length nb i 0) := by unfold bathIx at ha ⊢; omega
    exact hne (bathIx_inj hk (by unfold bathIx at ha hb ⊢; omega) this).1
  have hss : ∀ k < nb, ((Real.sqrt (v k) : ℝ) : ℂ) * ((Real.sqrt (v k) : ℝ) : ℂ) = (v k : ℂ) := fun k hk => by
    rw [← Complex.ofReal_mul, Real.mul_self_sqrt (hvp k hk)]
  have hown1 : ∀ l < gs.length, ∀ i < gs.length, ∀ c, OfImp gs.length nb i l c → i = l := fun l hl i hi c ho => by
    rcases ho with ⟨h, -⟩ | ⟨k, -, ⟨h, -⟩ | ⟨h, -⟩ | ⟨h, -⟩⟩
    · exact h.symm
    · exact h.symm
    · unfold bathIx at h; omega
    · unfold bathIx at h; omega
  have hown2 : ∀ l < gs.length, ∀ k < nb, ∀ i < gs.length, ∀ c, OfImp gs.length nb i (bathIx gs.length nb l k) c → i = l := fun l hl k hk i hi c ho => by
    rcases ho with ⟨h, -⟩ | ⟨k', hk', ⟨h, -⟩ | ⟨h, -⟩ | ⟨h, -⟩⟩
    · unfold bathIx at h; omega
    · unfold bathIx at h; omega
    · exact (bathIx_inj hk' hk h.symm).1
    · exact (bathIx_inj hk' hk h.symm).1
  have hoff : ∀ l < gs.length, ∀ k < nb, ∀ k' < nb, k' ≠ k → H (bathIx gs.length nb l k) (bathIx gs.length nb l k') = 0 := fun l hl k hk k' hk' hne => by
    refine h3 _ _ (hbn l k hl hk) (hbn l k' hl hk') fun i hi ho => ?_
    have := hown2 l hl k hk i hi _ ho
    subst this
    rcases ho with ⟨h, -⟩ | ⟨q, hq, ⟨h, -⟩ | ⟨-, h⟩ | ⟨h, h'⟩⟩
    · unfold bathIx at h; omega
    · unfold bathIx at h; omega
    · unfold bathIx at h; omega
    · exact hne ((bathIx_inj hk' hq h').2.trans (bathIx_inj hk hq h).2.symm)
  have hx := resolvent_mulVec hsym hz (x := fun r : Fin n => x r) (y := Pi.single ⟨i, by omega⟩ 1) (fun r => by
    simp only [Matrix.of_apply]
    rcases hform r r.2 with hrl | ⟨l, k, hl, hk, hrk⟩
    · rw [moam_row (gs := gs) hn h3 x r r.2 r hrl (hown1 r hrl)]
      by_cases hri : (r : ℕ) = i
      · have : r = ⟨i, by omega⟩ := Fin.ext hri
        rw [this, Pi.single_eq_same]
        simp only [xi, hh.level]
        have hs : ∑ k ∈ Finset.range nb, (H i (bathIx gs.length nb i k) : ℂ) * x (bathIx gs.length nb i k) = (∑ k ∈ Finset.range nb, (v k : ℂ) * (z - (e k : ℂ))⁻¹) * D⁻¹ := by
          rw [Finset.sum_mul]
          refine Finset.sum_congr rfl fun k hk => ?_
          have hk := Finset.mem_range.mp hk
          rw [xb k hk, hh.row k hk, ← hss k hk]
          push_cast
          ring
        rw [hs]
        have : z * D⁻¹ - ((g.e0 : ℂ) * D⁻¹ + (∑ k ∈ Finset.range nb, (v k : ℂ) * (z - (e k : ℂ))⁻¹) * D⁻¹) = D * D⁻¹ := by rw [hDd]; ring
        rw [this, mul_inv_cancel₀ hD]
      · rw [Pi.single_eq_of_ne (by intro h; exact hri (congrArg Fin.val h)), xl r hrl hri]
        rw [Finset.sum_eq_zero fun k hk => by rw [xlb r k hrl hri (Finset.mem_range.mp hk), mul_zero]]
        simp
    · have hne : r ≠ ⟨i, by omega⟩ := fun h => by
        have := congrArg Fin.val h
        rw [hrk] at this
        unfold bathIx at this
        simp only at this
        omega
      rw [Pi.single_eq_of_ne hne, moam_row (gs := gs) hn h3 x r r.2 l hl (by rw [hrk]; exact hown2 l hl k hk)]
      rw [hrk, Finset.sum_eq_single k (fun k' hk' hne => by rw [hoff l hl k hk k' (Finset.mem_range.mp hk') hne]; simp)
        (fun h => absurd (Finset.mem_range.mpr hk) h)]
      by_cases hli : l = i
      · subst hli
        rw [xi, xb k hk, hh.col k hk, hh.bath k hk]
        have h0 := hze (e k)
        have : (z - (e k : ℂ)) * (z - (e k : ℂ))⁻¹ = 1 := mul_inv_cancel₀ h0
        push_cast
        change z * (-((Real.sqrt (v k) : ℝ) : ℂ) * (z - (e k : ℂ))⁻¹ * D⁻¹) - (-((Real.sqrt (v k) : ℝ) : ℂ) * D⁻¹ + (e k : ℂ) * (-((Real.sqrt (v k) : ℝ) : ℂ) * (z - (e k : ℂ))⁻¹ * D⁻¹)) = 0
        linear_combination (-((Real.sqrt (v k) : ℝ) : ℂ) * D⁻¹) * this
      · rw [xl l hl hli, xlb l k hl hli hk]
        simp)
  have hcol := congrFun hx ⟨l, by omega⟩
  rw [Matrix.mulVec_single_one] at hcol
  change Spec.resolvent z _ _ _ = _ at hcol
  rw [hcol]
  by_cases hli : l = i
  · subst hli
    rw [if_pos rfl, gfimpCall_eq _ hv he]
    exact xi
  · rw [if_neg hli]
    exact xl l hl hli

/-- Non-vacuity: two impurities with one bath site each. -/
example : ∃ gs : List Gfimp, gs.length = 2 ∧ (∀ g ∈ gs, g.vk2.length = 1 ∧ g.ek.length = 1) ∧ ∀ g ∈ gs, ∀ v ∈ g.vk2, 0 ≤ v :=
  ⟨[⟨[1], [4], 0⟩, ⟨[2], [9], 1⟩], rfl, by simp, by simp⟩

end Edpyt
