import Verif.Model.Entropy
import Verif.Spec.Entropy
import Verif.Props.NonInt
import Mathlib.Algebra.Order.BigOperators.Group.List
/-!
Theorems about the entropy functions of `edpyt/dedlib.py`.
-/
namespace Edpyt
open Spec

theorem entropy_loop {α : Type} (egs β : ℝ) (es : Espace α) : ∀ st : ℝ × ℝ, es.foldl (entropyStep egs β) st =
    (st.1 + ((es.flatMap fun p => p.2.eigvals).map fun e => (e - egs) * Real.exp (-(β * (e - egs)))).sum,
      st.2 + ((es.flatMap fun p => p.2.eigvals).map fun e => Real.exp (-(β * (e - egs)))).sum) := by
  induction es with
  | nil => simp
  | cons p es ih =>
    intro st
    rw [List.foldl_cons, ih]
    simp [entropyStep, List.zipWith_map_right, List.zipWith_map_left, List.zipWith_self, Function.comp_def, add_assoc]

theorem sum_map_pos {l : List ℝ} (hl : l ≠ []) (f : ℝ → ℝ) (hf : ∀ x, 0 < f x) : 0 < (l.map f).sum := by
  cases l with
  | nil => exact absurd rfl hl
  | cons a l =>
    rw [List.map_cons, List.sum_cons]
    have : 0 ≤ (l.map f).sum := List.sum_nonneg (by simp only [List.mem_map, forall_exists_index, and_imp]; rintro _ x _ rfl; exact (hf x).le)
    linarith [hf a]

/-- Linear sums over a list. -/
theorem sum_map_lin (l : List ℝ) (f g : ℝ → ℝ) (a b : ℝ) : (l.map fun x => a * f x + b * g x).sum = a * (l.map f).sum + b * (l.map g).sum := by
  induction l with
  | nil => simp
  | cons x l ih => simp only [List.map_cons, List.sum_cons, ih]; ring

theorem shannon_boltzmann (β : ℝ) {l : List ℝ} (hl : l ≠ []) : shannon (boltzmann β l) =
    Real.log (l.map fun e => Real.exp (-(β * e))).sum + β * ((l.map fun e => e * Real.exp (-(β * e))).sum / (l.map fun e => Real.exp (-(β * e))).sum) := by
  have hZ := sum_map_pos hl (fun e => Real.exp (-(β * e))) (fun _ => Real.exp_pos _)
  unfold shannon boltzmann
  set Z := (l.map fun e => Real.exp (-(β * e))).sum with hZd
  rw [List.map_map]
  have h : ((fun x => -(x * Real.log x)) ∘ fun e => Real.exp (-(β * e)) / Z) =
      fun e => (β / Z) * (e * Real.exp (-(β * e))) + (Real.log Z / Z) * Real.exp (-(β * e)) := by
    funext e
    simp only [Function.comp]
    rw [Real.log_div (Real.exp_pos _).ne' hZ.ne', Real.log_exp]
    field_simp
    ring
  rw [h, sum_map_lin, ← hZd]
  field_simp
  ring

/-- **C64.** For every spectrum with at least one state, every reference energy and every temperature, the entropy assembled from
`_get_entropy_params` is `-kB Σ p ln p` for the Boltzmann weights of all states. -/
theorem C64_entropy {α : Type} (kB β egs : ℝ) (hk : kB * β ≠ 0) (es : Espace α) (hl : (es.flatMap fun p => p.2.eigvals) ≠ []) :
    ∃ p, entropyParams es egs β = .ok p ∧
      calcEntropy kB p.2 p.1 (1 / (kB * β)) = kB * shannon (boltzmann β (es.flatMap fun p => p.2.eigvals)) := by
  have hes : es ≠ [] := by rintro rfl; exact hl rfl
  refine ⟨_, by rw [entropyParams, if_neg hes], ?_⟩
  rw [entropy_loop, shannon_boltzmann β hl]
  generalize (es.flatMap fun p => p.2.eigvals) = l at hl
  have hZ := sum_map_pos hl (fun e => Real.exp (-(β * e))) (fun _ => Real.exp_pos _)
  have h1 : (fun e => Real.exp (-(β * (e - egs)))) = fun e => Real.exp (β * egs) * Real.exp (-(β * e)) + 0 * e := by
    funext e
    rw [← Real.exp_add, zero_mul, add_zero]
    congr 1; ring
  have h2 : (fun e => (e - egs) * Real.exp (-(β * (e - egs)))) = fun e => Real.exp (β * egs) * (e * Real.exp (-(β * e))) +
      (-(egs * Real.exp (β * egs))) * Real.exp (-(β * e)) := by
    funext e
    have : Real.exp (-(β * (e - egs))) = Real.exp (β * egs) * Real.exp (-(β * e)) := by rw [← Real.exp_add]; congr 1; ring
    rw [this]; ring
  rw [h1, h2, sum_map_lin, sum_map_lin l (fun e => Real.exp (-(β * e))) (fun e => e)]
  set Z := (l.map fun e => Real.exp (-(β * e))).sum
  set E := (l.map fun e => e * Real.exp (-(β * e))).sum
  have hx := Real.exp_pos (β * egs)
  simp only [zero_add, zero_mul, add_zero, calcEntropy]
  rw [Real.log_mul hx.ne' hZ.ne', Real.log_exp]
  have hk0 : kB ≠ 0 := left_ne_zero_of_mul hk
  have hb0 : β ≠ 0 := right_ne_zero_of_mul hk
  field_simp
  ring

theorem boltzmann_pos (β : ℝ) {l : List ℝ} {x : ℝ} (hx : x ∈ boltzmann β l) : 0 < x ∧ x ≤ 1 := by
  have hl : l ≠ [] := by rintro rfl; simp [boltzmann] at hx
  have hZ := sum_map_pos hl (fun e => Real.exp (-(β * e))) (fun _ => Real.exp_pos _)
  obtain ⟨e, he, rfl⟩ := List.mem_map.mp hx
  refine ⟨div_pos (Real.exp_pos _) hZ, (div_le_one hZ).mpr ?_⟩
  exact List.single_le_sum (by simp only [List.mem_map, forall_exists_index, and_imp]; rintro _ x _ rfl; exact (Real.exp_pos _).le) _
    (List.mem_map_of_mem he)

theorem boltzmann_sum (β : ℝ) {l : List ℝ} (hl : l ≠ []) : (boltzmann β l).sum = 1 := by
  have hZ := sum_map_pos hl (fun e => Real.exp (-(β * e))) (fun _ => Real.exp_pos _)
  unfold boltzmann
  set Z := (l.map fun e => Real.exp (-(β * e))).sum with hZd
  have := sum_map_lin l (fun e => Real.exp (-(β * e))) (fun _ => 0) Z⁻¹ 0
  simp only [zero_mul, add_zero] at this
  simp only [div_eq_inv_mul]
  rw [this, ← hZd]
  field_simp

/-- **C64.** The entropy of a spectrum lies between zero and `kB` times the logarithm of the number of states. -/
theorem C64_bounds (β : ℝ) {l : List ℝ} (hl : l ≠ []) : 0 ≤ shannon (boltzmann β l) ∧ shannon (boltzmann β l) ≤ Real.log l.length := by
  constructor
  · refine List.sum_nonneg ?_
    simp only [List.mem_map, forall_exists_index, and_imp]
    rintro _ x hx rfl
    have h := boltzmann_pos β hx
    nlinarith [Real.log_nonpos h.1.le h.2]
  · have hlen : (0 : ℝ) < l.length := by exact_mod_cast List.length_pos_iff.mpr hl
    have hb : (boltzmann β l).length = l.length := by simp [boltzmann]
    have key : ∀ q : List ℝ, (∀ x ∈ q, 0 < x) → shannon q ≤ (Real.log l.length - 1) * q.sum + q.length / l.length := by
      intro q
      induction q with
      | nil => intro _; simp [shannon]
      | cons x q ih =>
        intro hq
        have hx := hq x (by simp)
        have h1 := ih fun y hy => hq y (by simp [hy])
        have h2 := Real.log_le_sub_one_of_pos (show 0 < 1 / (x * l.length) by positivity)
        rw [Real.log_div one_ne_zero (by positivity), Real.log_mul hx.ne' hlen.ne', Real.log_one] at h2
        have h3 := mul_le_mul_of_nonneg_left h2 hx.le
        have h4 : x * (1 / (x * (l.length : ℝ)) - 1) = 1 / l.length - x := by field_simp
        rw [h4] at h3
        simp only [shannon, List.map_cons, List.sum_cons, List.length_cons] at h1 ⊢
        push_cast
        rw [add_div]
        linarith
    have := key (boltzmann β l) fun x hx => (boltzmann_pos β hx).1
    rw [boltzmann_sum β hl, hb, div_self hlen.ne'] at this
    linarith


/-- Sum of a function over all states of a sector. -/
theorem sum_sector {w n p : ℕ} (hn : n ≤ 32) (hnw : n ≤ w) (hpn : p ≤ n) {L : List ℕ} (hL : generateStates w n (p : ℤ) = .ok L) (g : ℕ → ℝ) :
    (L.map g).sum = ∑ s ∈ (Finset.range (2 ^ n)).filter (fun s => (occ s).card = p), g s := by
  obtain ⟨L', h1, h2, h3, -⟩ := C01_generate_states hn hnw hpn
  rw [hL] at h1
  obtain rfl : L = L' := by injection h1
  have hnd : L.Nodup := h2.imp fun h => Nat.ne_of_lt h
  rw [← List.sum_toFinset g hnd]
  congr 1
  ext s
  simp [h3, InSector, particles]

theorem sum_all_sectors {n : ℕ} (g : ℕ → ℝ) :
    ∑ p ∈ Finset.range (n + 1), ∑ s ∈ (Finset.range (2 ^ n)).filter (fun s => (occ s).card = p), g s = ∑ s ∈ Finset.range (2 ^ n), g s := by
  refine Finset.sum_fiberwise_of_maps_to (fun s hs => ?_) g
  refine Finset.mem_range.mpr (Nat.lt_succ_of_le ?_)
  calc (occ s).card ≤ (Finset.range n).card := Finset.card_le_card fun i hi => Finset.mem_range.mpr (by
        by_contra hni
        have h1 := mem_occ.mp hi
        rw [Nat.testBit_lt_two_pow (lt_of_lt_of_le (Finset.mem_range.mp hs) (Nat.pow_le_pow_right (by norm_num) (not_lt.mp hni)))] at h1
        exact absurd h1 (by simp))
    _ = n := Finset.card_range n

theorem sum_bath {w : ℕ} {junk : ℕ → ℕ → ℕ} {fresh : ℕ → ℝ} {ek : List ℝ} (h : ek.length * ek.length ≤ 64) (hw : ek.length ≤ w) :
    ∃ es : Espace (ℕ × ℕ), buildNonInteracting w junk fresh ek = .ok (es, ((2 * (ek.map fun x => min x 0).sum : ℝ) : WithTop ℝ)) ∧
      ∀ F : ℝ → ℝ, ((es.flatMap fun p => p.2.eigvals).map F).sum =
        ∑ u ∈ Finset.range (2 ^ ek.length), ∑ d ∈ Finset.range (2 ^ ek.length), F (levelSum ek u + levelSum ek d) := by
  have hn : ek.length ≤ 32 := by nlinarith
  obtain ⟨es, h1, h2, h3⟩ := C33_non_interacting w junk fresh ek h hw
  refine ⟨es, h1, fun F => ?_⟩
  set n := ek.length
  have h4 : es.map (fun p => (p.2.eigvals.map F).sum) = (ndindex2 (n + 1) (n + 1)).map fun q =>
      ∑ u ∈ (Finset.range (2 ^ n)).filter (fun s => (occ s).card = q.1),
        ∑ d ∈ (Finset.range (2 ^ n)).filter (fun s => (occ s).card = q.2), F (levelSum ek u + levelSum ek d) := by
    rw [← h2, List.map_map]
    refine List.map_congr_left fun p hp => ?_
    obtain ⟨up, dw, e1, e2, -, -, e3⟩ := h3 p hp
    have hq : p.1 ∈ ndindex2 (n + 1) (n + 1) := h2 ▸ List.mem_map_of_mem hp
    rw [mem_ndindex2] at hq
    rw [(e3.map F).sum_eq, Function.comp, Finset.sum_comm,
      ← sum_sector hn hw (Nat.lt_succ_iff.mp hq.2) e2 (fun d => ∑ u ∈ (Finset.range (2 ^ n)).filter (fun s => (occ s).card = p.1.1), F (levelSum ek u + levelSum ek d))]
    simp only [← sum_sector hn hw (Nat.lt_succ_iff.mp hq.1) e1]
    clear e2 e3
    induction dw with
    | nil => simp
    | cons d dw ih => simp [List.map_flatMap] at ih ⊢; rw [ih]; simp [Function.comp_def]
  have h5 : ((es.flatMap fun p => p.2.eigvals).map F).sum = (es.map (fun p => (p.2.eigvals.map F).sum)).sum := by
    clear h1 h2 h3 h4
    induction es with
    | nil => simp
    | cons p es ih => simp [ih]
  rw [h5, h4, sum_ndindex2]
  simp only
  rw [← sum_all_sectors]
  refine Finset.sum_congr rfl fun p _ => ?_
  rw [Finset.sum_comm]
  refine Finset.sum_congr rfl fun u _ => ?_
  exact sum_all_sectors _

theorem sum_range_two_mul (m : ℕ) (f : ℕ → ℝ) : ∑ u ∈ Finset.range (2 * m), f u = ∑ u ∈ Finset.range m, (f (2 * u) + f (2 * u + 1)) := by
  induction m with
  | zero => simp
  | succ m ih => rw [show 2 * (m + 1) = 2 * m + 1 + 1 by ring, Finset.sum_range_succ, Finset.sum_range_succ, ih, Finset.sum_range_succ]; ring

theorem levelSum_cons (e : ℝ) (ek : List ℝ) (u : ℕ) : levelSum (e :: ek) (2 * u) = levelSum ek u ∧ levelSum (e :: ek) (2 * u + 1) = e + levelSum ek u := by
  unfold levelSum
  rw [List.length_cons, Finset.sum_range_succ', Finset.sum_range_succ']
  have h1 : ∀ i, (2 * u).testBit (i + 1) = u.testBit i := fun i => by rw [Nat.testBit_add_one]; congr 1; omega
  have h2 : ∀ i, (2 * u + 1).testBit (i + 1) = u.testBit i := fun i => by rw [Nat.testBit_add_one]; congr 1; omega
  simp only [h1, h2, List.getElem?_cons_succ, List.getElem?_cons_zero, Nat.testBit_zero, Option.getD_some]
  constructor
  · simp
  · have : (2 * u + 1) % 2 = 1 := by omega
    simp [this, add_comm]

/-- All subset sums of levels, one at a time. -/
theorem sum_levels_cons (e : ℝ) (ek : List ℝ) (F : ℝ → ℝ) : ∑ u ∈ Finset.range (2 ^ (e :: ek).length), F (levelSum (e :: ek) u) =
    ∑ u ∈ Finset.range (2 ^ ek.length), (F (levelSum ek u) + F (e + levelSum ek u)) := by
  rw [List.length_cons, pow_succ, mul_comm, sum_range_two_mul]
  refine Finset.sum_congr rfl fun u _ => ?_
  rw [(levelSum_cons e ek u).1, (levelSum_cons e ek u).2]

theorem levelEntropy_eq (β e : ℝ) : levelEntropy (fermiOcc β e) =
    Real.log (1 + Real.exp (-(β * e))) + β * (e * Real.exp (-(β * e)) / (1 + Real.exp (-(β * e)))) := by
  have hx := Real.exp_pos (-(β * e))
  have hf : fermiOcc β e = Real.exp (-(β * e)) / (1 + Real.exp (-(β * e))) := by
    unfold fermiOcc
    have : Real.exp (β * e) = (Real.exp (-(β * e)))⁻¹ := by rw [← Real.exp_neg, neg_neg]
    rw [this]
    field_simp
  have hg : 1 - Real.exp (-(β * e)) / (1 + Real.exp (-(β * e))) = 1 / (1 + Real.exp (-(β * e))) := by field_simp; ring
  unfold levelEntropy
  rw [hf, hg, Real.log_div hx.ne' (by positivity), Real.log_exp, Real.log_div one_ne_zero (by positivity), Real.log_one]
  field_simp
  ring

/-- The entropy of independent levels, per spin. -/
theorem level_entropies (β : ℝ) (ek : List ℝ) : 0 < ∑ u ∈ Finset.range (2 ^ ek.length), Real.exp (-(β * levelSum ek u)) ∧
    Real.log (∑ u ∈ Finset.range (2 ^ ek.length), Real.exp (-(β * levelSum ek u))) +
      β * ((∑ u ∈ Finset.range (2 ^ ek.length), levelSum ek u * Real.exp (-(β * levelSum ek u))) /
        ∑ u ∈ Finset.range (2 ^ ek.length), Real.exp (-(β * levelSum ek u))) = (ek.map fun e => levelEntropy (fermiOcc β e)).sum := by
  induction ek with
  | nil => simp [levelSum]
  | cons e ek ih =>
    obtain ⟨h0, ih⟩ := ih
    have hx := Real.exp_pos (-(β * e))
    rw [sum_levels_cons e ek (fun y => Real.exp (-(β * y))), sum_levels_cons e ek (fun y => y * Real.exp (-(β * y)))]
    have hy : ∀ y, Real.exp (-(β * (e + y))) = Real.exp (-(β * e)) * Real.exp (-(β * y)) := fun y => by rw [← Real.exp_add]; congr 1; ring
    simp only [hy]
    set X := Real.exp (-(β * e))
    set Z := ∑ u ∈ Finset.range (2 ^ ek.length), Real.exp (-(β * levelSum ek u)) with hZ
    set E := ∑ u ∈ Finset.range (2 ^ ek.length), levelSum ek u * Real.exp (-(β * levelSum ek u)) with hE
    have e1 : ∑ u ∈ Finset.range (2 ^ ek.length), (Real.exp (-(β * levelSum ek u)) + X * Real.exp (-(β * levelSum ek u))) = (1 + X) * Z := by
      rw [hZ, Finset.mul_sum]
      exact Finset.sum_congr rfl fun u _ => by ring
    have e2 : ∑ u ∈ Finset.range (2 ^ ek.length), (levelSum ek u * Real.exp (-(β * levelSum ek u)) +
        (e + levelSum ek u) * (X * Real.exp (-(β * levelSum ek u)))) = (1 + X) * E + e * X * Z := by
      rw [hZ, hE, Finset.mul_sum, Finset.mul_sum, ← Finset.sum_add_distrib]
      exact Finset.sum_congr rfl fun u _ => by ring
    rw [e1, e2]
    refine ⟨by positivity, ?_⟩
    rw [List.map_cons, List.sum_cons, ← ih, levelEntropy_eq, Real.log_mul (by positivity) h0.ne']
    field_simp
    ring

theorem double_entropy (kB β E Z : ℝ) (hZ : 0 < Z) : kB * (Real.log (Z ^ 2) + β * (2 * E * Z / Z ^ 2)) = kB * (2 * (Real.log Z + β * (E / Z))) := by
  rw [Real.log_pow]
  push_cast
  field_simp

/-- **C64.** For every spectrum with at least one state, every set of up to eight bath levels and every temperature, `get_entropy` returns
`kB` times the entropy of the spectrum minus twice the sum of the entropies of the bath levels. -/
theorem C64_impurity_entropy {α : Type} (kB β egs : ℝ) (hk : kB * β ≠ 0) (w : ℕ) (junk : ℕ → ℕ → ℕ) (fresh : ℕ → ℝ) (ek : List ℝ)
    (h : ek.length * ek.length ≤ 64) (hw : ek.length ≤ w) (es : Espace α) (hl : (es.flatMap fun p => p.2.eigvals) ≠ []) :
    getEntropy kB w junk fresh ek es egs β = .ok (kB * shannon (boltzmann β (es.flatMap fun p => p.2.eigvals)) -
      kB * (2 * (ek.map fun e => levelEntropy (fermiOcc β e)).sum)) := by
  obtain ⟨bath, hb, hF⟩ := sum_bath (junk := junk) (fresh := fresh) h hw
  obtain ⟨hZ, hS⟩ := level_entropies β ek
  obtain ⟨p, hp, hpe⟩ := C64_entropy kB β egs hk es hl
  generalize hS0 : Finset.range (2 ^ ek.length) = S at hF hZ hS
  have hsum : ((bath.flatMap fun p => p.2.eigvals).map fun e => Real.exp (-(β * e))).sum = (∑ u ∈ S, Real.exp (-(β * levelSum ek u))) ^ 2 := by
    rw [hF (fun e => Real.exp (-(β * e))), sq, Finset.sum_mul_sum]
    exact Finset.sum_congr rfl fun u _ => Finset.sum_congr rfl fun d _ => by rw [← Real.exp_add]; congr 1; ring
  have hbne : (bath.flatMap fun p => p.2.eigvals) ≠ [] := by
    intro h0
    rw [h0] at hsum
    simp only [List.map_nil, List.sum_nil] at hsum
    exact absurd hsum (by positivity)
  have hsumE : ((bath.flatMap fun p => p.2.eigvals).map fun e => e * Real.exp (-(β * e))).sum =
      2 * (∑ u ∈ S, levelSum ek u * Real.exp (-(β * levelSum ek u))) * ∑ u ∈ S, Real.exp (-(β * levelSum ek u)) := by
    rw [hF (fun e => e * Real.exp (-(β * e)))]
    have e1 : ∀ u d, (levelSum ek u + levelSum ek d) * Real.exp (-(β * (levelSum ek u + levelSum ek d))) =
        (levelSum ek u * Real.exp (-(β * levelSum ek u))) * Real.exp (-(β * levelSum ek d)) +
        Real.exp (-(β * levelSum ek u)) * (levelSum ek d * Real.exp (-(β * levelSum ek d))) := fun u d => by
      have : Real.exp (-(β * (levelSum ek u + levelSum ek d))) = Real.exp (-(β * levelSum ek u)) * Real.exp (-(β * levelSum ek d)) := by
        rw [← Real.exp_add]; congr 1; ring
      rw [this]; ring
    simp only [e1, Finset.sum_add_distrib, ← Finset.sum_mul_sum]
    ring
  obtain ⟨pb, hpb, hpbe⟩ := C64_entropy kB β (2 * (ek.map fun x => min x 0).sum) hk bath hbne
  simp only [getEntropy, hb, hp, bind, Except.bind, WithTop.untopD_coe, hpb, hk, if_false, pure, Except.pure]
  rw [hpe, hpbe, shannon_boltzmann β hbne, hsum, hsumE, ← hS, double_entropy kB β _ _ hZ]

/-- **C64.** Bounds on the returned impurity entropy. -/
theorem C64_impurity_bounds {α : Type} (kB β egs : ℝ) (hk : 0 < kB) (hβ : 0 < β) (w : ℕ) (junk : ℕ → ℕ → ℕ) (fresh : ℕ → ℝ) (ek : List ℝ)
    (h : ek.length * ek.length ≤ 64) (hw : ek.length ≤ w) (es : Espace α) (hl : (es.flatMap fun p => p.2.eigvals) ≠ []) :
    ∃ S, getEntropy kB w junk fresh ek es egs β = .ok S ∧ -(2 * kB * ek.length * Real.log 2) ≤ S ∧
      S ≤ kB * Real.log (es.flatMap fun p => p.2.eigvals).length := by
  refine ⟨_, C64_impurity_entropy kB β egs (mul_pos hk hβ).ne' w junk fresh ek h hw es hl, ?_⟩
  have hb := C64_bounds β hl
  have hlev : ∀ l : List ℝ, 0 ≤ (l.map fun e => levelEntropy (fermiOcc β e)).sum ∧ (l.map fun e => levelEntropy (fermiOcc β e)).sum ≤ l.length * Real.log 2 := by
    intro l
    induction l with
    | nil => simp
    | cons e l ih =>
      have h1 := C64_bounds β (l := [0, e]) (by simp)
      have h2 : shannon (boltzmann β [0, e]) = levelEntropy (fermiOcc β e) := by
        rw [shannon_boltzmann β (by simp), levelEntropy_eq]
        simp
      rw [h2] at h1
      have h3 : Real.log (([0, e] : List ℝ).length : ℝ) = Real.log 2 := by norm_num
      rw [h3] at h1
      simp only [List.map_cons, List.sum_cons, List.length_cons]
      push_cast
      constructor <;> nlinarith [ih.1, ih.2, h1.1, h1.2]
  have := hlev ek
  constructor <;> nlinarith [hb.1, hb.2, this.1, this.2]

/-- Non-vacuity: a spectrum of two states and two bath levels. -/
example (st : SectorStates) : getEntropy 1 64 (fun _ _ => 7) (fun _ => 13) [-1, 2] [((1, 0), ⟨st, 1, [0.5], []⟩), ((0, 1), ⟨st, 1, [0.25], []⟩)] 0.25 2 =
    .ok (1 * shannon (boltzmann 2 [0.5, 0.25]) - 1 * (2 * (levelEntropy (fermiOcc 2 (-1)) + levelEntropy (fermiOcc 2 2)))) := by
  have := C64_impurity_entropy 1 2 0.25 (by norm_num) 64 (fun _ _ => 7) (fun _ => 13) [-1, 2] (by simp) (by simp)
    [((1, 0), ⟨st, 1, [0.5], []⟩), ((0, 1), ⟨st, 1, [0.25], []⟩)] (by simp)
  simpa using this

end Edpyt
