import Verif.Proof.Migdal
import Verif.Props.PartsFermi
import Verif.Props.SigmaTail
import Verif.Props.Thermo
import Verif.Props.FreeSpectrum
import Verif.Spec.SpecMean
/-!
C191: the energy and the double occupancies follow from the one-particle Green functions.
-/
namespace Edpyt
open Edpyt.Spec Matrix

theorem EigBasis.lehmann_comm {ι κ : Type} [Fintype ι] [DecidableEq ι] [Fintype κ] [DecidableEq κ] {H : Matrix ι ι ℝ} {u : κ → ι → ℝ} {E : κ → ℝ} (h : EigBasis H u E) (β : ℝ)
    (A B : Matrix ι ι ℝ) (x : κ × κ) : lehmannW β u E (A * H - H * A) B x = lehmannW β u E A B x * (E x.2 - E x.1) := by
  have e : u x.1 ⬝ᵥ ((A * H - H * A) *ᵥ u x.2) = (u x.1 ⬝ᵥ (A *ᵥ u x.2)) * (E x.2 - E x.1) := by
    rw [Matrix.sub_mulVec, dotProduct_sub, ← Matrix.mulVec_mulVec, h.eig, Matrix.mulVec_smul, dotProduct_smul, ← Matrix.mulVec_mulVec, Matrix.dotProduct_mulVec (u x.1) H,
      ← Matrix.mulVec_transpose, h.symm, h.eig, smul_dotProduct, smul_eq_mul, smul_eq_mul]
    ring
  unfold lehmannW
  rw [e]
  ring

section
variable {n junk : ℕ} {es : Espace (ℕ × ℕ)} {egs beta : ℝ} {H : Matrix (Finset (Fin (n + n))) (Finset (Fin (n + n))) ℝ}

/-- The averages over the poles of `build_gf2_exact` with the Fermi function. -/
theorem gf2_means (hn : n ≤ 32) (hes : EigenEspace n H es) (s : Bool) :
    ∃ G, buildGf2Exact junk n es beta egs s = .ok G ∧ ∀ i j : Fin n,
      (((G i j).mean (fermiOcc beta) : ℝ) : ℂ) = thermal beta H (cplx (cre ℝ (orb s j) * ann ℝ (orb s i))) ∧
      (((G i j).mean (fun l => l * fermiOcc beta l) : ℝ) : ℂ) = thermal beta H (cplx (cre ℝ (orb s j) * (ann ℝ (orb s i) * H - H * ann ℝ (orb s i)))) := by
  obtain ⟨st, h0, h2⟩ := gf2Exact_loop (junk := junk) (beta := beta) (egs := egs) hn hes.toCompleteEspace s 0 es (fun _ h => h) (fun _ => ([], []))
  obtain ⟨G, hG, h3⟩ := C93_gf2_exact (junk := junk) (beta := beta) (egs := egs) hn hes s
  refine ⟨G, hG, fun i j => ?_⟩
  have hlen : (G i j).l.length = (G i j).q.length := by
    unfold buildGf2Exact at hG
    simp only [h0, bind, Except.bind, pure, Except.pure, Except.ok.injEq] at hG
    obtain ⟨L, Q, e1, e2, -⟩ := h2 ((i : ℕ), (j : ℕ)) i.2 j.2
    rw [← hG]
    simp only [e1]
    simpa using e2
  have hp : ∀ e eta : ℝ, eta ≠ 0 → ∑ k : Fin (G i j).l.length, ((((G i j).q[k]?).getD 0 / (G i j).Z : ℝ) : ℂ) / ((e + Complex.I * eta : ℂ) - ((G i j).l[k] : ℝ)) =
      ∑ y : EigIdx n × EigIdx n, (lehmannW beta (esKet n es) (esVal n es) (ann ℝ (orb s i)) (cre ℝ (orb s j)) y : ℂ) /
        ((e + Complex.I * eta : ℂ) - ((esVal n es y.2 - esVal n es y.1 : ℝ) : ℂ)) := fun e eta he => by
    rw [← (hes.basis.green_pairs beta _ _ (by simpa using he) _).mp ((h3 i j e eta he _).mpr rfl)]
    have := gfEx_poles (G i j) hlen (fun _ => 1) e eta
    rw [gfEx_weighted_one _ hlen] at this
    rw [this]
    exact Finset.sum_congr rfl fun k _ => by simp
  have key : ∀ f : ℝ → ℝ, (((G i j).mean f : ℝ) : ℂ) =
      ((∑ y : EigIdx n × EigIdx n, lehmannW beta (esKet n es) (esVal n es) (ann ℝ (orb s i)) (cre ℝ (orb s j)) y * f (esVal n es y.2 - esVal n es y.1) : ℝ) : ℂ) := fun f => by
    have hu := poles_unique (fun k : Fin (G i j).l.length => ((((G i j).q[k]?).getD 0 / (G i j).Z : ℝ) : ℂ)) (fun k => (G i j).l[k]) _ _ hp (fun l => (f l : ℂ))
    have e1 : (G i j).mean f = ∑ k : Fin (G i j).l.length, (((G i j).q[k]?).getD 0 / (G i j).Z) * f (G i j).l[k] := gfEx_weighted_sum _ hlen f
    rw [e1]
    push_cast at hu ⊢
    exact hu
  constructor
  · rw [key, hes.basis.fermi_sum beta, hes.basis.thermal]
  · rw [key, hes.basis.thermal, ← hes.basis.fermi_sum beta]
    congr 1
    refine Finset.sum_congr rfl fun y _ => ?_
    rw [hes.basis.lehmann_comm]
    ring

end

section
variable {a : HamArgs} {junk : ℕ} {es : Espace (ℕ × ℕ)} {egs beta : ℝ}

/-- The reference occupations that the code uses. -/
noncomputable def HamArgs.zRef (a : HamArgs) (i : Fin a.n) : ℝ := (a.z.getD (fun _ => if a.hf then 1 else 0)) i

theorem sum_modes {R : Type} [AddCommMonoid R] {n : ℕ} (f : Fin (n + n) → R) : ∑ m, f m = ∑ s : Bool, ∑ i : Fin n, f (orb s i) := by
  rw [Fin.sum_univ_add, Fintype.sum_bool, add_comm]
  rfl

theorem thermal_energy {n : ℕ} {H : Matrix (Finset (Fin (n + n))) (Finset (Fin (n + n))) ℝ} (hes : EigenEspace n H es) (beta : ℝ) :
    thermal beta H (cplx H) = ((meanE beta (es.flatMap fun p => p.2.eigvals) : ℝ) : ℂ) ∧ thermal beta H (cplx 1) = 1 := by
  have hZ : (∑ k, Real.exp (-beta * esVal n es k)) ≠ 0 := (Finset.sum_pos (fun _ _ => Real.exp_pos _) ⟨⟨(0, 0), ⟨0, by simp⟩⟩, Finset.mem_univ _⟩).ne'
  rw [hes.basis.thermal, hes.basis.thermal]
  constructor
  · unfold meanE
    rw [flat_sum hes.toCompleteEspace (fun e => e * Real.exp (-(beta * e))), flat_sum hes.toCompleteEspace (fun e => Real.exp (-(beta * e)))]
    congr 2
    · refine Finset.sum_congr rfl fun k _ => ?_
      rw [hes.basis.eig, dotProduct_smul, hes.basis.orth, if_pos rfl, smul_eq_mul, mul_one, mul_comm, neg_mul]
    · exact Finset.sum_congr rfl fun k _ => by rw [neg_mul]
  · have : ∀ k, esKet n es k ⬝ᵥ ((1 : Matrix _ _ ℝ) *ᵥ esKet n es k) = 1 := fun k => by rw [Matrix.one_mulVec, hes.basis.orth, if_pos rfl]
    simp only [this, mul_one]
    rw [div_self hZ, Complex.ofReal_one]

/-- **C191** (Galitskii–Migdal). With the espace of a Hamiltonian with any on-site, density-density, exchange and pair-hopping interaction, the thermal mean of the energies in the espace is half the sum
over spins and sites of `∫ ω f(ω) A_ii(ω)` plus the one-body matrix contracted with the occupation matrix `∫ f(ω) A(ω)`, both read off the poles and residues that `build_gf2_exact` returns, up to what
the reference occupations `z` and the half filling add to the levels and to the energy. -/
theorem C191_energy (hle : a.n ≤ 32) (hes : EigenEspace a.n a.ham es) :
    ∃ G : Bool → ℕ → ℕ → GfEx, (∀ s, buildGf2Exact junk a.n es beta egs s = .ok (G s)) ∧
      meanE beta (es.flatMap fun p => p.2.eigvals) =
        1 / 2 * ∑ s, ∑ i : Fin a.n, ((G s i i).mean (fun l => l * fermiOcc beta l) +
          ∑ j : Fin a.n, (a.oneBody s i j + if i = j then bgLevel a.hf a.zRef (fun i j => a.V.U.getD 0 i j) i else 0) * (G s j i).mean (fermiOcc beta)) +
        bgEnergy a.hf a.zRef (fun i j => a.V.U.getD 0 i j) := by
  obtain ⟨Gu, gu, hu⟩ := gf2_means (junk := junk) (beta := beta) (egs := egs) hle hes false
  obtain ⟨Gd, gd, hd⟩ := gf2_means (junk := junk) (beta := beta) (egs := egs) hle hes true
  obtain ⟨G, g, hG⟩ : ∃ G : Bool → ℕ → ℕ → GfEx, (∀ s, buildGf2Exact junk a.n es beta egs s = .ok (G s)) ∧
      ∀ s, ∀ i j : Fin a.n, (((G s i j).mean (fermiOcc beta) : ℝ) : ℂ) = thermal beta a.ham (cplx (cre ℝ (orb s j) * ann ℝ (orb s i))) ∧
      (((G s i j).mean (fun l => l * fermiOcc beta l) : ℝ) : ℂ) = thermal beta a.ham (cplx (cre ℝ (orb s j) * (ann ℝ (orb s i) * a.ham - a.ham * ann ℝ (orb s i)))) :=
    ⟨fun s => if s then Gd else Gu, fun s => by cases s <;> assumption, fun s i j => by cases s; exacts [hu i j, hd i j]⟩
  refine ⟨G, g, ?_⟩
  set V : Fin a.n → Fin a.n → ℝ := fun i j => a.V.U.getD 0 i j with hV
  have hc := annCount_hubbard a.hf (fun s => kept (n := a.n) a.mu (a.H (if s then 1 else 0))) a.zRef V a.V.Jx a.V.Jp
  change annCount a.ham = (2 : ℝ) • a.ham - kinetic (fun s i j => a.oneBody s i j) - _ - _ at hc
  have hH : a.ham = (1 / 2 : ℝ) • (annCount a.ham + kinetic (fun s i j => a.oneBody s i j) + ∑ i, bgLevel a.hf a.zRef V i • (num ℝ (orb false i) + num ℝ (orb true i))) +
      bgEnergy a.hf a.zRef V • (1 : Matrix _ _ ℝ) := by
    rw [hc]; module
  have e1 : thermal beta a.ham (cplx (annCount a.ham)) = ((∑ s, ∑ i : Fin a.n, (G s i i).mean (fun l => l * fermiOcc beta l) : ℝ) : ℂ) := by
    unfold annCount
    rw [sum_modes, cplx_sum, thermal_sum]
    push_cast
    refine Finset.sum_congr rfl fun s _ => ?_
    rw [cplx_sum, thermal_sum]
    exact Finset.sum_congr rfl fun i _ => (hG s i i).2.symm
  have e2 : thermal beta a.ham (cplx (kinetic (fun s i j => a.oneBody s i j))) = ((∑ s, ∑ i : Fin a.n, ∑ j : Fin a.n, a.oneBody s i j * (G s j i).mean (fermiOcc beta) : ℝ) : ℂ) := by
    unfold kinetic
    rw [cplx_sum, thermal_sum]
    push_cast
    refine Finset.sum_congr rfl fun s _ => ?_
    rw [cplx_sum, thermal_sum]
    refine Finset.sum_congr rfl fun i _ => ?_
    rw [cplx_sum, thermal_sum]
    refine Finset.sum_congr rfl fun j _ => ?_
    rw [cplx_smul, thermal_smul, (hG s j i).1]
  have e3 : thermal beta a.ham (cplx (∑ i, bgLevel a.hf a.zRef V i • (num ℝ (orb false i) + num ℝ (orb true i)))) =
      ((∑ s, ∑ i : Fin a.n, bgLevel a.hf a.zRef V i * (G s i i).mean (fermiOcc beta) : ℝ) : ℂ) := by
    rw [cplx_sum, thermal_sum, Finset.sum_comm]
    push_cast
    refine Finset.sum_congr rfl fun i _ => ?_
    rw [Fintype.sum_bool, cplx_smul, thermal_smul, cplx_add', thermal_add, (hG true i i).1, (hG false i i).1]
    unfold num
    ring
  obtain ⟨t1, t2⟩ := thermal_energy hes beta
  have key : thermal beta a.ham (cplx a.ham) = thermal beta a.ham (cplx ((1 / 2 : ℝ) • (annCount a.ham + kinetic (fun s i j => a.oneBody s i j) +
      ∑ i, bgLevel a.hf a.zRef V i • (num ℝ (orb false i) + num ℝ (orb true i))) + bgEnergy a.hf a.zRef V • (1 : Matrix _ _ ℝ))) := congrArg (fun X => thermal beta a.ham (cplx X)) hH
  rw [t1, cplx_add', thermal_add, cplx_smul, thermal_smul, cplx_add', thermal_add, cplx_add', thermal_add, cplx_smul, thermal_smul, t2, e1, e2, e3] at key
  have key' : meanE beta (es.flatMap fun p => p.2.eigvals) = 1 / 2 * (∑ s, ∑ i : Fin a.n, (G s i i).mean (fun l => l * fermiOcc beta l) +
      ∑ s, ∑ i : Fin a.n, ∑ j : Fin a.n, a.oneBody s i j * (G s j i).mean (fermiOcc beta) + ∑ s, ∑ i : Fin a.n, bgLevel a.hf a.zRef V i * (G s i i).mean (fermiOcc beta)) +
      bgEnergy a.hf a.zRef V * 1 := by exact_mod_cast key
  rw [key', mul_one, ← Finset.sum_add_distrib, ← Finset.sum_add_distrib]
  congr 2
  refine Finset.sum_congr rfl fun s _ => ?_
  rw [← Finset.sum_add_distrib, ← Finset.sum_add_distrib]
  refine Finset.sum_congr rfl fun i _ => ?_
  rw [add_assoc]
  congr 1
  simp only [add_mul, Finset.sum_add_distrib]
  congr 1
  rw [Finset.sum_eq_single i (fun j _ hj => by rw [if_neg (Ne.symm hj), zero_mul]) (by simp), if_pos rfl]

/-- **C191** (double occupancies). With an on-site interaction only, the correlation `U ⟨n_is (n_i(-s) - ½)⟩` of each site (without the `½` if not half filled) is read off the poles and residues too. -/
theorem C191_double_occupancy (hle : a.n ≤ 32) (h : a.OnsiteOnly) (hes : EigenEspace a.n a.ham es) (s : Bool) :
    ∃ G, buildGf2Exact junk a.n es beta egs s = .ok G ∧ ∀ i : Fin a.n,
      thermal beta a.ham (cplx (a.V.U.getD 0 i i • (num ℝ (orb s i) * (num ℝ (orb (!s) i) - (if a.hf then 1 / 2 else 0 : ℝ) • 1)))) =
        (((G i i).mean (fun l => l * fermiOcc beta l) - ∑ j : Fin a.n, a.oneBody s i j * (G j i).mean (fermiOcc beta) : ℝ) : ℂ) := by
  obtain ⟨G, g, hG⟩ := gf2_means (junk := junk) (beta := beta) (egs := egs) hle hes s
  refine ⟨G, g, fun i => ?_⟩
  have hs : a.ham.IsSymm := hes.basis.symm
  have e := (h.comm hs s i).1
  have e2 := (hG i i).2
  rw [e, Matrix.mul_add, Matrix.mul_sum, Matrix.mul_smul, cplx_add', thermal_add, cplx_sum, thermal_sum] at e2
  have e3 : cre ℝ (orb s i) * ((num ℝ (orb (!s) i) - (if a.hf then 1 / 2 else 0 : ℝ) • 1) * ann ℝ (orb s i)) =
      num ℝ (orb s i) * (num ℝ (orb (!s) i) - (if a.hf then 1 / 2 else 0 : ℝ) • 1) := by
    have hc := ann_comm_num (R := ℝ) (orb s i) (orb (!s) i)
    rw [if_neg (fun e => by have := (orb_inj.mp e).1; cases s <;> simp at this)] at hc
    rw [show num ℝ (orb s i) = cre ℝ (orb s i) * ann ℝ (orb s i) from rfl, Matrix.mul_assoc]
    congr 1
    rw [Matrix.mul_sub, Matrix.sub_mul, sub_eq_zero.mp hc]
    simp
  rw [e3] at e2
  push_cast
  rw [e2, eq_sub_iff_add_eq, add_comm]
  congr 1
  refine Finset.sum_congr rfl fun j _ => ?_
  rw [(hG j i).1, Matrix.mul_smul, cplx_smul, thermal_smul]

end

/-- Non-vacuity: the half-filled Hubbard dimer. -/
example (junk : ℕ) (beta egs : ℝ) : exampleArgs.OnsiteOnly ∧ ∃ es, EigenEspace exampleArgs.n exampleArgs.ham es ∧ ∃ G : Bool → ℕ → ℕ → GfEx, (∀ s, buildGf2Exact junk 2 es beta egs s = .ok (G s)) ∧
    meanE beta (es.flatMap fun p => p.2.eigvals) =
      1 / 2 * ∑ s, ∑ i : Fin 2, ((G s i i).mean (fun l => l * fermiOcc beta l) +
        ∑ j : Fin 2, (exampleArgs.oneBody s i j + if i = j then bgLevel true exampleArgs.zRef (fun i j : Fin 2 => exampleArgs.V.U.getD 0 i j) i else 0) * (G s j i).mean (fermiOcc beta)) +
      bgEnergy true exampleArgs.zRef (fun i j : Fin 2 => exampleArgs.V.U.getD 0 i j) := by
  obtain ⟨es, h⟩ := exampleArgs_eigenEspace
  refine ⟨⟨?_, ?_, ?_⟩, es, h, C191_energy (a := exampleArgs) (by simp [exampleArgs]) h⟩ <;> simp +contextual [exampleArgs, VArg.array, Fin.ext_iff]

end Edpyt
