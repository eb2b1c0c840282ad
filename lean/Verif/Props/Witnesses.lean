import Verif.Props.Symmetry
import Verif.Props.CotnlLevels
import Verif.Props.NLevels
import Verif.Props.EigChoice
import Verif.Props.MatsumError
import Verif.Props.GfScreened

/-!
Concrete cases that meet the hypotheses of theorems whose own files do not contain one.
-/
namespace Edpyt
open Spec

/-- `C109_…` and `C110_…`: the two-site Hubbard model does not depend on the spin and is invariant under the exchange of its sites. -/
example : exampleArgs.Valid ∧ exampleArgs.SpinFree ∧ exampleArgs.Invariant false (show Equiv.Perm (Fin 2) from Equiv.swap 0 1) ∧
    ∃ es occ, EigenEspace exampleArgs.n exampleArgs.ham es ∧ List.Forall₂ OccView es occ := by
  have hsw : ∀ i j : Fin 2, ((Equiv.swap (0 : Fin 2) 1 i : ℕ) = Equiv.swap (0 : Fin 2) 1 j) ↔ (i : ℕ) = j := fun i j => by
    rw [← Fin.ext_iff, EmbeddingLike.apply_eq_iff_eq, Fin.ext_iff]
  have hv := exampleArgs_valid
  have hw : exampleArgs.n ≤ 64 := by norm_num [exampleArgs]
  obtain ⟨⟨es, E0⟩, h⟩ := (buildEspace_none_ok hv hw).1
  have hes : EigenEspace exampleArgs.n exampleArgs.ham es := buildEspace_eigen hv hw h
  refine ⟨hv, fun i j _ _ => rfl, ⟨?_, ?_, ?_, ?_, ?_⟩, es, es.map fun p => OccSct.ofSct p.2, hes, by rw [List.forall₂_map_right_iff]; exact List.forall₂_same.mpr fun p _ => OccSct.ofSct_view p⟩
  · intro s i j
    exact if_congr (hsw i j) rfl rfl
  · intro i j
    exact if_congr (hsw i j) rfl rfl
  · intro v hv; cases hv
  · intro v hv; cases hv
  · intro v hv; cases hv

/-- `C55_sqtnl`: the rates between the states of two sites with one, two and three electrons. -/
example : ∃ gd st, sqtnlDicts gd 1 [0, 1] [[1, 2], [3, 4]] ((1 : ℕ) : ℤ) = .ok st ∧ Connects gd (2 : ℕ) ((2 : ℕ) + 1) := by
  obtain ⟨sd, h, h1, -⟩ := C61_partial (junk := 0) (by norm_num) (oneState_ok (n := 2) (by norm_num)).1 (oneState_ok (by norm_num)).2 (N := 2) (by norm_num) (by norm_num) none
  obtain ⟨sd', st, h', hst, -⟩ := C55_sqtnl_from_spectrum (junk := 0) (n := 2) (by norm_num) (oneState_ok (n := 2) (by norm_num)).1 (N := 2) (by norm_num) none 1 (mu := [0, 1]) (A := [[1, 2], [3, 4]]) rfl rfl
    (by intro v hv; simp at hv; rcases hv with rfl | rfl <;> rfl) (inject := 1) (by norm_num)
  rw [h] at h'
  cases h'
  exact ⟨sd, st, hst, h1⟩

/-- `C55_cotnl`, `C55_cotnl_approximate`, `C55_cotnl_integrate`, `C58_cotnl`: both rates of two sites with exchange. -/
example : ∃ sd W T W1 T1, cotnlDicts sd (NSigma.integrate [[1, 2], [3, 4]] 1 [0, 1]) ((0 : ℕ) : ℤ) ((1 : ℕ) : ℤ) = .ok (W, T) ∧
    cotnlDicts sd (NSigma.approximate [[1, 2], [3, 4]] 1 [0, 1]) ((0 : ℕ) : ℤ) ((1 : ℕ) : ℤ) = .ok (W1, T1) := by
  have hr := nRun hopArgs hopArgs_nvalid (by simp [hopArgs, freeArgs]) (mix_run false)
  have hA : ∀ v ∈ ([[1, 2], [3, 4]] : List (List ℝ)), v.length = hopArgs.n := by intro v hv; simp at hv; rcases hv with rfl | rfl <;> rfl
  obtain ⟨sd, W, T, h1, h2⟩ := cotnl_ok hr (N := 1) (show 1 ≤ 2 + 2 by norm_num) 0 none (beta := 1) (mu := [0, 1]) (A := [[1, 2], [3, 4]]) (by simp) (by simp) hA (Or.inr rfl)
    (extract := 0) (inject := 1) (by norm_num) (by norm_num)
  obtain ⟨sd1, W1, T1, h3, h4⟩ := cotnl_ok hr (N := 1) (show 1 ≤ 2 + 2 by norm_num) 0 none (beta := 1) (mu := [0, 1]) (A := [[1, 2], [3, 4]]) (by simp) (by simp) hA (Or.inl rfl)
    (extract := 0) (inject := 1) (by norm_num) (by norm_num)
  rw [h1] at h3
  cases h3
  exact ⟨sd, W, T, W1, T1, h2, h4⟩

/-- `C169_levels`: two different eigenbases of the same spectrum, with the rates of both. -/
example : ∃ es es1 e0 e1 gd gd1 st st1, hopArgs.NValid ∧ NBuildEspace 64 hopArgs none (.ok (es, e0)) ∧ NBuildEspace 64 hopArgs none (.ok (es1, e1)) ∧ es ≠ es1 ∧
    sqtnlBuild 0 hopArgs.n es (some ((1 : ℕ) : ℤ)) none = .ok gd ∧ sqtnlBuild 0 hopArgs.n es1 (some ((1 : ℕ) : ℤ)) none = .ok gd1 ∧
    sqtnlDicts gd 1 [0, 1] [[1, 2], [3, 4]] ((1 : ℕ) : ℤ) = .ok st ∧ sqtnlDicts gd1 1 [0, 1] [[1, 2], [3, 4]] ((1 : ℕ) : ℤ) = .ok st1 := by
  have ok : ∀ rot, NEspaceOk 2 (nChosen 64 2 (mixChoice rot)) := fun rot N hN => by
    obtain ⟨st, g, o, -⟩ := (nRun hopArgs hopArgs_nvalid (by simp [hopArgs, freeArgs]) (mix_run rot)).get N (show N ≤ 2 + 2 by omega)
    exact ⟨_, st, g, o⟩
  have hA : ∀ v ∈ ([[1, 2], [3, 4]] : List (List ℝ)), v.length = 2 := by intro v hv; simp at hv; rcases hv with rfl | rfl <;> rfl
  have run := fun rot => C55_sqtnl_from_spectrum (junk := 0) (n := 2) (by norm_num) (ok rot) (N := 1) (by norm_num) none 1 (mu := [0, 1]) (A := [[1, 2], [3, 4]]) rfl rfl hA (inject := 1) (by norm_num)
  obtain ⟨gd, st, h1, h2, -⟩ := run false
  obtain ⟨gd1, st1, h3, h4, -⟩ := run true
  refine ⟨_, _, _, _, gd, gd1, st, st1, hopArgs_nvalid, mix_run false, mix_run true, fun e => ?_, h1, h3, h2, h4⟩
  have e1 := nChosen_get (w := 64) (n := 2) (ch := mixChoice false) (N := 1) (by norm_num)
  rw [e, nChosen_get (w := 64) (n := 2) (ch := mixChoice true) (N := 1) (by norm_num)] at e1
  have e2 := congrArg (fun s : Sct => (s.eigvecs[0]?.getD (fun _ => 0) : ℕ → ℝ) 0) (Except.ok.inj e1)
  simp [nChosenSct, mixChoice, mixVec] at e2

/-- `C85_matsum_error`: two poles with the weight one half. -/
example : ∃ (a e : Fin 2 → ℝ) (g : ℕ → ℂ), ∑ j, a j = 1 ∧ ∀ i, g i = ∑ j, (a j : ℂ) / (msZ 1 i + ((0 : ℝ) : ℂ) - (e j : ℂ)) :=
  ⟨fun _ => 1 / 2, ![-1, 1], _, by norm_num, fun _ => rfl⟩

end Edpyt
