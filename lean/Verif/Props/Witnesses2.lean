import Verif.Props.CotnlBalance
import Verif.Props.NAmplitude
import Verif.Props.NLevels
import Verif.Props.CotnlLevels
import Verif.Props.GfScreened
import Verif.Props.ImpSolve
import Verif.Props.CoBalance
import Verif.Props.Mpi
import Verif.Props.Observs
import Verif.Props.NonLocal
import Verif.Props.DedSolve

/-!
Further concrete cases that meet the hypotheses of theorems whose own files do not contain one.
-/
namespace Edpyt
open Spec

/-- `C171_pairs`, `C170_elements_partial`: two sites with two electrons, and the elements of their cotunnelling. -/
example : ∃ es egs sd, hopArgs.NValid ∧ NBuildEspace 64 hopArgs none (.ok (es, egs)) ∧ cotnlBuild 0 hopArgs.n es (some ((2 : ℕ) : ℤ)) none none = .ok sd ∧ ∃ p ∈ sd, p.2.length = 4 := by
  obtain ⟨sd, h1, -, h3, hrest⟩ := C170_elements_partial hopArgs_nvalid (by simp [hopArgs, freeArgs]) (mix_run false) 0 (N := 2) (by norm_num) (show 2 + 1 < 2 * 2 by norm_num) none
  obtain ⟨p, hp, e⟩ := List.mem_map.mp ((h3 _).mpr ⟨⟨0, by decide⟩, ⟨1, by decide⟩, rfl⟩)
  obtain ⟨-, -, -, h4, -⟩ := hrest p hp
  exact ⟨_, _, sd, hopArgs_nvalid, mix_run false, h1, p, hp, by simpa using h4.length_eq⟩

/-- `C118_screened`: the two-site Hubbard model with the states below one millionth of the weight of the ground state left out. -/
example : ∃ (es es' : Espace (ℕ × ℕ)) (egs : ℝ), BuildEspace 64 exampleArgs none (.ok (es, (egs : WithTop ℝ))) ∧ screenEspace es egs 10 (1 / 10 ^ 6) = .ok es' ∧
    ∃ out, BuildGfLanczos ⟨⟨500, 10, 1 / 10 ^ 13, fun _ _ => 0, fun _ _ => false⟩, .cf, 64, 0, exampleArgs, 10, egs, false⟩ 1 false es' (.ok out) := by
  obtain ⟨⟨r0, hr0⟩, -⟩ := C119_solve_partial (cfg := ⟨500, 10, 1 / 10 ^ 13, fun _ _ => 0, fun _ _ => false⟩) (w := 64) (junk := 0) (a := exampleArgs) (beta := 1000) (spin := false) 0 exampleArgs_valid
    (by norm_num [exampleArgs]) ⟨by norm_num, by norm_num, by norm_num⟩ (by norm_num [exampleArgs]) (by norm_num)
  obtain ⟨es, egs, h, -⟩ := impSolve_cases exampleArgs_valid (by norm_num [exampleArgs]) hr0
  obtain ⟨es', h1, ⟨r, hr⟩, h2⟩ := C118_screened (g := ⟨⟨500, 10, 1 / 10 ^ 13, fun _ _ => 0, fun _ _ => false⟩, .cf, 64, 0, exampleArgs, 10, egs, false⟩) (pos := 1) 0 exampleArgs_valid (by norm_num [exampleArgs])
    ⟨by norm_num, by norm_num, by norm_num⟩ (by norm_num [exampleArgs]) (by norm_num) h (cutoff := 1 / 10 ^ 6) (by norm_num) (by norm_num)
  obtain ⟨out, rfl, -⟩ := h2 r hr
  exact ⟨es, es', egs, h, h1, out, hr⟩

/-- `C119_solve_partial`: an impurity problem that is solved. -/
example : ∃ out, ImpSolve ⟨500, 10, 1 / 10 ^ 13, fun _ _ => 0, fun _ _ => false⟩ 64 0 exampleArgs 1000 false none false (.ok out) := by
  obtain ⟨⟨r, hr⟩, h⟩ := C119_solve_partial (cfg := ⟨500, 10, 1 / 10 ^ 13, fun _ _ => 0, fun _ _ => false⟩) (w := 64) (junk := 0) (a := exampleArgs) (beta := 1000) (spin := false) 0 exampleArgs_valid
    (by norm_num [exampleArgs]) ⟨by norm_num, by norm_num, by norm_num⟩ (by norm_num [exampleArgs]) (by norm_num)
  obtain ⟨out, rfl, -⟩ := h r hr
  exact ⟨out, hr⟩

/-- `C147_pairs_electron`: the transitions of the two-site model from one electron of spin up to one of spin down through two electrons. -/
example : ∃ es l l', EigenEspace exampleArgs.n exampleArgs.ham es ∧ coProjectAdd 0 (ispinOf false) (ispinOf true) exampleArgs.n (zp (1, 0)) es = .ok l ∧
    coProjectAdd 0 (ispinOf true) (ispinOf false) exampleArgs.n (zp (0, 1)) es = .ok l' := by
  obtain ⟨es, h⟩ := exampleArgs_eigenEspace
  obtain ⟨l, l', h1, h2, -⟩ := C147_pairs_electron (n := 2) (by norm_num) h 0 false true (q := (1, 0)) (qF := (0, 1)) (by norm_num) (by norm_num [shiftUp]) (by norm_num [shiftUp])
  exact ⟨es, l, l', h, h1, h2⟩

/-- `C22_nonlocal_elements_partial`, `C22_nonlocal_fixed_N`, `C23_N_vs_Sz_partial`: two sites with exchange and pair hopping. -/
example : generateStates 64 2 ((1 : ℕ) : ℤ) = .ok [1, 2] ∧ generateStates 64 (2 + 2) ((2 : ℕ) : ℤ) = .ok [3, 5, 6, 9, 10, 12] ∧
    (∀ i j, i < 2 → j < 2 → (fun i j : ℕ => if i = j then (0 : ℚ) else 3) i j = (fun i j : ℕ => if i = j then (0 : ℚ) else 3) j i) := by
  refine ⟨by decide, by decide, fun i j _ _ => by simp only [eq_comm]⟩

/-- `C47_mpi_eq_serial`, `C47_rows`: the eigenvectors of two sites with one electron of each spin, over two ranks. -/
example : ∃ (A : NdArr) (loc : ℕ → NdArr), EvecArr A [1, 2] [1, 2] 1 ∧ ∀ r < 2, (loc r).shape = [2 * (2 / 2), 1] ∧ (loc r).lay ≠ .strided ∧
    ∀ i < 2 * (2 / 2), ∀ j < 1, (loc r).elem (2 * (2 / 2)) 1 i j = A.elem (2 * 2) 1 (r * (2 * (2 / 2)) + i) j := by
  refine ⟨⟨[4, 1], .C, fun k => k⟩, fun r => ⟨[2, 1], .C, fun k => k + 2 * r⟩, ⟨rfl, by simp⟩, fun r hr => ⟨rfl, by simp, fun i hi j hj => ?_⟩⟩
  simp [NdArr.elem]
  ring

/-- `C46_mpi_matvec`: a product over two ranks. -/
example : ∃ (A : Csr ℚ) (diag vec result : List ℚ) (out : Except PyErr (MpiOut ℚ)), A.WF ∧ A.cols = A.rows ∧ A.rows = 2 ∧ diag.length = 2 * 2 ∧ vec.length = 2 * 2 ∧
    MatvecOperator [.loc diag, .up A 2, .dw A 2] vec result ∧ MatvecMpi 2 (fun r => slice (2 / 2) 2 r diag) A A (fun r => slice (2 / 2) 2 r vec) out := by
  obtain ⟨result, hr⟩ := C24_matvec_exists [.loc [1, 2, 3, 4], .up (⟨[3, 5], [0, 1, 2], [1, 0], 2, 2⟩ : Csr ℚ) 2, .dw ⟨[3, 5], [0, 1, 2], [1, 0], 2, 2⟩ 2] [1, -1, 2, 7]
  obtain ⟨out, ho⟩ := C46_exists 2 (fun r => slice (2 / 2) 2 r [1, 2, 3, 4]) (⟨[3, 5], [0, 1, 2], [1, 0], 2, 2⟩ : Csr ℚ) ⟨[3, 5], [0, 1, 2], [1, 0], 2, 2⟩ (fun r => slice (2 / 2) 2 r [1, -1, 2, 7])
  refine ⟨_, _, _, result, out, ?_, rfl, rfl, rfl, rfl, hr, ho⟩
  constructor <;> decide

end Edpyt
