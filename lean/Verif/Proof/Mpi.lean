import Verif.Model.Mpi
import Verif.Proof.Matvec
import Mathlib.Tactic
/-!
Lemmas about the distributed transpositions.
-/
namespace Edpyt
variable {K : Type} [Field K]

theorem foldl_blocks (L w : ℕ) (hw : 0 < w) (g : ℕ → ℕ → K) (b0 : ℕ → K) (t : ℕ) :
    (List.range L).foldl (fun b p t => if p * w ≤ t ∧ t < (p + 1) * w then g p t else b t) b0 t
      = if t < L * w then g (t / w) t else b0 t := by
  induction L generalizing t with
  | zero => simp
  | succ L ih =>
    rw [List.range_succ, List.foldl_append, List.foldl_cons, List.foldl_nil]
    by_cases h : L * w ≤ t ∧ t < (L + 1) * w
    · rw [if_pos h, if_pos h.2, Nat.div_eq_of_lt_le h.1 h.2]
    · rw [if_neg h, ih]
      by_cases h2 : t < L * w
      · rw [if_pos h2, if_pos (by nlinarith)]
      · rw [if_neg h2, if_neg (fun h3 => h ⟨by omega, h3⟩)]

theorem divmod_of {w a b : ℕ} (h : b < w) : (a * w + b) / w = a ∧ (a * w + b) % w = b := by
  constructor
  · rw [mul_comm, Nat.mul_add_div (by omega), Nat.div_eq_of_lt h, add_zero]
  · rw [mul_comm, Nat.mul_add_mod, Nat.mod_eq_of_lt h]

theorem block_lt {w a b L : ℕ} (hb : b < w) (ha : a < L) : a * w + b < L * w := by nlinarith

theorem packDw_eq {size m n : ℕ} (hm : 0 < m) (junk : ℕ → K) (a : List K) {p i j : ℕ} (hp : p < size) (hi : i < m) (hj : j < m) :
    packDw size m n m junk a (p * (m * m) + (i * m + j)) = at0 a (i * n + (p * m + j)) := by
  unfold packDw
  have hij : i * m + j < m * m := block_lt hj hi
  simp only [mul_assoc]
  rw [foldl_blocks size (m * m) (by positivity) (fun p t => at0 a ((t - p * (m * m)) / m * n + (p * m + (t - p * (m * m)) % m))),
    if_pos (block_lt hij hp), (divmod_of hij).1, Nat.add_sub_cancel_left, (divmod_of hj).1, (divmod_of hj).2]

theorem at0_map (N : ℕ) (f : ℕ → K) {t : ℕ} (h : t < N) : at0 ((List.range N).map f) t = f t := by
  unfold at0
  rw [List.getElem?_map, List.getElem?_range h]; rfl

theorem alltoall_at {size chunk : ℕ} (send : ℕ → List K) (r : ℕ) {q t : ℕ} (hq : q < size) (ht : t < chunk) :
    at0 (alltoall size chunk send r) (q * chunk + t) = at0 (send q) (r * chunk + t) := by
  unfold alltoall
  rw [at0_map _ _ (block_lt ht hq), (divmod_of ht).1, (divmod_of ht).2]

theorem alltoall_length (size chunk : ℕ) (send : ℕ → List K) (r : ℕ) : (alltoall size chunk send r).length = size * chunk := by
  simp [alltoall]

theorem collectDw_at {size m n : ℕ} (hs : 0 < size) (hm : 0 < m) (hn : m * size = n) (junk : ℕ → ℕ → K) (a : ℕ → List K) :
    ∃ a', collectDw size m n junk a = .ok a' ∧ ∀ r < size, (a' r).length = n * m ∧
      ∀ q < size, ∀ i < m, ∀ j < m, at0 (a' r) ((q * m + i) * m + j) = at0 (a q) (i * n + (r * m + j)) := by
  have hb : n / size = m := by rw [← hn, Nat.mul_div_cancel _ hs]
  refine ⟨_, by unfold collectDw; rw [if_neg (by simpa using hn)], fun r hr => ⟨?_, fun q hq i hi j hj => ?_⟩⟩
  · simp only [hb]; rw [alltoall_length, ← hn]; ring
  · simp only [hb]
    have hij : i * m + j < m * m := block_lt hj hi
    rw [show (q * m + i) * m + j = q * (m * m) + (i * m + j) by ring, alltoall_at _ _ hq hij, at0_map, packDw_eq hm _ _ hr hi hj]
    rw [show n * m = size * (m * m) by rw [← hn]; ring]
    exact block_lt hij hr

theorem unpackUp_eq {size m n : ℕ} (hn : 0 < n) (hs : 0 < size) (hmn : m = n * size) (b : List K) (a : ℕ → K) {p q j : ℕ} (hp : p < n)
    (hq : q < size) (hj : j < n) : unpackUp size m n n b a (p * m + (q * n + j)) = at0 b (q * (n * n) + (p * n + j)) := by
  unfold unpackUp
  have hlt : q * n + j < m := by rw [hmn, mul_comm n]; exact block_lt hj hq
  rw [foldl_blocks n m (by rw [hmn]; positivity) (fun p t => at0 b ((t - p * m) / n * (n * n) + (p * n + (t - p * m) % n))),
    if_pos (block_lt hlt hp), (divmod_of hlt).1, Nat.add_sub_cancel_left, (divmod_of hj).1, (divmod_of hj).2]

theorem collectUp_at {size m n : ℕ} (hs : 0 < size) (hn : 0 < n) (hmn : m = n * size) (a : ℕ → List K) :
    ∃ a', collectUp size m n a = .ok a' ∧ ∀ r < size, (a' r).length = n * m ∧
      ∀ q < size, ∀ i < n, ∀ j < n, at0 (a' r) (i * m + (q * n + j)) = at0 (a q) ((r * n + i) * n + j) := by
  have hb : m / size = n := by rw [hmn, Nat.mul_div_cancel _ hs]
  refine ⟨_, by unfold collectUp; rw [if_neg (by simpa using hmn)], fun r hr => ⟨by simp, fun q hq i hi j hj => ?_⟩⟩
  simp only [hb]
  have hlt : q * n + j < m := by rw [hmn, mul_comm n]; exact block_lt hj hq
  have hij : i * n + j < n * n := block_lt hj hi
  rw [at0_map _ _ (block_lt hlt hi), unpackUp_eq hn hs hmn _ _ hi hq hj, alltoall_at _ _ hq hij]
  congr 1; ring

end Edpyt
