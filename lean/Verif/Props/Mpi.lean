import Verif.Proof.Mpi
import Verif.Props.Matvec
/-!
C45, C46: distributed transposition and matrix-vector product.
-/
namespace Edpyt
variable {K : Type} [Field K]

/-- Rank `r` holds rows `r*m, …, r*m+m-1` of the matrix `M` with `n` columns, as a flat C ordered buffer. -/
structure HoldsRows (M : ℕ → ℕ → K) (m n r : ℕ) (buf : List K) : Prop where
  length : buf.length = m * n
  elem : ∀ i < m, ∀ c < n, buf[i * n + c]? = some (M (r * m + i) c)

/-- Rank `r` holds columns `r*m, …, r*m+m-1` of the matrix `M` with `n` rows, as a flat C ordered buffer. -/
structure HoldsCols (M : ℕ → ℕ → K) (m n r : ℕ) (buf : List K) : Prop where
  length : buf.length = n * m
  elem : ∀ g < n, ∀ j < m, buf[g * m + j]? = some (M g (r * m + j))

theorem at0_some {a : List K} {i : ℕ} {x : K} (h : a[i]? = some x) : at0 a i = x := by unfold at0; rw [h]; rfl

theorem some_at0 {a : List K} {i : ℕ} (h : i < a.length) : a[i]? = some (at0 a i) := by
  unfold at0; rw [List.getElem?_eq_getElem h]; rfl

/-- C45: `collect_dw` turns the row distribution of a matrix into its column distribution. -/
theorem C45_collect_dw {size m n : ℕ} (hs : 0 < size) (hm : 0 < m) (hn : n = m * size) (junk : ℕ → ℕ → K) (M : ℕ → ℕ → K) (a : ℕ → List K)
    (ha : ∀ r < size, HoldsRows M m n r (a r)) :
    ∃ a', collectDw size m n junk a = .ok a' ∧ ∀ r < size, HoldsCols M m n r (a' r) := by
  obtain ⟨a', h1, h2⟩ := collectDw_at hs hm hn.symm junk a
  refine ⟨a', h1, fun r hr => ⟨(h2 r hr).1, fun g hg j hj => ?_⟩⟩
  have hgm : g / m * m + g % m = g := Nat.div_add_mod' g m
  have hq : g / m < size := Nat.div_lt_of_lt_mul (by rw [← hn]; exact hg)
  have hi : g % m < m := Nat.mod_lt _ hm
  have hc : r * m + j < n := by rw [hn, mul_comm m]; exact block_lt hj hr
  rw [some_at0 (by rw [(h2 r hr).1]; exact block_lt hj hg)]
  have := (h2 r hr).2 _ hq _ hi j hj
  rw [hgm] at this
  rw [this, at0_some ((ha _ hq).elem _ hi _ hc), hgm]

/-- C45: `collect_up` turns the column distribution back into the row distribution. -/
theorem C45_collect_up {size m n : ℕ} (hs : 0 < size) (hm : 0 < m) (hn : n = m * size) (M : ℕ → ℕ → K) (a : ℕ → List K)
    (ha : ∀ r < size, HoldsCols M m n r (a r)) :
    ∃ a', collectUp size n m a = .ok a' ∧ ∀ r < size, HoldsRows M m n r (a' r) := by
  obtain ⟨a', h1, h2⟩ := collectUp_at hs hm hn a
  refine ⟨a', h1, fun r hr => ⟨(h2 r hr).1, fun i hi c hc => ?_⟩⟩
  have hgm : c / m * m + c % m = c := Nat.div_add_mod' c m
  have hq : c / m < size := Nat.div_lt_of_lt_mul (by rw [← hn]; exact hc)
  have hj : c % m < m := Nat.mod_lt _ hm
  have hg : r * m + i < n := by rw [hn, mul_comm m]; exact block_lt hi hr
  rw [some_at0 (by rw [(h2 r hr).1]; exact block_lt hc hi)]
  have := (h2 r hr).2 _ hq i hi _ hj
  rw [hgm] at this
  rw [this, at0_some ((ha _ hq).elem _ hg _ hj), hgm]

theorem holdsRows_unique {M : ℕ → ℕ → K} {m n r : ℕ} {a b : List K} (ha : HoldsRows M m n r a) (hb : HoldsRows M m n r b) : a = b := by
  apply List.ext_getElem?
  intro t
  by_cases ht : t < m * n
  · have hn : 0 < n := Nat.pos_of_mul_pos_left (by omega : 0 < m * n)
    have hd : t / n * n + t % n = t := Nat.div_add_mod' t n
    have h1 : t / n < m := Nat.div_lt_of_lt_mul (by rw [mul_comm]; exact ht)
    have h2 : t % n < n := Nat.mod_lt _ hn
    have e1 := ha.elem _ h1 _ h2
    have e2 := hb.elem _ h1 _ h2
    rw [hd] at e1 e2
    rw [e1, e2]
  · rw [List.getElem?_eq_none (by rw [ha.length]; omega), List.getElem?_eq_none (by rw [hb.length]; omega)]

theorem holdsCols_unique {M : ℕ → ℕ → K} {m n r : ℕ} {a b : List K} (ha : HoldsCols M m n r a) (hb : HoldsCols M m n r b) : a = b := by
  apply List.ext_getElem?
  intro t
  by_cases ht : t < n * m
  · have hn : 0 < m := Nat.pos_of_mul_pos_left (by omega : 0 < n * m)
    have hd : t / m * m + t % m = t := Nat.div_add_mod' t m
    have h1 : t / m < n := Nat.div_lt_of_lt_mul (by rw [mul_comm]; exact ht)
    have h2 : t % m < m := Nat.mod_lt _ hn
    have e1 := ha.elem _ h1 _ h2
    have e2 := hb.elem _ h1 _ h2
    rw [hd] at e1 e2
    rw [e1, e2]
  · rw [List.getElem?_eq_none (by rw [ha.length]; omega), List.getElem?_eq_none (by rw [hb.length]; omega)]

/-- The matrix whose rows the buffers hold. -/
def rowsOf (m n : ℕ) (a : ℕ → List K) : ℕ → ℕ → K := fun g c => at0 (a (g / m)) (g % m * n + c)

/-- The matrix whose columns the buffers hold. -/
def colsOf (m : ℕ) (a : ℕ → List K) : ℕ → ℕ → K := fun g c => at0 (a (c / m)) (g * m + c % m)

theorem holdsRows_of {size m n : ℕ} (a : ℕ → List K) (ha : ∀ r < size, (a r).length = m * n) :
    ∀ r < size, HoldsRows (rowsOf m n a) m n r (a r) := by
  refine fun r hr => ⟨ha r hr, fun i hi c hc => ?_⟩
  unfold rowsOf
  rw [(divmod_of hi).1, (divmod_of hi).2, some_at0 (by rw [ha r hr]; exact block_lt hc hi)]

theorem holdsCols_of {size m n : ℕ} (a : ℕ → List K) (ha : ∀ r < size, (a r).length = n * m) :
    ∀ r < size, HoldsCols (colsOf m a) m n r (a r) := by
  refine fun r hr => ⟨ha r hr, fun g hg j hj => ?_⟩
  unfold colsOf
  rw [(divmod_of hj).1, (divmod_of hj).2, some_at0 (by rw [ha r hr]; exact block_lt hj hg)]

/-- C45: on all ranks, `collect_up` undoes `collect_dw` and `collect_dw` undoes `collect_up`, for every communicator size, block
size and data. -/
theorem C45_inverse {size m n : ℕ} (hs : 0 < size) (hm : 0 < m) (hn : n = m * size) (junk : ℕ → ℕ → K) (a : ℕ → List K)
    (ha : ∀ r < size, (a r).length = m * n) :
    (∃ b c, collectDw size m n junk a = .ok b ∧ collectUp size n m b = .ok c ∧ ∀ r < size, c r = a r) ∧
    (∃ b c, collectUp size n m a = .ok b ∧ collectDw size m n junk b = .ok c ∧ ∀ r < size, c r = a r) := by
  constructor
  · have hR := holdsRows_of a ha
    obtain ⟨b, h1, h2⟩ := C45_collect_dw hs hm hn junk _ a hR
    obtain ⟨c, h3, h4⟩ := C45_collect_up hs hm hn _ b h2
    exact ⟨b, c, h1, h3, fun r hr => holdsRows_unique (h4 r hr) (hR r hr)⟩
  · have hC := holdsCols_of (n := n) a (fun r hr => by rw [ha r hr, mul_comm])
    obtain ⟨b, h1, h2⟩ := C45_collect_up hs hm hn _ a hC
    obtain ⟨c, h3, h4⟩ := C45_collect_dw hs hm hn junk _ b h2
    exact ⟨b, c, h1, h3, fun r hr => holdsCols_unique (h4 r hr) (hC r hr)⟩

/-- C45: arrays whose shapes do not fit are refused on every rank. -/
theorem C45_refuses {size m n : ℕ} (hn : n ≠ m * size) (junk : ℕ → ℕ → K) (a : ℕ → List K) :
    collectDw size m n junk a = .error .assertionError ∧ collectUp size n m a = .error .assertionError := by
  unfold collectDw collectUp
  rw [if_pos (fun h => hn h.symm), if_pos hn]
  exact ⟨rfl, rfl⟩

/-- The docstring's example: two ranks, a 6 × 6 matrix. -/
example : ∃ a', collectDw (K := ℚ) 2 3 6 (fun _ _ => 7) (fun r => (List.range 18).map fun t => ((18 * r + t : ℕ) : ℚ)) = .ok a' ∧
    a' 1 = [3, 4, 5, 9, 10, 11, 15, 16, 17, 21, 22, 23, 27, 28, 29, 33, 34, 35] := by
  refine ⟨_, rfl, ?_⟩
  decide +kernel

/-! ### The matrix-vector product -/

/-- The part of a vector of length `n * n` that rank `r` holds when the down index is divided in blocks of `m`. -/
def slice (m n r : ℕ) (l : List K) : List K := (l.drop (r * (m * n))).take (m * n)

theorem slice_holds {size m n : ℕ} (hn : n = m * size) {l : List K} (hl : l.length = n * n) {M : ℕ → ℕ → K}
    (hM : ∀ g < n, ∀ c < n, l[g * n + c]? = some (M g c)) {r : ℕ} (hr : r < size) : HoldsRows M m n r (slice m n r l) := by
  have hle : r * (m * n) + m * n ≤ n * n := by
    have : (r + 1) * (m * n) ≤ size * (m * n) := Nat.mul_le_mul_right _ hr
    calc r * (m * n) + m * n = (r + 1) * (m * n) := by ring
      _ ≤ size * (m * n) := this
      _ = m * size * n := by ring
      _ = n * n := by rw [← hn]
  refine ⟨by unfold slice; rw [List.length_take, List.length_drop]; omega, fun i hi c hc => ?_⟩
  unfold slice
  rw [List.getElem?_take_of_lt (block_lt hc hi), List.getElem?_drop]
  have hg : r * m + i < n := by rw [hn, mul_comm m]; exact block_lt hi hr
  rw [← hM _ hg _ hc]
  congr 1; ring

/-- The serial product, element by element. -/
theorem serial_elem {n : ℕ} (hpos : 0 < n) {A B : Csr K} (hA : A.WF) (hB : B.WF) (hAc : A.cols = A.rows) (hBc : B.cols = B.rows) (hAr : A.rows = n)
    (hBr : B.rows = n) {diag vec result : List K} (hd : diag.length = n * n) (hv : vec.length = n * n)
    (h : MatvecOperator [.loc diag, .up A n, .dw B n] vec result) : result.length = n * n ∧ ∀ g < n, ∀ c < n, result[g * n + c]? =
      some (at0 diag (g * n + c) * at0 vec (g * n + c) + ∑ j ∈ Finset.range n, A.dense c j * at0 vec (g * n + j)
        + ∑ j ∈ Finset.range n, B.dense g j * at0 vec (j * n + c)) := by
  obtain ⟨junk, hj, h⟩ := h
  cases h with
  | cons _ _ _ out1 _ h1 t =>
    cases t with
    | cons _ _ _ out2 _ h2 t =>
      cases t with
      | cons _ _ _ out3 _ h3 t =>
        cases t
        simp only [Op.Matvec] at h1 h2 h3
        have hl1 : out1.length = n * n := by rw [h1, List.length_zipWith, hd, hv, Nat.min_self]
        obtain ⟨g1, g2⟩ := C26_UPmultiply A hA hAc n (by omega) vec out1 out2 (by rw [hv, hAr]) (by rw [hl1, hAr]) h2
        obtain ⟨k1, k2⟩ := C26_DWmultiply B hB hBc n (by omega) vec out2 result (by rw [hv, hBr]) (by rw [g1, hl1, hBr]) h3
        refine ⟨by rw [k1, g1, hl1], fun g hg c hc => ?_⟩
        have e2 := g2 g c hg (by omega)
        rw [hAr] at e2
        rw [k2 g c (by omega) hc, e2, hBr]
        have e1 : out1[g * n + c]?.getD 0 = at0 diag (g * n + c) * at0 vec (g * n + c) := by
          have hlt := block_lt hc hg
          rw [h1, List.getElem?_zipWith, some_at0 (by rw [hd]; exact hlt), some_at0 (by rw [hv]; exact hlt)]; rfl
        rw [e1]; rfl

/-- C46: if the sector has as many up as down states and the number of ranks divides this number, every run of the
distributed product (any communicator size, operators, vectors and thread schedules) returns on each rank its slice of the
serial product, and leaves the caller's vector as it was. -/
theorem C46_mpi_matvec {size n : ℕ} (hs : 0 < size) (hdiv : size ∣ n) (hpos : 0 < n) {A B : Csr K} (hA : A.WF) (hB : B.WF)
    (hAc : A.cols = A.rows) (hBc : B.cols = B.rows) (hAr : A.rows = n) (hBr : B.rows = n) {diag vec result : List K}
    (hd : diag.length = n * n) (hv : vec.length = n * n) (hser : MatvecOperator [.loc diag, .up A n, .dw B n] vec result)
    {out : Except PyErr (MpiOut K)}
    (hrun : MatvecMpi size (fun r => slice (n / size) n r diag) A B (fun r => slice (n / size) n r vec) out) :
    ∃ o, out = .ok o ∧ ∀ r < size, o.res r = slice (n / size) n r result ∧ o.vec r = slice (n / size) n r vec := by
  obtain ⟨m, hm⟩ := hdiv
  have hnm : n = m * size := by rw [hm, mul_comm]
  have hmd : n / size = m := by rw [hm, Nat.mul_div_cancel_left _ hs]
  have hm0 : 0 < m := Nat.pos_of_mul_pos_right (by omega : 0 < m * size)
  rw [hmd] at hrun ⊢
  obtain ⟨hsl, hse⟩ := serial_elem hpos hA hB hAc hBc hAr hBr hd hv hser
  have hvM : ∀ g < n, ∀ c < n, vec[g * n + c]? = some (at0 vec (g * n + c)) := fun g hg c hc => some_at0 (by rw [hv]; exact block_lt hc hg)
  have hdM : ∀ g < n, ∀ c < n, diag[g * n + c]? = some (at0 diag (g * n + c)) := fun g hg c hc => some_at0 (by rw [hd]; exact block_lt hc hg)
  cases hrun with
  | shape h => exact absurd (hAr.trans hBr.symm) h
  | ranks _ h2 => exact absurd (by rw [hBr, hm, Nat.mul_mod_right]) h2
  | run h h2 j1 j2 res1 vec2 res2 res3 vec4 res4 h3 h4 h5 h6 h7 h8 =>
    refine ⟨_, rfl, fun r hr => ?_⟩
    rw [hAr, hBr, hmd] at h4 h5 h7 h8
    have hvr : ∀ r < size, HoldsRows (fun g c => at0 vec (g * n + c)) m n r (slice m n r vec) := fun r hr => slice_holds hnm hv hvM hr
    have hdr : ∀ r < size, HoldsRows (fun g c => at0 diag (g * n + c)) m n r (slice m n r diag) := fun r hr => slice_holds hnm hd hdM hr
    have hr1 : ∀ r < size, HoldsRows (fun g c => at0 diag (g * n + c) * at0 vec (g * n + c)
        + ∑ j ∈ Finset.range n, A.dense c j * at0 vec (g * n + j)) m n r (res1 r) := by
      intro r hr
      have hzl : (List.zipWith (· * ·) (slice m n r diag) (slice m n r vec)).length = m * n := by
        rw [List.length_zipWith, (hdr r hr).length, (hvr r hr).length, Nat.min_self]
      obtain ⟨g1, g2⟩ := C26_UPmultiply A hA hAc m (by omega) _ _ _ (by rw [(hvr r hr).length, hAr]) (by rw [hzl, hAr]) (h3 r hr)
      refine ⟨by rw [g1, hzl], fun i hi c hc => ?_⟩
      have e := g2 i c hi (by omega)
      rw [hAr] at e
      rw [e, List.getElem?_zipWith, (hdr r hr).elem i hi c hc, (hvr r hr).elem i hi c hc]
      simp only [Option.getD_some]
      congr 2
      exact Finset.sum_congr rfl fun j hj => by rw [(hvr r hr).elem i hi j (Finset.mem_range.mp hj)]; rfl
    obtain ⟨v', hv1, hv2⟩ := C45_collect_dw hs hm0 hnm j1 _ _ hvr
    obtain rfl : v' = vec2 := by rw [hv1] at h4; exact Except.ok.inj h4
    obtain ⟨r', hr2, hr3⟩ := C45_collect_dw hs hm0 hnm j2 _ _ hr1
    obtain rfl : r' = res2 := by rw [hr2] at h5; exact Except.ok.inj h5
    have hr4 : ∀ r < size, HoldsCols (fun g c => at0 diag (g * n + c) * at0 vec (g * n + c)
        + ∑ j ∈ Finset.range n, A.dense c j * at0 vec (g * n + j) + ∑ j ∈ Finset.range n, B.dense g j * at0 vec (j * n + c)) m n r (res3 r) := by
      intro r hr
      obtain ⟨g1, g2⟩ := C26_DWmultiply B hB hBc m (by omega) _ _ _ (by rw [(hv2 r hr).length, hBr]) (by rw [(hr3 r hr).length, hBr]) (h6 r hr)
      refine ⟨by rw [g1, (hr3 r hr).length], fun g hg j hj => ?_⟩
      rw [g2 g j (by omega) hj, (hr3 r hr).elem g hg j hj, hBr]
      simp only [Option.getD_some]
      congr 2
      exact Finset.sum_congr rfl fun j' hj' => by rw [(hv2 r hr).elem j' (Finset.mem_range.mp hj') j hj]; rfl
    obtain ⟨v4, hv3, hv4⟩ := C45_collect_up hs hm0 hnm _ _ hv2
    obtain rfl : v4 = vec4 := by rw [hv3] at h7; exact Except.ok.inj h7
    obtain ⟨r4, hr5, hr6⟩ := C45_collect_up hs hm0 hnm _ _ hr4
    obtain rfl : r4 = res4 := by rw [hr5] at h8; exact Except.ok.inj h8
    exact ⟨holdsRows_unique (hr6 r hr) (slice_holds hnm hsl hse hr), holdsRows_unique (hv4 r hr) (hvr r hr)⟩

/-- A run always exists under the hypotheses of `C46_mpi_matvec`, so the theorem is about something. -/
theorem C46_exists (size : ℕ) (diag : ℕ → List K) (A B : Csr K) (vec : ℕ → List K) : ∃ out, MatvecMpi size diag A B vec out := by
  by_cases h : A.rows = B.rows
  · by_cases h2 : B.rows % size = 0
    · have hsh : B.rows / size * size = A.rows := by rw [h]; exact Nat.div_mul_cancel (Nat.dvd_of_mod_eq_zero h2)
      choose res1 h3 using fun r => kRun_exists (upMultiplyOps A (vec r).length) (vec r) (List.zipWith (· * ·) (diag r) (vec r))
      have hdw : ∀ a : ℕ → List K, ∃ a', collectDw size (B.rows / size) A.rows (fun _ _ => 0) a = .ok a' := fun a =>
        ⟨_, by unfold collectDw; rw [if_neg (by simpa using hsh)]⟩
      have hup : ∀ a : ℕ → List K, ∃ a', collectUp size A.rows (B.rows / size) a = .ok a' := fun a =>
        ⟨_, by unfold collectUp; rw [if_neg (by simpa using hsh.symm)]⟩
      obtain ⟨vec2, h4⟩ := hdw vec
      obtain ⟨res2, h5⟩ := hdw res1
      choose res3 h6 using fun r => kRun_exists (dwMultiplyOps B (vec2 r).length) (vec2 r) (res2 r)
      obtain ⟨vec4, h7⟩ := hup vec2
      obtain ⟨res4, h8⟩ := hup res3
      exact ⟨_, .run h h2 _ _ res1 vec2 res2 res3 vec4 res4 (fun r _ => h3 r) h4 h5 (fun r _ => h6 r) h7 h8⟩
    · exact ⟨_, .ranks h h2⟩
  · exact ⟨_, .shape h⟩

/-- C46: a sector with different numbers of up and down states is refused, and so is a communicator whose size does not
divide them. -/
theorem C46_refuses {size : ℕ} {diag : ℕ → List K} {A B : Csr K} {vec : ℕ → List K} {out : Except PyErr (MpiOut K)}
    (hrun : MatvecMpi size diag A B vec out) :
    (A.rows ≠ B.rows → out = .error .notImplemented) ∧ (A.rows = B.rows → ¬ size ∣ B.rows → out = .error .valueError) := by
  cases hrun with
  | shape h => exact ⟨fun _ => rfl, fun h2 => absurd h2 h⟩
  | ranks h h2 => exact ⟨fun h3 => absurd h h3, fun _ _ => rfl⟩
  | run h h2 => exact ⟨fun h3 => absurd h h3, fun _ h3 => absurd (Nat.dvd_of_mod_eq_zero h2) h3⟩

end Edpyt
