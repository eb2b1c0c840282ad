import Verif.Model.Matvec
import Verif.Proof.NonLocalN
import Verif.Proof.Par
/-!
Sparse kernels and operators.
-/
namespace Edpyt

variable {K : Type} [Field K]

/-- A usable CSR matrix: row pointers address the arrays and column indices are in range. -/
structure Csr.WF (m : Csr K) : Prop where
  ptr : ∀ i, i < m.rows → ∀ p ∈ m.rowRange i, 0 ≤ p ∧ p.toNat < m.data.length ∧ p.toNat < m.indices.length
  idx : ∀ x ∈ m.indices, 0 ≤ x ∧ x < m.cols

theorem Csr.WF.col {m : Csr K} (h : m.WF) {i : ℕ} (hi : i < m.rows) {p : ℤ} (hp : p ∈ m.rowRange i) :
    ∃ j : ℕ, j < m.cols ∧ m.indices[p.toNat]?.getD (-1) = (j : ℤ) := by
  have h1 := (h.ptr i hi p hp).2.2
  have h2 := h.idx _ (List.getElem_mem h1)
  refine ⟨(m.indices[p.toNat]).toNat, by omega, ?_⟩
  rw [List.getElem?_eq_getElem h1, Option.getD_some]
  omega

theorem row_sum {m : Csr K} (h : m.WF) {i : ℕ} (hi : i < m.rows) (f : ℕ → K) :
    ((m.rowRange i).map fun p => (m.data[p.toNat]?.getD 0) * f (m.indices[p.toNat]?.getD (-1)).toNat).sum =
      ∑ j ∈ Finset.range m.cols, m.dense i j * f j := by
  have hd : ∀ j, m.dense i j = ((m.rowRange i).map fun p =>
    if m.indices[p.toNat]?.getD (-1) = (j : ℤ) then m.data[p.toNat]?.getD 0 else 0).sum := fun j => rfl
  simp only [hd]
  have hc := fun p (hp : p ∈ m.rowRange i) => h.col hi hp
  generalize m.rowRange i = l at hc ⊢
  induction l with
  | nil => simp
  | cons p l ih =>
    obtain ⟨k, hk, e⟩ := hc p (by simp)
    simp only [List.map_cons, List.sum_cons, add_mul, Finset.sum_add_distrib]
    rw [ih (fun p hp => hc p (by simp [hp]))]
    congr 1
    rw [e, Finset.sum_eq_single k]
    · simp
    · intro j _ hj; simp [Ne.symm hj]
    · intro hk'; exact absurd (Finset.mem_range.mpr hk) hk'

/-- Total contribution of kernel statements to cell `l`. -/
def kSum (ops : List (List (KOp K))) (W : List K) (l : ℕ) : K :=
  (ops.map fun it => (it.map fun o => if o.loc = l then o.val * (W[o.src.toNat]?.getD 0) else 0).sum).sum

theorem foldl_kops (ops : List (KOp K)) (W : List K) (l : ℕ) (v : K) :
    ((ops.map (KOp.toMem W)).filter (fun o => o.loc = l)).foldl (fun v o => o.f v) v =
      v + (ops.map fun o => if o.loc = l then o.val * (W[o.src.toNat]?.getD 0) else 0).sum := by
  induction ops generalizing v with
  | nil => simp
  | cons o ops ih =>
    rw [List.map_cons, List.filter_cons]
    by_cases ho : o.loc = l
    · have e : decide ((o.toMem W).loc = l) = true := decide_eq_true (show (o.toMem W).loc = l from ho)
      rw [if_pos e, List.foldl_cons, ih]
      simp [KOp.toMem, ho, add_assoc]
    · have e : ¬ decide ((o.toMem W).loc = l) = true := by rw [decide_eq_true_iff]; exact ho
      rw [if_neg e, ih]
      simp [ho]

theorem sum_flatten_map {α : Type} (ls : List (List α)) (f : α → K) :
    (ls.flatten.map f).sum = (ls.map fun l => (l.map f).sum).sum := by
  induction ls with
  | nil => simp
  | cons l ls ih => rw [List.flatten_cons, List.map_append, List.sum_append, ih, List.map_cons, List.sum_cons]

/-- Iterations write disjoint cells. -/
def KDisjoint (ops : List (List (KOp K))) : Prop :=
  ∀ (i j : ℕ) (a b : KOp K), i ≠ j → a ∈ ops[i]?.getD [] → b ∈ ops[j]?.getD [] → a.loc ≠ b.loc

theorem kRun_eq {ops : List (List (KOp K))} {W res res' : List K} (hd : KDisjoint ops) (h : KRun ops W res res') :
    res'.length = res.length ∧ ∀ l : ℕ, res'[l]? = (res[l]?).map fun v => v + kSum ops W l := by
  obtain ⟨out, hint, rfl⟩ := h
  have hmem : ∀ (i : ℕ) (a : MemOp K), a ∈ (ops.map fun l => l.map (KOp.toMem W))[i]?.getD [] →
      ∃ o ∈ ops[i]?.getD [], o.loc = a.loc := by
    intro i a ha
    rw [List.getElem?_map] at ha
    cases hi : ops[i]? with
    | none => simp [hi] at ha
    | some l =>
      simp only [hi, Option.map_some, Option.getD_some, List.mem_map] at ha ⊢
      obtain ⟨o, ho, rfl⟩ := ha
      exact ⟨o, ho, rfl⟩
  rw [runOps_interleaving hint (by
    intro i j a b hij ha hb
    obtain ⟨o1, h1, e1⟩ := hmem i a ha
    obtain ⟨o2, h2, e2⟩ := hmem j b hb
    rw [← e1, ← e2]
    exact hd i j o1 o2 hij h1 h2)]
  refine ⟨runOps_length _ _, fun l => ?_⟩
  rw [runOps_getElem?]
  congr 1
  funext v
  have : (ops.map fun l => l.map (KOp.toMem W)).flatten = ops.flatten.map (KOp.toMem W) := by
    rw [List.map_flatten]
  rw [this, foldl_kops, sum_flatten_map]
  rfl

theorem mem_range_map {α : Type} {n i : ℕ} {f : ℕ → List α} {a : α} (h : a ∈ ((List.range n).map f)[i]?.getD []) :
    i < n ∧ a ∈ f i := by
  rw [List.getElem?_map] at h
  by_cases hi : i < n
  · rw [List.getElem?_range hi] at h
    exact ⟨hi, by simpa using h⟩
  · rw [List.getElem?_eq_none (by simpa using hi)] at h
    simp at h

theorem upMultiply_disjoint (m : Csr K) (w : ℕ) : KDisjoint (upMultiplyOps m w) := by
  intro i j a b hij ha hb
  obtain ⟨-, ha⟩ := mem_range_map ha
  obtain ⟨-, hb⟩ := mem_range_map hb
  simp only [csrGaxpy, List.mem_flatMap, List.mem_map, List.mem_range] at ha hb
  obtain ⟨r, hr, p, -, rfl⟩ := ha
  obtain ⟨r', hr', p', -, rfl⟩ := hb
  simp only
  intro e
  apply hij
  have h1 := congrArg (· / m.rows) e
  simp only [mul_comm _ m.rows] at h1
  rw [Nat.mul_add_div (by omega), Nat.mul_add_div (by omega), Nat.div_eq_of_lt hr, Nat.div_eq_of_lt hr'] at h1
  omega

theorem dwMultiply_disjoint (m : Csr K) (w : ℕ) : KDisjoint (dwMultiplyOps m w) := by
  intro i j a b hij ha hb
  obtain ⟨-, ha⟩ := mem_range_map ha
  obtain ⟨-, hb⟩ := mem_range_map hb
  simp only [csrSaxpy, List.mem_flatMap, List.mem_map, List.mem_range] at ha hb
  obtain ⟨p, -, r, hr, rfl⟩ := ha
  obtain ⟨p', -, r', hr', rfl⟩ := hb
  simp only
  intro e
  apply hij
  have h1 := congrArg (· / (w / m.rows)) e
  simp only [mul_comm _ (w / m.rows)] at h1
  rw [Nat.mul_add_div (by omega), Nat.mul_add_div (by omega), Nat.div_eq_of_lt hr, Nat.div_eq_of_lt hr'] at h1
  omega

theorem multiply_disjoint (m : Csr K) : KDisjoint (multiplyOps m) := by
  intro i j a b hij ha hb
  obtain ⟨-, ha⟩ := mem_range_map ha
  obtain ⟨-, hb⟩ := mem_range_map hb
  simp only [List.mem_map] at ha hb
  obtain ⟨p, -, rfl⟩ := ha
  obtain ⟨p', -, rfl⟩ := hb
  exact hij

theorem split_index_eq {n a b c d : ℕ} (hb : b < n) (hd : d < n) : a * n + b = c * n + d ↔ a = c ∧ b = d := by
  constructor
  · intro e
    have h1 := congrArg (· / n) e
    simp only [mul_comm _ n] at h1
    rw [Nat.mul_add_div (by omega), Nat.mul_add_div (by omega), Nat.div_eq_of_lt hb, Nat.div_eq_of_lt hd] at h1
    have : a = c := by omega
    subst this
    exact ⟨rfl, by omega⟩
  · rintro ⟨rfl, rfl⟩; rfl

theorem kSum_up {m : Csr K} (h : m.WF) (hsq : m.cols = m.rows) (W : List K) {b i : ℕ} (hb : b < W.length / m.rows) (hi : i < m.rows) :
    kSum (upMultiplyOps m W.length) W (b * m.rows + i) =
      ∑ j ∈ Finset.range m.rows, m.dense i j * (W[b * m.rows + j]?.getD 0) := by
  unfold kSum upMultiplyOps
  rw [List.map_map, sum_map_range, Finset.sum_eq_single b]
  · simp only [Function.comp, csrGaxpy]
    rw [sum_map_flatMap, sum_map_range, Finset.sum_eq_single i]
    · rw [List.map_map, ← hsq, ← row_sum h hi]
      congr 1
      apply List.map_congr_left
      intro p hp
      obtain ⟨j, hj, e⟩ := h.col hi hp
      simp only [Function.comp, if_true, e]
      rw [hsq, Int.toNat_natCast]
      norm_cast
    · intro i' hi' hne
      apply List.sum_eq_zero
      intro x hx
      simp only [List.map_map, List.mem_map, Function.comp] at hx
      obtain ⟨p, -, rfl⟩ := hx
      rw [if_neg]
      rw [split_index_eq (Finset.mem_range.mp hi') hi]
      exact fun hh => hne hh.2
    · intro hh; exact absurd (Finset.mem_range.mpr hi) hh
  · intro b' hb' hne
    simp only [Function.comp, csrGaxpy]
    rw [sum_map_flatMap, sum_map_range]
    apply Finset.sum_eq_zero
    intro i' hi'
    apply List.sum_eq_zero
    intro x hx
    simp only [List.map_map, List.mem_map, Function.comp] at hx
    obtain ⟨p, -, rfl⟩ := hx
    rw [if_neg]
    rw [split_index_eq (Finset.mem_range.mp hi') hi]
    exact fun hh => hne hh.1
  · intro hh; exact absurd (Finset.mem_range.mpr hb) hh

theorem kSum_dw {m : Csr K} (h : m.WF) (hsq : m.cols = m.rows) (W : List K) {s i : ℕ} (hs : s < W.length / m.rows) (hi : i < m.rows) :
    kSum (dwMultiplyOps m W.length) W (i * (W.length / m.rows) + s) =
      ∑ j ∈ Finset.range m.rows, m.dense i j * (W[j * (W.length / m.rows) + s]?.getD 0) := by
  unfold kSum dwMultiplyOps
  generalize hn : W.length / m.rows = n at hs
  rw [List.map_map, sum_map_range, Finset.sum_eq_single i]
  · simp only [Function.comp, csrSaxpy]
    rw [sum_map_flatMap]
    rw [← hsq, ← row_sum h hi]
    congr 1
    apply List.map_congr_left
    intro p hp
    obtain ⟨j, hj, e⟩ := h.col hi hp
    rw [List.map_map, sum_map_range, Finset.sum_eq_single s]
    · simp only [Function.comp, if_true, e]
      rw [Int.toNat_natCast]
      norm_cast
    · intro s' hs' hne
      simp only [Function.comp]
      rw [if_neg]
      rw [split_index_eq (Finset.mem_range.mp hs') hs]
      exact fun hh => hne hh.2
    · intro hh; exact absurd (Finset.mem_range.mpr hs) hh
  · intro i' hi' hne
    simp only [Function.comp, csrSaxpy]
    rw [sum_map_flatMap]
    apply List.sum_eq_zero
    intro x hx
    obtain ⟨p, hp, rfl⟩ := List.mem_map.mp hx
    rw [List.map_map, sum_map_range]
    apply Finset.sum_eq_zero
    intro s' hs'
    simp only [Function.comp]
    rw [if_neg]
    rw [split_index_eq (Finset.mem_range.mp hs') hs]
    exact fun hh => hne hh.1
  · intro hh; exact absurd (Finset.mem_range.mpr hi) hh

theorem kSum_mul {m : Csr K} (h : m.WF) (W : List K) {i : ℕ} (hi : i < m.rows) :
    kSum (multiplyOps m) W i = ∑ j ∈ Finset.range m.cols, m.dense i j * (W[j]?.getD 0) := by
  unfold kSum multiplyOps
  rw [List.map_map, sum_map_range, Finset.sum_eq_single i]
  · simp only [Function.comp]
    rw [List.map_map, ← row_sum h hi]
    congr 1
    apply List.map_congr_left
    intro p hp
    simp
  · intro i' hi' hne
    simp only [Function.comp]
    rw [List.map_map]
    apply List.sum_eq_zero
    intro x hx
    obtain ⟨p, hp, rfl⟩ := List.mem_map.mp hx
    simp [hne]
  · intro hh; exact absurd (Finset.mem_range.mpr hi) hh

theorem sum_range_mul' {M : Type} [AddCommMonoid M] (a n : ℕ) (f : ℕ → M) :
    ∑ c ∈ Finset.range (a * n), f c = ∑ b ∈ Finset.range a, ∑ j ∈ Finset.range n, f (b * n + j) := by
  induction a with
  | zero => simp
  | succ a ih => rw [Nat.succ_mul, Finset.sum_range_add, ih, Finset.sum_range_succ]

/-- An operator whose arrays are usable and whose dimension is `N`. -/
def Op.WF (N : ℕ) : Op K → Prop
  | .loc d => d.length = N
  | .up A dwn => A.WF ∧ A.cols = A.rows ∧ 0 < A.rows ∧ dwn * A.rows = N
  | .dw A dup => A.WF ∧ A.cols = A.rows ∧ 0 < A.rows ∧ A.rows * dup = N
  | .non A => A.WF ∧ A.cols = A.rows ∧ A.rows = N

/-- Dense form of any operator (`Local.todense` is `np.diag`). -/
def Op.val : Op K → ℕ → ℕ → K
  | .loc d => fun i j => if i = j then d[i]?.getD 0 else 0
  | .up A _ => fun i j => (if i / A.rows = j / A.rows then 1 else 0) * A.dense (i % A.rows) (j % A.rows)
  | .dw A dup => fun i j => A.dense (i / dup) (j / dup) * (if i % dup = j % dup then 1 else 0)
  | .non A => A.dense

theorem divmod_split {n b i : ℕ} (hi : i < n) : (b * n + i) / n = b ∧ (b * n + i) % n = i := by
  constructor
  · rw [mul_comm, Nat.mul_add_div (by omega), Nat.div_eq_of_lt hi, add_zero]
  · rw [mul_comm, Nat.mul_add_mod, Nat.mod_eq_of_lt hi]

theorem lt_mul_split {n N r : ℕ} (h : r < N * n) : ∃ b i, b < N ∧ i < n ∧ r = b * n + i := by
  have hn : 0 < n := by
    rcases Nat.eq_zero_or_pos n with rfl | h'
    · simp at h
    · exact h'
  refine ⟨r / n, r % n, Nat.div_lt_of_lt_mul (by rwa [mul_comm] at h), Nat.mod_lt _ hn, ?_⟩
  rw [mul_comm]; exact (Nat.div_add_mod r n).symm

/-- `op.matvec` of the two-dimensional operators accumulates, of `Local` overwrites. -/
theorem op_matvec {N : ℕ} {op : Op K} (hop : op.WF N) {vec out out' : List K} (hv : vec.length = N) (ho : out.length = N)
    (h : op.Matvec vec out out') : out'.length = N ∧ ∀ r, r < N → out'[r]?.getD 0 =
      (match op with | .loc _ => 0 | _ => out[r]?.getD 0) + ∑ c ∈ Finset.range N, op.val r c * (vec[c]?.getD 0) := by
  cases op with
  | loc d =>
    simp only [Op.WF] at hop
    simp only [Op.Matvec] at h
    subst h
    refine ⟨by rw [List.length_zipWith, hop, hv, Nat.min_self], fun r hr => ?_⟩
    rw [Finset.sum_eq_single r]
    · simp only [Op.val, if_true, zero_add]
      rw [List.getElem?_zipWith, List.getElem?_eq_getElem (by omega), List.getElem?_eq_getElem (by omega)]
      rfl
    · intro c _ hc; simp [Op.val, Ne.symm hc]
    · intro hh; exact absurd (Finset.mem_range.mpr hr) hh
  | up A dwn =>
    obtain ⟨h1, h2, h3, h4⟩ := hop
    obtain ⟨g1, g2⟩ := kRun_eq (upMultiply_disjoint A vec.length) h
    refine ⟨by omega, fun r hr => ?_⟩
    rw [g2, List.getElem?_eq_getElem (by omega)]
    simp only [Option.map_some, Option.getD_some]
    congr 1
    rw [← h4] at hr
    obtain ⟨b, i, hb, hi, rfl⟩ := lt_mul_split hr
    have hdiv : vec.length / A.rows = dwn := by rw [hv, ← h4, Nat.mul_div_cancel _ h3]
    rw [kSum_up h1 h2 vec (by rwa [hdiv]) hi, ← h4, sum_range_mul']
    symm
    rw [Finset.sum_eq_single b]
    · apply Finset.sum_congr rfl
      intro j hj
      have hj := Finset.mem_range.mp hj
      simp only [Op.val, (divmod_split (b := b) hi), (divmod_split (b := b) hj), if_true, one_mul]
    · intro b' _ hne
      apply Finset.sum_eq_zero
      intro j hj
      have hj := Finset.mem_range.mp hj
      simp only [Op.val, (divmod_split (b := b) hi), (divmod_split (b := b') hj), if_neg (Ne.symm hne), zero_mul]
    · intro hh; exact absurd (Finset.mem_range.mpr hb) hh
  | dw A dup =>
    obtain ⟨h1, h2, h3, h4⟩ := hop
    obtain ⟨g1, g2⟩ := kRun_eq (dwMultiply_disjoint A vec.length) h
    refine ⟨by omega, fun r hr => ?_⟩
    rw [g2, List.getElem?_eq_getElem (by omega)]
    simp only [Option.map_some, Option.getD_some]
    congr 1
    rw [← h4] at hr
    obtain ⟨b, i, hb, hi, rfl⟩ := lt_mul_split hr
    have hdiv : vec.length / A.rows = dup := by rw [hv, ← h4, Nat.mul_div_cancel_left _ h3]
    have key := kSum_dw h1 h2 vec (s := i) (i := b) (by rwa [hdiv]) hb
    rw [hdiv] at key
    rw [key, ← h4, sum_range_mul']
    apply Finset.sum_congr rfl
    intro j hj
    symm
    rw [Finset.sum_eq_single i]
    · simp only [Op.val, (divmod_split (b := b) hi), (divmod_split (b := j) hi), if_true, mul_one]
    · intro s hs hne
      have hs := Finset.mem_range.mp hs
      simp only [Op.val, (divmod_split (b := b) hi), (divmod_split (b := j) hs), if_neg (Ne.symm hne), mul_zero, zero_mul]
    · intro hh; exact absurd (Finset.mem_range.mpr hi) hh
  | non A =>
    obtain ⟨h1, h2, h3⟩ := hop
    obtain ⟨g1, g2⟩ := kRun_eq (multiply_disjoint A) h
    refine ⟨by omega, fun r hr => ?_⟩
    rw [g2, List.getElem?_eq_getElem (by omega)]
    simp only [Option.map_some, Option.getD_some]
    congr 1
    rw [kSum_mul h1 vec (by omega), h2, h3]
    rfl

theorem opsRun_acc {N : ℕ} {vec : List K} (hv : vec.length = N) (ops : List (Op K)) (hops : ∀ op ∈ ops, op.WF N ∧ op.diag1 = none)
    {out out' : List K} (ho : out.length = N) (h : OpsRun vec ops out out') :
    out'.length = N ∧ ∀ r, r < N → out'[r]?.getD 0 = out[r]?.getD 0 +
      ∑ c ∈ Finset.range N, (ops.map fun op => op.val r c).sum * (vec[c]?.getD 0) := by
  induction h with
  | nil out => exact ⟨ho, by simp⟩
  | cons op ops out out1 out2 h t ih =>
    obtain ⟨hw, hn⟩ := hops op (by simp)
    obtain ⟨a1, a2⟩ := op_matvec hw hv ho h
    obtain ⟨b1, b2⟩ := ih (fun o ho => hops o (by simp [ho])) a1
    refine ⟨b1, fun r hr => ?_⟩
    rw [b2 r hr, a2 r hr]
    simp only [List.map_cons, List.sum_cons, add_mul, Finset.sum_add_distrib]
    cases op with
    | loc d => simp [Op.diag1] at hn
    | up A d => ring
    | dw A d => ring
    | non A => ring

/-- `Local` first, then accumulating operators. -/
theorem matvecOperator_eq {N : ℕ} {d : List K} {ops : List (Op K)} (hd : d.length = N)
    (hops : ∀ op ∈ ops, op.WF N ∧ op.diag1 = none) {vec result : List K} (hv : vec.length = N)
    (h : MatvecOperator (.loc d :: ops) vec result) :
    result.length = N ∧ ∀ r, r < N → result[r]?.getD 0 =
      ∑ c ∈ Finset.range N, ((Op.loc d :: ops).map fun op => op.val r c).sum * (vec[c]?.getD 0) := by
  obtain ⟨junk, hj, h⟩ := h
  cases h with
  | cons _ _ _ out1 _ h t =>
    obtain ⟨a1, a2⟩ := op_matvec (op := .loc d) (N := N) hd hv (by omega) h
    obtain ⟨b1, b2⟩ := opsRun_acc hv ops hops a1 t
    refine ⟨b1, fun r hr => ?_⟩
    rw [b2 r hr, a2 r hr]
    simp only [List.map_cons, List.sum_cons, add_mul, Finset.sum_add_distrib, zero_add]

theorem dense2_some {N : ℕ} {op : Op K} (hop : op.WF N) (hn : op.diag1 = none) :
    op.dense2 = some ⟨N, op.val⟩ := by
  cases op with
  | loc d => simp [Op.diag1] at hn
  | up A dwn => simp only [Op.WF] at hop; simp only [Op.dense2, Op.val, hop.2.2.2]
  | dw A dup => simp only [Op.WF] at hop; simp only [Op.dense2, Op.val, hop.2.2.2]
  | non A => simp only [Op.WF] at hop; simp only [Op.dense2, Op.val, hop.2.2]

theorem forM'_addDense {N : ℕ} (ops : List (Op K)) (hops : ∀ op ∈ ops, op.WF N ∧ op.diag1 = none) (f : ℕ → ℕ → K) :
    forM' addDense (ops.map fun op => (⟨N, op.val⟩ : Dense K)) ⟨N, f⟩ =
      .ok ⟨N, fun i j => f i j + (ops.map fun op => op.val i j).sum⟩ := by
  induction ops generalizing f with
  | nil => simp [forM']
  | cons op ops ih =>
    simp only [List.map_cons, forM', addDense, if_true, List.sum_cons, bind, Except.bind]
    rw [ih (fun o ho => hops o (by simp [ho]))]
    simp only [add_assoc]

/-- `todense` of `Local` followed by at least one two-dimensional operator. -/
theorem todense_eq {N : ℕ} {d : List K} {ops : List (Op K)} (hne : ops ≠ []) (hd : d.length = N)
    (hops : ∀ op ∈ ops, op.WF N ∧ op.diag1 = none) :
    todense (.loc d :: ops) = .ok ⟨N, fun i j => ((Op.loc d :: ops).map fun op => op.val i j).sum⟩ := by
  have h1 : (Op.loc d :: ops).filterMap Op.dense2 = ops.map fun op => (⟨N, op.val⟩ : Dense K) := by
    rw [List.filterMap_cons]
    simp only [Op.dense2]
    clear hne
    induction ops with
    | nil => rfl
    | cons op ops ih =>
      rw [List.filterMap_cons, dense2_some (hops op (by simp)).1 (hops op (by simp)).2]
      simp only [List.map_cons]
      rw [ih (fun o ho => hops o (by simp [ho]))]
  have h2 : (Op.loc d :: ops).filterMap Op.diag1 = [d] := by
    rw [List.filterMap_cons]
    simp only [Op.diag1]
    congr 1
    rw [List.filterMap_eq_nil_iff]
    intro o ho; exact (hops o ho).2
  unfold todense
  rw [h1, h2]
  obtain ⟨init, last, rfl⟩ : ∃ init last, ops = init ++ [last] := by
    rcases List.eq_nil_or_concat ops with h | ⟨i, l, h⟩
    · exact absurd h hne
    · exact ⟨i, l, by rw [h, List.concat_eq_append]⟩
  simp only [List.map_append, List.map_cons, List.map_nil, List.getLast?_append, List.getLast?_singleton, Option.some_or,
    List.dropLast_concat]
  rw [forM'_addDense init (fun o ho => hops o (by simp [ho]))]
  simp only [bind, Except.bind, forM', addDiag, hd, if_true, List.sum_cons, List.sum_append, List.sum_nil]
  congr 2
  funext i j
  simp only [Op.val]
  ring

end Edpyt
