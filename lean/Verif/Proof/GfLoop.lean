import Verif.Proof.GfHalf
import Verif.Proof.Amplitude
/-!
The loop over the sectors in `build_gf_lanczos`.
-/
namespace Edpyt
open Spec Matrix
variable {n : ℕ}

theorem cform_cplx {ι : Type} [Fintype ι] (x : ι → ℝ) (A : Matrix ι ι ℝ) : cform x (cplx A) = ((x ⬝ᵥ (A *ᵥ x) : ℝ) : ℂ) := by
  simp only [cform, dotProduct, Matrix.mulVec, cplx, Matrix.map_apply]
  push_cast
  rfl

theorem EigenEspace.sct {H : Matrix (Finset (Fin (n + n))) (Finset (Fin (n + n))) ℝ} {es : Espace (ℕ × ℕ)} (h : EigenEspace n H es) :
    ∀ p ∈ es, EigSct n H p.1 p.2 := by
  intro p hp
  obtain ⟨up, dw, h1, -⟩ := h.ok p hp
  exact ⟨⟨up, dw, h1⟩, h.eig p hp⟩

theorem EigenEspace.get {H : Matrix (Finset (Fin (n + n))) (Finset (Fin (n + n))) ℝ} {es : Espace (ℕ × ℕ)} (h : EigenEspace n H es) {q : ℕ × ℕ}
    (hq : q ∈ ndindex2 (n + 1) (n + 1)) : dictGet es q = .ok (sctAt es q) ∧ EigSct n H q (sctAt es q) ∧ (sctAt es q).eigvals.length = n.choose q.1 * n.choose q.2 := by
  have b := mem_ndindex2.mp hq
  obtain ⟨up, dw, h1, h2, h3, -, -, h4⟩ := h.toCompleteEspace.at (u := q.1) (d := q.2) (by omega) (by omega)
  exact ⟨h2, h.sct _ h1, h4⟩

/-- Replacing a sector by another complete diagonalisation of it. -/
theorem EigenEspace.replace {H : Matrix (Finset (Fin (n + n))) (Finset (Fin (n + n))) ℝ} {es : Espace (ℕ × ℕ)} (h : EigenEspace n H es) {q : ℕ × ℕ} {J : Sct}
    (hq : q ∈ es.map Prod.fst) (hJ : EigSct n H q J) (hc : Complete J.d J.eigvecs) : EigenEspace n H (dictSet es q J) := by
  have hset : dictSet es q J = es.map fun p => if p.1 = q then (q, J) else p := by unfold dictSet; rw [if_pos hq]
  rw [hset]
  refine ⟨⟨?_, ?_⟩, ?_⟩
  · have : (es.map fun p => if p.1 = q then (q, J) else p).map Prod.fst = es.map Prod.fst := by
      rw [List.map_map]
      apply List.map_congr_left
      intro p _
      simp only [Function.comp]
      split
      · rename_i e; exact e.symm
      · rfl
    rw [this]; exact h.keys
  · intro p hp
    obtain ⟨p', hp', rfl⟩ := List.mem_map.mp hp
    split
    · obtain ⟨up, dw, hok⟩ := hJ.ok
      exact ⟨up, dw, hok, hc⟩
    · exact h.ok p' hp'
  · intro p hp
    obtain ⟨p', hp', rfl⟩ := List.mem_map.mp hp
    split
    · exact hJ.eig
    · exact h.eig p' hp'

/-- The exact contribution of a sector does not depend on the choice of the eigenbasis. -/
theorem halfExact_eq {H B : Matrix (Finset (Fin (n + n))) (Finset (Fin (n + n))) ℝ} {σ : ℝ} {z : ℂ} {M : Matrix (Finset (Fin (n + n))) (Finset (Fin (n + n))) ℂ}
    (hM : ∀ (x : Finset (Fin (n + n)) → ℝ) (E : ℝ), H *ᵥ x = E • x → resElem z (σ • (H - E • (1 : Matrix (Finset (Fin (n + n))) (Finset (Fin (n + n))) ℝ))) (B *ᵥ x) (B *ᵥ x) = cform x M) {es : Espace (ℕ × ℕ)} (h : EigenEspace n H es) (β egs : ℝ)
    {q : ℕ × ℕ} (hq : q ∈ ndindex2 (n + 1) (n + 1)) :
    halfExact n H B σ β egs (sctAt es q) z = (Real.exp (β * egs) : ℂ) * secTrace n β H q M := by
  obtain ⟨-, h2, h3⟩ := h.get hq
  rw [h.secTrace β hq, Finset.mul_sum]
  unfold halfExact
  rw [h3]
  apply Finset.sum_congr rfl; intro k hk
  rw [hM _ _ (h2.eig k (by rw [h3]; exact Finset.mem_range.mp hk)), ← mul_assoc, ← Complex.ofReal_mul, ← Real.exp_add]
  congr 3; ring_nf

theorem halfErr_eq {H B : Matrix (Finset (Fin (n + n))) (Finset (Fin (n + n))) ℝ} {es : Espace (ℕ × ℕ)} (h : EigenEspace n H es) (β egs δ ε η : ℝ)
    {q : ℕ × ℕ} (hq : q ∈ ndindex2 (n + 1) (n + 1)) :
    (halfErr n B β egs (sctAt es q) δ ε η : ℂ) = (Real.exp (β * egs) : ℂ) * secTrace n β H q (cplx ((ε / η ^ 2) • (Bᵀ * B) + (δ ^ 2 / |η|) • (1 : Matrix _ _ ℝ))) := by
  obtain ⟨-, h2, h3⟩ := h.get hq
  have hb := mem_ndindex2.mp hq
  obtain ⟨up, dw, -, -, hok, hc, hd, -⟩ := h.toCompleteEspace.at (u := q.1) (d := q.2) (by omega) (by omega)
  rw [h.secTrace β hq, Finset.mul_sum]
  unfold halfErr
  rw [h3]
  push_cast
  apply Finset.sum_congr rfl; intro k hk
  have hk' := Finset.mem_range.mp hk
  have hnorm : (sctAt es q).ket n k ⬝ᵥ (sctAt es q).ket n k = 1 := by
    have e : (sctAt es q).ket n k = (sctAt es (q.1, q.2)).ket n k := rfl
    rw [e, hok.ket_eq, ket_inner hok.hup hok.hdw, ← hok.d, hc.orth k k (by rw [hd]; exact hk') (by rw [hd]; exact hk'), if_pos rfl]
  rw [cform_cplx, Matrix.add_mulVec, dotProduct_add, Matrix.smul_mulVec, Matrix.smul_mulVec, dotProduct_smul, dotProduct_smul, Matrix.one_mulVec, hnorm,
    ← Matrix.mulVec_mulVec, Matrix.dotProduct_mulVec _ Bᵀ, Matrix.vecMul_transpose]
  simp only [smul_eq_mul, mul_one]
  push_cast
  rw [← mul_assoc, ← Complex.exp_add]
  congr 2
  · ring
  · ring

/-- An operator that would lead out of the Hilbert space gives zero. -/
theorem Grade.kill {A : Matrix (Finset (Fin (n + n))) (Finset (Fin (n + n))) ℝ} {δ : Bool → ℤ} (hA : Grade A δ) {p q : ℕ} {up dw : List ℕ} (hu : SectorList n p up)
    (hd : SectorList n q dw) (v : ℕ → ℝ) (h : (p : ℤ) + δ false < 0 ∨ (n : ℤ) < p + δ false ∨ (q : ℤ) + δ true < 0 ∨ (n : ℤ) < q + δ true) :
    A *ᵥ ket n up dw v = 0 := by
  funext T
  by_contra hne
  simp only [Matrix.mulVec, dotProduct, Pi.zero_apply] at hne
  obtain ⟨S, -, hS⟩ := Finset.exists_ne_zero_of_sum_ne_zero hne
  obtain ⟨h1, h2⟩ := ket_support hu hd v (right_ne_zero_of_mul hS)
  have h3 := hA T S (left_ne_zero_of_mul hS)
  have a1 := h3 false
  have a2 := h3 true
  rw [h1] at a1
  rw [h2] at a2
  have b1 : 0 ≤ spinCount false T ∧ spinCount false T ≤ n := by
    simp only [spinCount, Bool.false_eq_true, if_false]
    exact ⟨by positivity, by exact_mod_cast (Finset.card_le_univ _).trans (by simp)⟩
  have b2 : 0 ≤ spinCount true T ∧ spinCount true T ≤ n := by
    simp only [spinCount, if_true]
    exact ⟨by positivity, by exact_mod_cast (Finset.card_le_univ _).trans (by simp)⟩
  omega

/-- What one half of the loop body may do. -/
def HalfSpec (g : GfLArgs) (jk : ℝ) (B : Ladder → Matrix (Finset (Fin (g.ham.n + g.ham.n))) (Finset (Fin (g.ham.n + g.ham.n))) ℝ) (bad : Ladder → Sct → Prop)
    (half : Ladder → Sct → ℕ × ℕ → Espace (ℕ × ℕ) → Except PyErr (Espace (ℕ × ℕ) × List GfFn × List LancRun) → Prop) : Prop :=
  ∀ op qI qJ I es r, SectorShift g.ispin op qI qJ → (qJ.1 ≤ g.ham.n ∧ qJ.2 ≤ g.ham.n) → EigSct g.ham.n g.ham.ham qI I → (∀ p ∈ es, EigSct g.ham.n g.ham.ham p.1 p.2) →
    half op I qJ es r → (bad op I ∧ r = .error .zeroNorm) ∨
    ∃ es' fs log, r = .ok (es', fs, log) ∧
      (es' = es ∨ ∃ J, qJ ∈ es.map Prod.fst ∧ es' = dictSet es qJ J ∧ EigSct g.ham.n g.ham.ham qJ J ∧ Complete J.d J.eigvecs) ∧
      (∀ run ∈ log, run.d = g.ham.n.choose qJ.1 * g.ham.n.choose qJ.2 ∧ run.Of g.cfg) ∧
      ∀ (e eta ε : ℝ), eta ≠ 0 → 0 ≤ ε → (∀ run ∈ log, run.AccLe g.ham.ham e eta ε) →
        ‖(fs.map fun f => f.eval jk e eta).sum - halfExact g.ham.n g.ham.ham (B op) op.sign g.beta g.egs I (e + Complex.I * eta)‖ ≤
          halfErr g.ham.n (B op) g.beta g.egs I g.cfg.delta ε eta

/-- A record of a run on a sector of the Hilbert space. -/
def LancRun.Good (g : GfLArgs) (run : LancRun) : Prop :=
  (∃ q ∈ ndindex2 (g.ham.n + 1) (g.ham.n + 1), run.d = g.ham.n.choose q.1 * g.ham.n.choose q.2) ∧ run.Of g.cfg

/-- `get_cdg_sector` / `get_c_sector`. -/
theorem gfArrival_cases {s : Bool} {op : Ladder} {q : ℕ × ℕ} (hq : q ∈ ndindex2 (n + 1) (n + 1)) :
    (∃ q', gfArrival n op s q = .ok ((q'.1 : ℤ), (q'.2 : ℤ)) ∧ SectorShift s op q q' ∧ (q'.1 ≤ n ∧ q'.2 ≤ n)) ∨
    (gfArrival n op s q = .error .outOfHilbert ∧
      ((q.1 : ℤ) + (if false = s then op.delta else 0) < 0 ∨ (n : ℤ) < q.1 + (if false = s then op.delta else 0) ∨
        (q.2 : ℤ) + (if true = s then op.delta else 0) < 0 ∨ (n : ℤ) < q.2 + (if true = s then op.delta else 0))) := by
  obtain ⟨u, d⟩ := q
  obtain ⟨b1, b2⟩ := mem_ndindex2.mp hq
  simp only at b1 b2
  cases op <;> cases s
  · by_cases h : u = 0
    · right; subst h; simp [gfArrival, getCSector, Ladder.delta]
    · left
      refine ⟨(u - 1, d), ?_, ?_, ?_⟩
      · simp only [gfArrival, getCSector]
        rw [if_pos (by simp), if_neg (by omega)]
        congr 2; push_cast [Nat.one_le_iff_ne_zero.mpr h]; rfl
      · simp only [SectorShift, Ladder.Shift]; simp; omega
      · simp only; omega
  · by_cases h : d = 0
    · right; subst h; simp [gfArrival, getCSector, Ladder.delta]
    · left
      refine ⟨(u, d - 1), ?_, ?_, ?_⟩
      · simp only [gfArrival, getCSector]
        rw [if_neg (by simp), if_pos (by simp), if_neg (by omega)]
        congr 2; push_cast [Nat.one_le_iff_ne_zero.mpr h]; rfl
      · simp only [SectorShift, Ladder.Shift]; simp; omega
      · simp only; omega
  · by_cases h : u = n
    · right; subst h; simp [gfArrival, getCdgSector, Ladder.delta]
    · left
      refine ⟨(u + 1, d), ?_, ?_, ?_⟩
      · simp only [gfArrival, getCdgSector]
        rw [if_pos (by simp), if_neg (by omega)]; rfl
      · simp only [SectorShift, Ladder.Shift]; simp
      · simp only; omega
  · by_cases h : d = n
    · right; subst h; simp [gfArrival, getCdgSector, Ladder.delta]
    · left
      refine ⟨(u, d + 1), ?_, ?_, ?_⟩
      · simp only [gfArrival, getCdgSector]
        rw [if_neg (by simp), if_pos (by simp), if_neg (by omega)]; rfl
      · simp only [SectorShift, Ladder.Shift]; simp
      · simp only; omega

section
variable {g : GfLArgs} {jk : ℝ} {B : Ladder → Matrix (Finset (Fin (g.ham.n + g.ham.n))) (Finset (Fin (g.ham.n + g.ham.n))) ℝ} {bad : Ladder → Sct → Prop}
  {half : Ladder → Sct → ℕ × ℕ → Espace (ℕ × ℕ) → Except PyErr (Espace (ℕ × ℕ) × List GfFn × List LancRun) → Prop}

/-- Value of a list of kernels. -/
noncomputable def fsum (jk : ℝ) (fs : List GfFn) (e eta : ℝ) : ℂ := (fs.map fun f => f.eval jk e eta).sum

theorem fsum_append (fs fs' : List GfFn) (e eta : ℝ) : fsum jk (fs ++ fs') e eta = fsum jk fs e eta + fsum jk fs' e eta := by
  simp [fsum]

/-- The list a half is added to: `false` for `gfe`, `true` for `gfh`. -/
def GfLSt.part (st : GfLSt) : Bool → List GfFn
  | false => st.fe
  | true => st.fh

/-- Which list `op` adds to. -/
def opPart (separate : Bool) (op : Ladder) : Bool := decide (separate = true ∧ op = .c)

/-- `st'` follows `st` with target `X`, error `W` for each list, and accuracy measured by the new records. -/
structure GfProg (g : GfLArgs) (jk : ℝ) (st st' : GfLSt) (X : Bool → ℝ → ℝ → ℂ) (W : Bool → ℝ → ℝ → ℝ) : Prop where
  es : EigenEspace g.ham.n g.ham.ham st'.es
  bound : ∃ log, st'.log = st.log ++ log ∧ (∀ run ∈ log, run.Good g) ∧ ∀ (e eta ε : ℝ), eta ≠ 0 → 0 ≤ ε → (∀ run ∈ log, run.AccLe g.ham.ham e eta ε) →
    ∀ b, ‖fsum jk (st'.part b) e eta - fsum jk (st.part b) e eta - X b e eta‖ ≤ W b eta ε

theorem GfProg.trans {st st' st'' : GfLSt} {X X' : Bool → ℝ → ℝ → ℂ} {W W' : Bool → ℝ → ℝ → ℝ} (h : GfProg g jk st st' X W) (h' : GfProg g jk st' st'' X' W') :
    GfProg g jk st st'' (fun b e eta => X b e eta + X' b e eta) (fun b eta ε => W b eta ε + W' b eta ε) := by
  refine ⟨h'.es, ?_⟩
  obtain ⟨l1, a1, a2, a3⟩ := h.bound
  obtain ⟨l2, b1, b2, b3⟩ := h'.bound
  refine ⟨l1 ++ l2, by rw [b1, a1, List.append_assoc], ?_, fun e eta ε he hε hlog b => ?_⟩
  · intro run hr
    rcases List.mem_append.mp hr with h | h
    · exact a2 _ h
    · exact b2 _ h
  · have c1 := a3 e eta ε he hε (fun run h => hlog run (by simp [h])) b
    have c2 := b3 e eta ε he hε (fun run h => hlog run (by simp [h])) b
    refine le_trans (le_of_eq ?_) ((norm_add_le _ _).trans (add_le_add c1 c2))
    congr 1; ring

/-- A half that failed: `bad` holds for the sector, and the operator leads to another sector. -/
def BadAt (g : GfLArgs) (bad : Ladder → Sct → Prop) (op : Ladder) (q : ℕ × ℕ) (I : Sct) : Prop :=
  bad op I ∧ ∃ q' : ℕ × ℕ, SectorShift g.ispin op q q' ∧ q'.1 ≤ g.ham.n ∧ q'.2 ≤ g.ham.n

/-- One half. -/
theorem gfStepHalf_out (hspec : HalfSpec g jk B bad half) (hB : ∀ op, Grade (B op) (fun t => if t = g.ispin then op.delta else 0)) (separate : Bool) (op : Ladder) {q : ℕ × ℕ}
    (hq : q ∈ ndindex2 (g.ham.n + 1) (g.ham.n + 1)) {I : Sct} (hI : EigSct g.ham.n g.ham.ham q I) {st : GfLSt} (hst : EigenEspace g.ham.n g.ham.ham st.es)
    {r : Except PyErr GfLSt} (h : GfStepHalf half g separate op q I st r) :
    (BadAt g bad op q I ∧ r = .error .zeroNorm) ∨
    ∃ st', r = .ok st' ∧ (∀ q', ¬ SectorShift g.ispin op q q' → dictGet st'.es q' = dictGet st.es q') ∧
      GfProg g jk st st'
      (fun b e eta => if b = opPart separate op then halfExact g.ham.n g.ham.ham (B op) op.sign g.beta g.egs I (e + Complex.I * eta) else 0)
      (fun b eta ε => if b = opPart separate op then halfErr g.ham.n (B op) g.beta g.egs I g.cfg.delta ε eta else 0) := by
  unfold GfStepHalf at h
  rcases gfArrival_cases (s := g.ispin) (op := op) hq with ⟨q', h1, h2, h3⟩ | ⟨h1, h2⟩
  · rw [h1] at h
    simp only [Int.toNat_natCast] at h
    rcases h with ⟨x, hx, h⟩ | ⟨e, hx, h⟩
    · rcases hspec op q q' I st.es _ h2 h3 hI hst.sct hx with ⟨-, hh⟩ | ⟨es', fs, log, hr, c1, c2, c3⟩
      · cases hh
      · injection hr with hr; subst hr
        simp only [DetR] at h
        right
        refine ⟨_, h, ?_, ?_, log, ?_, ?_, ?_⟩
        · intro q'' hne
          have : dictGet es' q'' = dictGet st.es q'' := by
            rcases c1 with rfl | ⟨J, hm, rfl, -⟩
            · rfl
            · rw [dictGet_dictSet, if_neg (by rintro rfl; exact hne h2)]
          split <;> exact this
        · have : EigenEspace g.ham.n g.ham.ham es' := by
            rcases c1 with rfl | ⟨J, hm, rfl, hJ, hc⟩
            · exact hst
            · exact hst.replace hm hJ hc
          split <;> exact this
        · split <;> rfl
        · intro run hr
          obtain ⟨d1, d2⟩ := c2 run hr
          exact ⟨⟨q', mem_ndindex2.mpr ⟨by omega, by omega⟩, d1⟩, d2⟩
        · intro e eta ε he hε hlog b
          have hb := c3 e eta ε he hε hlog
          by_cases hc : separate = true ∧ op = .c
          · rw [if_pos hc]
            have ho : opPart separate op = true := by simp [opPart, hc]
            rw [ho]
            cases b
            · simp [GfLSt.part]
            · simp only [GfLSt.part, if_true, fsum_append, add_sub_cancel_left]
              exact hb
          · rw [if_neg hc]
            have ho : opPart separate op = false := by simp only [opPart, decide_eq_false_iff_not]; exact hc
            rw [ho]
            cases b
            · simp only [GfLSt.part, if_true, fsum_append, add_sub_cancel_left]
              exact hb
            · simp [GfLSt.part]
    · rcases hspec op q q' I st.es _ h2 h3 hI hst.sct hx with ⟨hbad, hh⟩ | ⟨es', fs, log, hr, -⟩
      · left
        injection hh with hh
        exact ⟨⟨hbad, q', h2, h3⟩, by rw [h, hh]⟩
      · cases hr
  · rw [h1] at h
    simp only at h
    right
    refine ⟨st, h, fun _ _ => rfl, hst, [], by simp, by simp, fun e eta ε he hε _ b => ?_⟩
    obtain ⟨up, dw, hok⟩ := hI.ok
    have hz : ∀ k, B op *ᵥ I.ket g.ham.n k = 0 := by
      intro k
      rw [hok.ket_eq]
      exact (hB op).kill hok.hup hok.hdw _ (by
        rcases h2 with h | h | h | h
        · exact .inl h
        · exact .inr (.inl h)
        · exact .inr (.inr (.inl h))
        · exact .inr (.inr (.inr h)))
    have hX : halfExact g.ham.n g.ham.ham (B op) op.sign g.beta g.egs I (e + Complex.I * eta) = 0 := by
      unfold halfExact
      apply Finset.sum_eq_zero; intro k _
      rw [hz]
      have : (fun i : Finset (Fin (g.ham.n + g.ham.n)) => (((0 : Finset (Fin (g.ham.n + g.ham.n)) → ℝ) i : ℝ) : ℂ)) = 0 := by funext i; simp
      simp only [resElem, this, zero_dotProduct, mul_zero]
    simp only [hX, ite_self, sub_self, norm_zero]
    split
    · exact halfErr_nonneg _ _ _ _ hε
    · exact le_rfl

/-- The target of one sector for each list. -/
noncomputable def secX (g : GfLArgs) (B : Ladder → Matrix (Finset (Fin (g.ham.n + g.ham.n))) (Finset (Fin (g.ham.n + g.ham.n))) ℝ) (separate : Bool) (es : Espace (ℕ × ℕ)) (q : ℕ × ℕ)
    (b : Bool) (e eta : ℝ) : ℂ :=
  (if b = opPart separate .cdg then halfExact g.ham.n g.ham.ham (B .cdg) Ladder.cdg.sign g.beta g.egs (sctAt es q) (e + Complex.I * eta) else 0) +
  (if b = opPart separate .c then halfExact g.ham.n g.ham.ham (B .c) Ladder.c.sign g.beta g.egs (sctAt es q) (e + Complex.I * eta) else 0)

/-- The error allowed for one sector. -/
noncomputable def secW (g : GfLArgs) (B : Ladder → Matrix (Finset (Fin (g.ham.n + g.ham.n))) (Finset (Fin (g.ham.n + g.ham.n))) ℝ) (separate : Bool) (es : Espace (ℕ × ℕ)) (q : ℕ × ℕ)
    (b : Bool) (eta ε : ℝ) : ℝ :=
  (if b = opPart separate .cdg then halfErr g.ham.n (B .cdg) g.beta g.egs (sctAt es q) g.cfg.delta ε eta else 0) +
  (if b = opPart separate .c then halfErr g.ham.n (B .c) g.beta g.egs (sctAt es q) g.cfg.delta ε eta else 0)

/-- One pass of the loop. -/
theorem gfStep_out (hspec : HalfSpec g jk B bad half) (hB : ∀ op, Grade (B op) (fun t => if t = g.ispin then op.delta else 0)) (separate : Bool) {q : ℕ × ℕ}
    (hq : q ∈ ndindex2 (g.ham.n + 1) (g.ham.n + 1)) {st : GfLSt} (hst : EigenEspace g.ham.n g.ham.ham st.es)
    {r : Except PyErr GfLSt} (h : GfStep half g separate st q r) :
    (r = .error .zeroNorm ∧ ∃ op, BadAt g bad op q (sctAt st.es q)) ∨
    ∃ st', r = .ok st' ∧ GfProg g jk st st' (secX g B separate st.es q) (secW g B separate st.es q) := by
  obtain ⟨h1, h2, -⟩ := hst.get hq
  unfold GfStep at h
  rw [bindR_ok h1] at h
  rcases h with ⟨st1, hx, h⟩ | ⟨e, hx, h⟩
  · rcases gfStepHalf_out hspec hB separate .cdg hq h2 hst hx with ⟨-, hh⟩ | ⟨st1', hr, -, hp⟩
    · cases hh
    · injection hr with hr; subst hr
      rcases gfStepHalf_out hspec hB separate .c hq h2 hp.es h with ⟨hbad, hh⟩ | ⟨st2, hr, -, hp'⟩
      · exact .inl ⟨hh, _, hbad⟩
      · exact .inr ⟨st2, hr, hp.trans hp'⟩
  · rcases gfStepHalf_out hspec hB separate .cdg hq h2 hst hx with ⟨hbad, hh⟩ | ⟨st1', hr, -⟩
    · injection hh with hh
      exact .inl ⟨by rw [h, hh], _, hbad⟩
    · cases hr

/-- The contributions do not depend on the basis. -/
def BasisFree (g : GfLArgs) (B : Ladder → Matrix (Finset (Fin (g.ham.n + g.ham.n))) (Finset (Fin (g.ham.n + g.ham.n))) ℝ) (M : Ladder → ℝ → ℝ → Matrix (Finset (Fin (g.ham.n + g.ham.n))) (Finset (Fin (g.ham.n + g.ham.n))) ℂ) : Prop :=
  ∀ op (e eta : ℝ), eta ≠ 0 → ∀ (x : Finset (Fin (g.ham.n + g.ham.n)) → ℝ) (E : ℝ), g.ham.ham *ᵥ x = E • x →
    resElem (e + Complex.I * eta) (op.sign • (g.ham.ham - E • (1 : Matrix (Finset (Fin (g.ham.n + g.ham.n))) (Finset (Fin (g.ham.n + g.ham.n))) ℝ))) (B op *ᵥ x) (B op *ᵥ x) = cform x (M op e eta)

theorem secX_eq {M : Ladder → ℝ → ℝ → Matrix (Finset (Fin (g.ham.n + g.ham.n))) (Finset (Fin (g.ham.n + g.ham.n))) ℂ} (hM : BasisFree g B M) {es es' : Espace (ℕ × ℕ)}
    (h : EigenEspace g.ham.n g.ham.ham es) (h' : EigenEspace g.ham.n g.ham.ham es') (separate : Bool) {q : ℕ × ℕ} (hq : q ∈ ndindex2 (g.ham.n + 1) (g.ham.n + 1)) (b : Bool) (e eta : ℝ) (he : eta ≠ 0) :
    secX g B separate es q b e eta = secX g B separate es' q b e eta := by
  unfold secX
  simp only [halfExact_eq (hM _ e eta he) h g.beta g.egs hq, halfExact_eq (hM _ e eta he) h' g.beta g.egs hq]

theorem secW_eq {es es' : Espace (ℕ × ℕ)} (h : EigenEspace g.ham.n g.ham.ham es) (h' : EigenEspace g.ham.n g.ham.ham es') (separate : Bool) {q : ℕ × ℕ}
    (hq : q ∈ ndindex2 (g.ham.n + 1) (g.ham.n + 1)) (b : Bool) (eta ε : ℝ) : secW g B separate es q b eta ε = secW g B separate es' q b eta ε := by
  have : ∀ op, halfErr g.ham.n (B op) g.beta g.egs (sctAt es q) g.cfg.delta ε eta = halfErr g.ham.n (B op) g.beta g.egs (sctAt es' q) g.cfg.delta ε eta := by
    intro op
    have h1 := halfErr_eq (B := B op) h g.beta g.egs g.cfg.delta ε eta hq
    have h2 := halfErr_eq (B := B op) h' g.beta g.egs g.cfg.delta ε eta hq
    exact_mod_cast h1.trans h2.symm
  unfold secW
  rw [this, this]

/-- The whole loop. -/
theorem gfLoop_out (hspec : HalfSpec g jk B bad half) (hB : ∀ op, Grade (B op) (fun t => if t = g.ispin then op.delta else 0))
    {M : Ladder → ℝ → ℝ → Matrix (Finset (Fin (g.ham.n + g.ham.n))) (Finset (Fin (g.ham.n + g.ham.n))) ℂ} (hM : BasisFree g B M)
    {es : Espace (ℕ × ℕ)} (hes : EigenEspace g.ham.n g.ham.ham es) (separate : Bool) (xs : List (ℕ × ℕ))
    (hxs : ∀ q ∈ xs, q ∈ ndindex2 (g.ham.n + 1) (g.ham.n + 1)) {st : GfLSt} (hst : EigenEspace g.ham.n g.ham.ham st.es) {r : Except PyErr GfLSt}
    (h : ForR (GfStep half g separate) xs st r) :
    (r = .error .zeroNorm ∧ ∃ op, ∃ q ∈ xs, ∃ es', EigenEspace g.ham.n g.ham.ham es' ∧ BadAt g bad op q (sctAt es' q)) ∨
    ∃ st', r = .ok st' ∧ GfProg g jk st st' (fun b e eta => (xs.map fun q => secX g B separate es q b e eta).sum) (fun b eta ε => (xs.map fun q => secW g B separate es q b eta ε).sum) := by
  induction xs generalizing st with
  | nil =>
    right
    have h : r = .ok st := h
    exact ⟨st, h, hst, [], by simp, by simp, fun e eta ε _ _ _ b => by simp⟩
  | cons q xs ih =>
    have hq := hxs q (by simp)
    rcases h with ⟨st1, h1, h2⟩ | ⟨e, h1, rfl⟩
    · rcases gfStep_out hspec hB separate hq hst h1 with ⟨hh, -⟩ | ⟨st1', hr, hp⟩
      · cases hh
      · injection hr with hr; subst hr
        rcases ih (fun q hq => hxs q (by simp [hq])) hp.es h2 with ⟨hh, op, q', hq', es', h3, h4⟩ | ⟨st', hr, hp'⟩
        · exact .inl ⟨hh, op, q', by simp [hq'], es', h3, h4⟩
        · refine .inr ⟨st', hr, ?_⟩
          obtain ⟨log, a1, a2, a3⟩ := (hp.trans hp').bound
          refine ⟨hp'.es, log, a1, a2, fun e eta ε he hε hlog b => ?_⟩
          have := a3 e eta ε he hε hlog b
          simp only [List.map_cons, List.sum_cons]
          rw [secX_eq hM hes hst separate hq b e eta he, secW_eq hes hst separate hq b eta ε]
          exact this
    · rcases gfStep_out hspec hB separate hq hst h1 with ⟨hh, op, hbad⟩ | ⟨st1', hr, -⟩
      · exact .inl ⟨hh, op, q, by simp, st.es, hst, hbad⟩
      · cases hr

end

/-! ### Thermal averages -/

theorem EigenEspace.trace {H : Matrix (Finset (Fin (n + n))) (Finset (Fin (n + n))) ℝ} {es : Espace (ℕ × ℕ)} (h : EigenEspace n H es) (β : ℝ)
    (M : Matrix (Finset (Fin (n + n))) (Finset (Fin (n + n))) ℂ) :
    Matrix.trace (cplx (gibbsOp β H) * M) = ((es.map Prod.fst).map fun q => Edpyt.secTrace n β H q M).sum := by
  have hb := h.basis
  let e := Fintype.equivOfCardEq hb.card.symm
  have hd := hb.diag e
  rw [hd.gibbsOp β, trace_conj]
  have h2 : ∀ a, ((Real.exp (-β * esVal n es (e a)) : ℝ) : ℂ) * (cplx (Matrix.of fun i a => esKet n es (e a) i)ᵀ * M * cplx (Matrix.of fun i a => esKet n es (e a) i)) a a =
      (fun b : EigIdx n => ((Real.exp (-β * esVal n es b) : ℝ) : ℂ) * cform (esKet n es b) M) (e a) := by
    intro a
    rw [cplx_form]; rfl
  rw [Finset.sum_congr rfl fun a _ => h2 a, e.sum_comp (fun b : EigIdx n => ((Real.exp (-β * esVal n es b) : ℝ) : ℂ) * cform (esKet n es b) M)]
  have h3 := sum_sigma_sectors n (fun q k => ((Real.exp (-β * ((sctAt es q).eigvals[k]?.getD 0)) : ℝ) : ℂ) * cform ((sctAt es q).ket n k) M)
  refine Eq.trans h3 ?_
  rw [← (h.keys.map _).sum_eq]
  congr 1
  apply List.map_congr_left
  intro q hq
  rw [h.secTrace β (h.keys.mem_iff.mp hq) M]

theorem EigenEspace.trace_one {H : Matrix (Finset (Fin (n + n))) (Finset (Fin (n + n))) ℝ} {es : Espace (ℕ × ℕ)} (h : EigenEspace n H es) (β : ℝ) :
    Matrix.trace (cplx (gibbsOp β H)) = ((∑ a, Real.exp (-β * esVal n es a) : ℝ) : ℂ) := by
  have hb := h.basis
  let e := Fintype.equivOfCardEq hb.card.symm
  have hd := hb.diag e
  have := trace_conj (Matrix.of fun i a => esKet n es (e a) i) (fun a => Real.exp (-β * esVal n es (e a))) 1
  rw [← hd.gibbsOp β, Matrix.mul_one] at this
  rw [this]
  have h2 : ∀ a, ((Real.exp (-β * esVal n es (e a)) : ℝ) : ℂ) * (cplx (Matrix.of fun i a => esKet n es (e a) i)ᵀ * (1 : Matrix (Finset (Fin (n + n))) (Finset (Fin (n + n))) ℂ) * cplx (Matrix.of fun i a => esKet n es (e a) i)) a a =
      (fun b : EigIdx n => ((Real.exp (-β * esVal n es b) : ℝ) : ℂ)) (e a) := by
    intro a
    rw [cplx_form]
    have h1 : cform (fun i => (Matrix.of fun i a => esKet n es (e a) i) i a) (1 : Matrix (Finset (Fin (n + n))) (Finset (Fin (n + n))) ℂ) = 1 := by
      have c1 : (1 : Matrix (Finset (Fin (n + n))) (Finset (Fin (n + n))) ℂ) = cplx 1 := by
        ext i j; simp only [cplx, Matrix.map_apply, Matrix.one_apply]; split <;> simp
      rw [c1, cform_cplx, Matrix.one_mulVec]
      have := hb.orth (e a) (e a)
      rw [if_pos rfl] at this
      exact_mod_cast this
    rw [h1, mul_one]
  rw [Finset.sum_congr rfl fun a _ => h2 a, e.sum_comp (fun b : EigIdx n => ((Real.exp (-β * esVal n es b) : ℝ) : ℂ))]
  push_cast; rfl

end Edpyt
