import Verif.Proof.Lehmann
import Verif.Proof.SqBuild
import Verif.Spec.Amplitude
import Verif.Model.Cotunneling
/-!
Second-order amplitudes in an eigenbasis, and the projections of the tunnelling modules as matrix elements.
-/
namespace Edpyt
open Spec Matrix

section
variable {ι : Type} [Fintype ι] [DecidableEq ι] {H : Matrix ι ι ℝ} {κ : Type} [Fintype κ] [DecidableEq κ] {u : κ → ι → ℝ} {E : κ → ℝ}

theorem EigBasis.expand (h : EigBasis H u E) (x : ι → ℝ) : ∑ k, (u k ⬝ᵥ x) • u k = x := by
  let e : ι ≃ κ := Fintype.equivOfCardEq h.card.symm
  have hr := (h.diag e).right
  rw [← e.sum_comp fun k => (u k ⬝ᵥ x) • u k]
  have := congrArg (fun M => M *ᵥ x) hr
  simp only [Matrix.one_mulVec] at this
  conv_rhs => rw [← this, ← Matrix.mulVec_mulVec]
  funext i
  simp only [Finset.sum_apply, Pi.smul_apply, smul_eq_mul, Matrix.mulVec, dotProduct, Matrix.transpose_apply, Matrix.of_apply]
  apply Finset.sum_congr rfl; intro a _
  rw [mul_comm]

theorem EigBasis.coord (h : EigBasis H u E) (c : κ → ℝ) (k : κ) : u k ⬝ᵥ (∑ j, c j • u j) = c k := by
  rw [dotProduct_sum]
  simp [dotProduct_smul, h.orth]

theorem EigBasis.apply (h : EigBasis H u E) (x : ι → ℝ) : H *ᵥ x = ∑ k, (E k * (u k ⬝ᵥ x)) • u k := by
  conv_lhs => rw [← h.expand x]
  rw [Matrix.mulVec_sum]
  apply Finset.sum_congr rfl; intro k _
  rw [Matrix.mulVec_smul, h.eig, smul_smul, mul_comm]

/-- The amplitude in an eigenbasis of `K`; states with `κ = 0` must not be involved. -/
theorem EigBasis.amplitude (h : EigBasis H u E) (F : ι → ℝ) (A B : Matrix ι ι ℝ) (I : ι → ℝ)
    (h0 : ∀ k, E k = 0 → u k ⬝ᵥ (B *ᵥ I) = 0 ∧ F ⬝ᵥ (A *ᵥ u k) = 0) :
    IsAmplitude H F A B I (∑ k, (F ⬝ᵥ (A *ᵥ u k)) * (u k ⬝ᵥ (B *ᵥ I)) * (E k)⁻¹) := by
  refine ⟨⟨∑ k, ((E k)⁻¹ * (u k ⬝ᵥ (B *ᵥ I))) • u k, ?_⟩, fun x hx => ?_⟩
  · rw [h.apply]
    conv_rhs => rw [← h.expand (B *ᵥ I)]
    apply Finset.sum_congr rfl; intro k _
    rw [h.coord]
    by_cases hk : E k = 0
    · rw [(h0 k hk).1]; simp
    · rw [← mul_assoc, mul_inv_cancel₀ hk, one_mul]
  · have hc : ∀ k, E k * (u k ⬝ᵥ x) = u k ⬝ᵥ (B *ᵥ I) := by
      intro k
      rw [← hx, h.apply, h.coord]
    conv_lhs => rw [← h.expand x]
    rw [Matrix.mulVec_sum, dotProduct_sum]
    apply Finset.sum_congr rfl; intro k _
    rw [Matrix.mulVec_smul, dotProduct_smul, smul_eq_mul, ← hc k]
    by_cases hk : E k = 0
    · rw [(h0 k hk).2]; simp
    · field_simp

theorem EigBasis.shift (h : EigBasis H u E) (a b : ℝ) : EigBasis (a • (1 : Matrix ι ι ℝ) + b • H) u (fun k => a + b * E k) := by
  refine ⟨h.card, h.orth, fun k => ?_⟩
  rw [Matrix.add_mulVec, Matrix.smul_mulVec, Matrix.smul_mulVec, Matrix.one_mulVec, h.eig, smul_smul, ← add_smul]
end

variable {n : ℕ} {es : Espace (ℕ × ℕ)}

/-- A sum over all eigenstates to which only one sector contributes. -/
theorem sum_one_sector {M : Type} [AddCommMonoid M] (f : ℕ × ℕ → ℕ → M) {x : ℕ × ℕ} (hx : x.1 ≤ n ∧ x.2 ≤ n)
    (h0 : ∀ q, q.1 ≤ n → q.2 ≤ n → q ≠ x → ∀ k, f q k = 0) :
    ∑ a : EigIdx n, f ((a.1.1 : ℕ), (a.1.2 : ℕ)) a.2 = ∑ k ∈ Finset.range (n.choose x.1 * n.choose x.2), f x k := by
  rw [sum_sigma_sectors, sum_list_single (nodup_ndindex2 _ _) x]
  · rw [if_pos (mem_ndindex2.mpr ⟨by omega, by omega⟩)]
  · intro q hq hne
    have := mem_ndindex2.mp hq
    exact Finset.sum_eq_zero fun k _ => h0 q (by omega) (by omega) hne k

/-- The operator of a lead with couplings `a`. -/
noncomputable def ladSum (n : ℕ) (op : Ladder) (s : Bool) (a : Fin n → ℝ) : Matrix (Finset (Fin (n + n))) (Finset (Fin (n + n))) ℝ :=
  ∑ i, a i • op.mat (orb s i)

/-- The change of the electron number. -/
def Ladder.delta : Ladder → ℤ
  | .c => -1
  | .cdg => 1

theorem grade_ladSum (op : Ladder) (s : Bool) (a : Fin n → ℝ) : Grade (ladSum n op s a) (fun t => if t = s then op.delta else 0) := by
  refine Grade.sum fun i _ => Grade.smul ?_ _
  cases op
  · exact grade_ann s i
  · exact grade_cre s i

/-- The projections of one sector on another, with the sign of `coSgn`, are the matrix elements of the fermionic operators. -/
theorem projectAll_elem (hn : n ≤ 32) (junk : ℕ) (op : Ladder) (σ : Bool) {p q : ℕ × ℕ} {I J : Sct} {upI dwI upJ dwJ : List ℕ}
    (hI : SctOk n p.1 p.2 I upI dwI) (hJ : SctOk n q.1 q.2 J upJ dwJ)
    (hq : if σ then q.1 = p.1 ∧ op.Shift p.2 q.2 else op.Shift p.1 q.1 ∧ q.2 = p.2) :
    ∃ vs, projectAll junk (ispinOf σ) n op I J = .ok vs ∧ vs.length = n ∧
      ∀ j k, j < J.eigvals.length → k < I.eigvals.length → ∀ a : List ℝ, a.length = n →
        (List.zipWith (· * ·) (vs.map fun M => coSgn (ispinOf σ) (p.2 : ℤ) * M j k) a).sum =
          J.ket n j ⬝ᵥ (ladSum n op σ (fun i => a[(i : ℕ)]?.getD 0) *ᵥ I.ket n k) := by
  obtain ⟨p1, p2⟩ := p
  obtain ⟨q1, q2⟩ := q
  have key : ∀ i, ∃ A : ℕ → ℕ → ℝ, ∀ hi : i < n, projectSpin junk (ispinOf σ) i n op I J = .ok A ∧
      ∀ j k, j < J.eigvals.length → k < I.eigvals.length → coSgn (ispinOf σ) (p2 : ℤ) * A j k =
        J.ket n j ⬝ᵥ (op.mat (orb σ (⟨i, hi⟩ : Fin n)) *ᵥ I.ket n k) := by
    intro i
    by_cases hi : i < n
    · cases σ
      · simp only [Bool.false_eq_true, if_false] at hq
        obtain ⟨hs, rfl⟩ := hq
        obtain ⟨A, h1, h2⟩ := C34_project_exact_up (junk := junk) hn hi op hs hI hJ
        refine ⟨A, fun _ => ⟨h1, fun j k hj hk => ?_⟩⟩
        rw [h2 j k hj hk, hI.ket_eq, hJ.ket_eq]
        simp only [coSgn, ispinOf, Bool.false_eq_true, if_false, if_true, Int.toNat_natCast]
        rw [← mul_assoc, ← pow_add, Even.neg_one_pow ⟨_, rfl⟩, one_mul]
      · simp only [if_true] at hq
        obtain ⟨rfl, hs⟩ := hq
        obtain ⟨A, h1, h2⟩ := C34_project_exact_dw (junk := junk) hn hi op hs hI hJ
        refine ⟨A, fun _ => ⟨h1, fun j k hj hk => ?_⟩⟩
        rw [h2 j k hj hk, hI.ket_eq, hJ.ket_eq]
        simp [coSgn, ispinOf]
    · exact ⟨fun _ _ => 0, fun h => absurd h hi⟩
  choose A hA using key
  refine ⟨_, projectAll_ok A fun i hi => (hA i hi).1, by simp, fun j k hj hk a ha => ?_⟩
  have e1 : a = (List.range n).map fun i => a[i]?.getD 0 := by
    apply List.ext_getElem (by simp [ha])
    intro i h1 h2
    simp [List.getElem?_eq_getElem h1]
  have e2 : ∀ (f g : ℕ → ℝ) (l : List ℕ), List.zipWith (· * ·) (l.map f) (l.map g) = l.map fun i => f i * g i := by
    intro f g l
    induction l with
    | nil => rfl
    | cons x l ih => simp [ih]
  conv_lhs => rw [e1]
  rw [List.map_map, e2, sum_map_range, Finset.sum_range]
  unfold ladSum
  rw [Matrix.sum_mulVec, dotProduct_sum]
  apply Finset.sum_congr rfl; intro i _
  rw [Matrix.smul_mulVec, dotProduct_smul, smul_eq_mul, ← (hA i i.2).2 j k hj hk]
  simp only [Function.comp]
  ring

end Edpyt
