import Verif.Proof.Embed
import Verif.Proof.SplitHam
import Verif.Spec.FirstSites
/-!
The Hamiltonian of the first sites of an input and the Hamiltonian of these sites alone.
-/
namespace Edpyt
open Edpyt.Spec Matrix

/-- The modes of the first `k` sites among the modes of `n` sites. -/
def siteEmb {k n : ℕ} (h : k ≤ n) : Fin (k + k) ↪o Fin (n + n) :=
  OrderEmbedding.ofStrictMono (fun m => if (m : ℕ) < k then ⟨m, by omega⟩ else ⟨n + (m - k), by omega⟩) (by
    intro x y hxy
    have : (x : ℕ) < y := hxy
    by_cases h1 : (x : ℕ) < k <;> by_cases h2 : (y : ℕ) < k <;> simp only [h1, h2, if_true, if_false, Fin.mk_lt_mk] <;> omega)

theorem siteEmb_val {k n : ℕ} (h : k ≤ n) (m : Fin (k + k)) : (siteEmb h m : ℕ) = if (m : ℕ) < k then (m : ℕ) else n + (m - k) := by
  change ((if (m : ℕ) < k then ⟨m, by omega⟩ else ⟨n + (m - k), by omega⟩ : Fin (n + n)) : ℕ) = _
  split_ifs <;> rfl

theorem siteEmb_orb {k n : ℕ} (h : k ≤ n) (s : Bool) (i : Fin k) : siteEmb h (orb s i) = orb s (Fin.castLE h i) := by
  have hi := i.2
  apply Fin.ext
  rw [siteEmb_val]
  cases s <;> simp [orb] <;> omega

/-- `X'` is `X` on the states of the first sites. -/
def Semi {k n : ℕ} (h : k ≤ n) (X : Matrix (Finset (Fin (n + n))) (Finset (Fin (n + n))) ℝ) (X' : Matrix (Finset (Fin (k + k))) (Finset (Fin (k + k))) ℝ) : Prop :=
  X * emb ℝ (siteEmb h) = emb ℝ (siteEmb h) * X'

section
variable {k n : ℕ} {h : k ≤ n} {X Y : Matrix (Finset (Fin (n + n))) (Finset (Fin (n + n))) ℝ} {X' Y' : Matrix (Finset (Fin (k + k))) (Finset (Fin (k + k))) ℝ}

theorem Semi.mul (hX : Semi h X X') (hY : Semi h Y Y') : Semi h (X * Y) (X' * Y') := by
  unfold Semi at *
  rw [Matrix.mul_assoc, hY, ← Matrix.mul_assoc, hX, Matrix.mul_assoc]

theorem Semi.add (hX : Semi h X X') (hY : Semi h Y Y') : Semi h (X + Y) (X' + Y') := by
  unfold Semi at *
  rw [Matrix.add_mul, hX, hY, Matrix.mul_add]

theorem Semi.sub (hX : Semi h X X') (hY : Semi h Y Y') : Semi h (X - Y) (X' - Y') := by
  unfold Semi at *
  rw [Matrix.sub_mul, hX, hY, Matrix.mul_sub]

theorem Semi.smul (c : ℝ) (hX : Semi h X X') : Semi h (c • X) (c • X') := by
  unfold Semi at *
  rw [Matrix.smul_mul, hX, Matrix.mul_smul]

theorem Semi.one : Semi h 1 1 := by
  unfold Semi
  rw [Matrix.one_mul, Matrix.mul_one]

theorem Semi.zero : Semi h 0 0 := by
  unfold Semi
  rw [Matrix.zero_mul, Matrix.mul_zero]

theorem Semi.ann (s : Bool) (i : Fin k) : Semi h (Spec.ann ℝ (orb s (Fin.castLE h i))) (Spec.ann ℝ (orb s i)) := by
  unfold Semi
  rw [← siteEmb_orb, ann_emb]

theorem Semi.cre (s : Bool) (i : Fin k) : Semi h (Spec.cre ℝ (orb s (Fin.castLE h i))) (Spec.cre ℝ (orb s i)) := by
  unfold Semi
  rw [← siteEmb_orb, cre_emb]

theorem Semi.num (s : Bool) (i : Fin k) : Semi h (Spec.num ℝ (orb s (Fin.castLE h i))) (Spec.num ℝ (orb s i)) := by
  unfold Semi
  rw [← siteEmb_orb, num_emb]

theorem Semi.sum {ι : Type} [Fintype ι] {F : ι → Matrix (Finset (Fin (n + n))) (Finset (Fin (n + n))) ℝ} {F' : ι → Matrix (Finset (Fin (k + k))) (Finset (Fin (k + k))) ℝ}
    (hF : ∀ i, Semi h (F i) (F' i)) : Semi h (∑ i, F i) (∑ i, F' i) := by
  unfold Semi at *
  rw [Matrix.sum_mul, Matrix.mul_sum]
  exact Finset.sum_congr rfl fun i _ => hF i

theorem Semi.sites {F : Fin n → Matrix (Finset (Fin (n + n))) (Finset (Fin (n + n))) ℝ} {F' : Fin k → Matrix (Finset (Fin (k + k))) (Finset (Fin (k + k))) ℝ}
    (h0 : ∀ i : Fin n, ¬ (i : ℕ) < k → F i = 0) (hF : ∀ i, Semi h (F (Fin.castLE h i)) (F' i)) : Semi h (∑ i, F i) (∑ i, F' i) := by
  unfold Semi at *
  rw [Matrix.sum_mul, Matrix.mul_sum]
  refine (Fintype.sum_of_injective (Fin.castLE h) (Fin.castLE_injective h) _ _ (fun i hi => ?_) fun i => (hF i).symm).symm
  rw [h0 i fun hlt => hi ⟨⟨i, hlt⟩, rfl⟩, Matrix.zero_mul]

theorem Semi.pairs {f : Fin n → Fin n → ℝ} {f' : Fin k → Fin k → ℝ} {F : Fin n → Fin n → Matrix (Finset (Fin (n + n))) (Finset (Fin (n + n))) ℝ}
    {F' : Fin k → Fin k → Matrix (Finset (Fin (k + k))) (Finset (Fin (k + k))) ℝ} (h0 : ∀ i j : Fin n, ¬ ((i : ℕ) < k ∧ (j : ℕ) < k) → f i j = 0)
    (hf : ∀ i j, f (Fin.castLE h i) (Fin.castLE h j) = f' i j) (hF : ∀ i j, Semi h (F (Fin.castLE h i) (Fin.castLE h j)) (F' i j)) :
    Semi h (∑ i, ∑ j, f i j • F i j) (∑ i, ∑ j, f' i j • F' i j) := by
  refine Semi.sites (fun i hi => Finset.sum_eq_zero fun j _ => by rw [h0 i j fun hc => hi hc.1, zero_smul]) fun i => ?_
  refine Semi.sites (fun j hj => by rw [h0 _ j fun hc => hj hc.2, zero_smul]) fun j => ?_
  rw [hf]
  exact (hF i j).smul _

theorem Semi.genHam (hf : Bool) {t : Bool → Fin n → Fin n → ℝ} {z : Fin n → ℝ} {V Jx Jp : Fin n → Fin n → ℝ} {t' : Bool → Fin k → Fin k → ℝ} {z' : Fin k → ℝ} {V' Jx' Jp' : Fin k → Fin k → ℝ}
    (t0 : ∀ s (i j : Fin n), ¬ ((i : ℕ) < k ∧ (j : ℕ) < k) → t s i j = 0) (V0 : ∀ i j : Fin n, ¬ ((i : ℕ) < k ∧ (j : ℕ) < k) → V i j = 0)
    (x0 : ∀ i j : Fin n, ¬ ((i : ℕ) < k ∧ (j : ℕ) < k) → Jx i j = 0) (p0 : ∀ i j : Fin n, ¬ ((i : ℕ) < k ∧ (j : ℕ) < k) → Jp i j = 0)
    (ht : ∀ s i j, t s (Fin.castLE h i) (Fin.castLE h j) = t' s i j) (hz : ∀ i, z (Fin.castLE h i) = z' i) (hV : ∀ i j, V (Fin.castLE h i) (Fin.castLE h j) = V' i j)
    (hx : ∀ i j, Jx (Fin.castLE h i) (Fin.castLE h j) = Jx' i j) (hp : ∀ i j, Jp (Fin.castLE h i) (Fin.castLE h j) = Jp' i j) :
    Semi h (Edpyt.genHam hf t z V Jx Jp) (Edpyt.genHam hf t' z' V' Jx' Jp') := by
  unfold Edpyt.genHam hubbard
  refine (((?_ : Semi h _ _).add ?_).add ?_).add (((?_ : Semi h _ _).sub ?_).add ?_)
  · exact Semi.sum fun s => Semi.pairs (t0 s) (ht s) fun i j => (Semi.cre s i).mul (Semi.ann s j)
  · refine Semi.sites (fun i hi => by rw [V0 i i fun hc => hi hc.1, zero_smul]) fun i => ?_
    rw [hV]
    exact (((Semi.num false i).sub (Semi.one.smul _)).mul ((Semi.num true i).sub (Semi.one.smul _))).smul _
  · refine Semi.smul _ (Semi.pairs (fun i j hc => by rw [V0 i j hc, ite_self]) (fun i j => ?_) fun i j => ?_)
    · rw [hV]
      by_cases hij : i = j
      · subst hij; simp
      · have : Fin.castLE h i ≠ Fin.castLE h j := fun e => hij (Fin.castLE_injective h e)
        simp [hij, this]
    · rw [hz, hz]
      exact (((Semi.num false i).add (Semi.num true i)).sub (Semi.one.smul _)).mul (((Semi.num false j).add (Semi.num true j)).sub (Semi.one.smul _))
  · exact Semi.smul _ (Semi.pairs x0 hx fun i j => Semi.sum fun s => (((Semi.cre s i).mul (Semi.cre s j)).mul (Semi.ann s i)).mul (Semi.ann s j))
  · exact Semi.smul _ (Semi.pairs x0 hx fun i j => Semi.sum fun s => (((Semi.cre s i).mul (Semi.cre (!s) j)).mul (Semi.ann (!s) i)).mul (Semi.ann s j))
  · exact Semi.smul _ (Semi.pairs p0 hp fun i j => Semi.sum fun s => (((Semi.cre s i).mul (Semi.cre (!s) i)).mul (Semi.ann (!s) j)).mul (Semi.ann s j))

end

section
variable {a a' : HamArgs}

/-- Group of the first `k` sites. -/
abbrev firstCol (k : ℕ) : Bool → ℕ → Bool := fun _ i => decide (i < k)

theorem Spec.FirstSites.semi (h : FirstSites a a') : Semi h.le (a.partHam (firstCol a'.n) true) a'.ham := by
  rw [part_ham]
  have hJ : ∀ {J J' : Option (ℕ → ℕ → ℝ)}, (∀ i j : ℕ, i < a'.n → j < a'.n → J'.getD (fun _ _ => 0) i j = J.getD (fun _ _ => 0) i j) → ∀ i j : Fin a'.n,
      (if firstCol a'.n false (Fin.castLE h.le i) = true ∧ firstCol a'.n false (Fin.castLE h.le j) = true then offdiag (n := a.n) (optMat J) (Fin.castLE h.le i) (Fin.castLE h.le j) else 0) =
        offdiag (n := a'.n) (optMat J') i j := by
    intro J J' hJ i j
    rw [if_pos (by simp [firstCol])]
    unfold offdiag optMat
    have : (Fin.castLE h.le i ≠ Fin.castLE h.le j) ↔ i ≠ j := by simp
    simp only [this, Fin.val_castLE, hJ i j i.2 j.2]
  have hmask : ∀ {s : Bool} {i j : Fin a.n} {x : ℝ}, ¬ ((i : ℕ) < a'.n ∧ (j : ℕ) < a'.n) → (if firstCol a'.n s i = true ∧ firstCol a'.n s j = true then x else 0) = 0 := by
    intro s i j x hc
    rw [if_neg]
    simpa [firstCol] using hc
  have key : Semi h.le (genHam (n := a.n) a.hf
    (fun s (i j : Fin a.n) => if firstCol a'.n s i = true ∧ firstCol a'.n s j = true then kept (n := a.n) a.mu (a.H (if s then 1 else 0)) i j else 0) (fun i => (a.z.getD fun _ => if a.hf then 1 else 0) i)
    (fun i j : Fin a.n => if firstCol a'.n false i = true ∧ firstCol a'.n false j = true then a.V.U.getD 0 i j else 0)
    (fun i j : Fin a.n => if firstCol a'.n false i = true ∧ firstCol a'.n false j = true then offdiag (n := a.n) (optMat a.V.Jx) i j else 0)
    (fun i j : Fin a.n => if firstCol a'.n false i = true ∧ firstCol a'.n false j = true then offdiag (n := a.n) (optMat a.V.Jp) i j else 0))
    (genHam (n := a'.n) a.hf (fun s => kept (n := a'.n) a'.mu (a'.H (if s then 1 else 0))) (fun i => (a'.z.getD fun _ => if a'.hf then 1 else 0) i)
      (fun i j : Fin a'.n => a'.V.U.getD 0 i j) (offdiag (n := a'.n) (optMat a'.V.Jx)) (offdiag (n := a'.n) (optMat a'.V.Jp))) := by
    refine Semi.genHam a.hf (fun s i j hc => hmask hc) (fun i j hc => hmask (s := false) hc) (fun i j hc => hmask (s := false) hc) (fun i j hc => hmask (s := false) hc) (fun s i j => ?_) (fun i => ?_) (fun i j => ?_) (hJ h.Jx) (hJ h.Jp)
    · rw [if_pos (by simp [firstCol]), kept_apply, kept_apply]
      have h1 := h.H s i j i.2 j.2
      by_cases hij : i = j
      · subst hij
        simpa using h1.symm
      · have hij' : (i : ℕ) ≠ j := fun e => hij (Fin.ext e)
        have hij'' : Fin.castLE h.le i ≠ Fin.castLE h.le j := fun e => hij (Fin.castLE_injective h.le e)
        rw [if_neg hij', if_neg hij', add_zero, add_zero] at h1
        rw [if_neg hij, if_neg hij'']
        simp only [Fin.val_castLE, h1]
    · exact (h.z i i.2).symm
    · rw [if_pos (by simp [firstCol])]
      exact (h.U i j i.2 j.2).symm
  convert key using 1
  unfold HamArgs.ham codeExchange genHam
  rw [h.hf]

end
end Edpyt
