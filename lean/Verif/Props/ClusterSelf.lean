import Verif.Props.SameCluster
import Verif.Proof.ClusterDyson
import Verif.Props.SelfCausal
/-!
C183: the self-energy of a cluster of interacting sites lives on the cluster, and is fixed by the Green functions on the cluster.
-/
namespace Edpyt
open Edpyt.Spec Matrix

section
variable {a a' : HamArgs} {junk junk' : ℕ} {es es' : Espace (ℕ × ℕ)} {egs egs' beta : ℝ} {S : ℕ → Prop}

theorem Spec.InteractsOn.rows (h : InteractsOn a S) (hes : EigenEspace a.n a.ham es) (s : Bool) (β : ℝ) {z : ℂ} (hz : z.im ≠ 0) {G : Matrix (Fin a.n) (Fin a.n) ℂ}
    (hG : ∀ i j, IsGreen β a.ham (ann ℝ (orb s i)) (cre ℝ (orb s j)) z (G i j)) :
    (∀ i j : Fin a.n, ¬ S i → ((z • 1 - (a.oneBody s).map Complex.ofReal) * G) i j = (1 : Matrix (Fin a.n) (Fin a.n) ℂ) i j) ∧
    (∀ i j : Fin a.n, ¬ S j → (G * (z • 1 - (a.oneBody s).map Complex.ofReal)) i j = (1 : Matrix (Fin a.n) (Fin a.n) ℂ) i j) := by
  have hidle : ∀ k : Fin a.n, ¬ S k → Idle a.inter (orb s k) := fun k hk => evenAlg_idle h.mem fun hc => by
    obtain ⟨s', i, e, hi⟩ := hc
    rw [orb_inj] at e
    exact hk (e.2 ▸ hi)
  have hb := hes.basis
  rw [a.ham_inter] at hb
  exact cluster_rows (fun s i j => a.oneBody s i j) a.inter s (fun i => S i) (fun k hk => (hidle k hk).ann.eq.symm) (fun k hk => (hidle k hk).cre.eq.symm) hb β hz
    fun i j => by rw [← a.ham_inter]; exact hG i j

/-- **C183** The self-energy matrix from `build_gf2_exact` is zero unless both sites belong to the cluster. -/
theorem C183_local (ha : a.Valid) (h : InteractsOn a S) (hes : EigenEspace a.n a.ham es) (s : Bool) :
    ∃ G, buildGf2Exact junk a.n es beta egs s = .ok G ∧ ∀ e eta : ℝ, 0 < eta → IsUnit (Matrix.of fun i j : Fin a.n => (G i j).call e eta) ∧
      ∀ i j : Fin a.n, ¬ (S i ∧ S j) → selfEnergyMatrix (a.oneBody s) (e + Complex.I * eta) (Matrix.of fun i j : Fin a.n => (G i j).call e eta) i j = 0 := by
  obtain ⟨G, h1, h2⟩ := C93_gf2_exact (junk := junk) (beta := beta) (egs := egs) ha.le hes s
  refine ⟨G, h1, fun e eta he => ?_⟩
  have hz : 0 < ((e : ℂ) + Complex.I * (eta : ℂ)).im := by simpa using he
  have hG : ∀ i j, IsGreen beta a.ham (ann ℝ (orb s i)) (cre ℝ (orb s j)) (e + Complex.I * eta) ((Matrix.of fun i j : Fin a.n => (G i j).call e eta) i j) :=
    fun i j => (h2 i j e eta he.ne' _).mpr rfl
  obtain ⟨hu, -⟩ := green_causal hes.basis beta (c := fun i : Fin a.n => ann ℝ (orb s i)) (anti_orb s) hz hG
  obtain ⟨r, c⟩ := h.rows hes s beta hz.ne' hG
  exact ⟨hu, fun i j hij => self_zero hu (S := fun i : Fin a.n => S i) r c i j hij⟩

/-- The blocks of the cluster: invertible, and the self-energy is the difference of the inverses. -/
theorem Spec.InteractsOn.block (ha : a.Valid) (h : InteractsOn a S) (hes : EigenEspace a.n a.ham es) (s : Bool) (β : ℝ) {z : ℂ} (hz : 0 < z.im) {G : Matrix (Fin a.n) (Fin a.n) ℂ}
    (hG : ∀ i j, IsGreen β a.ham (ann ℝ (orb s i)) (cre ℝ (orb s j)) z (G i j)) {τ : Type} [Fintype τ] [DecidableEq τ] {f : τ → Fin a.n} (hf : f.Injective) (hr : ∀ i : Fin a.n, S i → i ∈ Set.range f) :
    IsUnit ((resolvent z (a.oneBody s)).submatrix f f) ∧ IsUnit (G.submatrix f f) ∧
    (resolvent z (a.oneBody s)).submatrix f f * (selfEnergyMatrix (a.oneBody s) z G).submatrix f f * G.submatrix f f = G.submatrix f f - (resolvent z (a.oneBody s)).submatrix f f := by
  have hs := a.oneBody_symm ha s
  obtain ⟨hu, -⟩ := green_causal hes.basis β (c := fun i : Fin a.n => ann ℝ (orb s i)) (anti_orb s) hz hG
  obtain ⟨r, c⟩ := h.rows hes s β hz.ne' hG
  refine ⟨?_, ?_, ?_⟩
  · obtain ⟨u, E, hb⟩ := EigBasis.of_symm (show (a.oneBody s)ᵀ = _ from hs)
    refine dilation_unit (A := fun x i => u x (f i)) (ω := E) (fun i j => ?_) hz fun i j => hb.resolvent_entry hs hz.ne' (f i) (f j)
    have h1 : Matrix.of u * (Matrix.of u)ᵀ = 1 := by
      ext k l
      rw [Matrix.mul_apply, Matrix.one_apply]
      exact hb.orth k l
    have h3 : (Matrix.of u)ᵀ * Matrix.of u = 1 := mul_eq_one_comm.mp h1
    have h2 := congrFun (congrFun h3 (f i)) (f j)
    rw [Matrix.mul_apply, Matrix.one_apply] at h2
    simp only [hf.eq_iff] at h2
    exact h2
  · refine (green_causal hes.basis β (c := fun i : τ => ann ℝ (orb s (f i))) (fun i j => ?_) hz (G := G.submatrix f f) fun i j => hG (f i) (f j)).1
    rw [anti_orb]
    simp only [hf.eq_iff]
  · exact self_block (resolvent_mul hs hz.ne') hu hf fun i j hij => self_zero hu (S := fun i : Fin a.n => S i) r c i j fun hc => hij ⟨hr i hc.1, hr j hc.2⟩

open Classical in
/-- **C183** The self-energy on the cluster is the difference of the inverses of the blocks of the Green functions on the cluster, without and with interaction. -/
theorem C183_cluster (ha : a.Valid) (h : InteractsOn a S) (hes : EigenEspace a.n a.ham es) (s : Bool) :
    ∃ G, buildGf2Exact junk a.n es beta egs s = .ok G ∧ ∀ e eta : ℝ, 0 < eta → ∀ i j : {i : Fin a.n // S i},
      selfEnergyMatrix (a.oneBody s) (e + Complex.I * eta) (Matrix.of fun i j : Fin a.n => (G i j).call e eta) i j =
        ((Matrix.of fun i j : {i : Fin a.n // S i} => resolvent (e + Complex.I * eta) (a.oneBody s) i j)⁻¹ - (Matrix.of fun i j : {i : Fin a.n // S i} => (G i.1 j.1).call e eta)⁻¹) i j := by
  obtain ⟨G, h1, h2⟩ := C93_gf2_exact (junk := junk) (beta := beta) (egs := egs) ha.le hes s
  refine ⟨G, h1, fun e eta he i j => ?_⟩
  have hz : 0 < ((e : ℂ) + Complex.I * (eta : ℂ)).im := by simpa using he
  have hG : ∀ i j, IsGreen beta a.ham (ann ℝ (orb s i)) (cre ℝ (orb s j)) (e + Complex.I * eta) ((Matrix.of fun i j : Fin a.n => (G i j).call e eta) i j) :=
    fun i j => (h2 i j e eta he.ne' _).mpr rfl
  obtain ⟨uA, uB, eq⟩ := h.block ha hes s beta hz hG (f := fun i : {i : Fin a.n // S i} => i.1) Subtype.val_injective fun i hi => ⟨⟨i, hi⟩, rfl⟩
  rw [Matrix.isUnit_iff_isUnit_det] at uA uB
  set A := (resolvent (e + Complex.I * eta) (a.oneBody s)).submatrix (fun i : {i : Fin a.n // S i} => i.1) (fun i : {i : Fin a.n // S i} => i.1) with hA
  set B := (Matrix.of fun i j : Fin a.n => (G i j).call e eta).submatrix (fun i : {i : Fin a.n // S i} => i.1) (fun i : {i : Fin a.n // S i} => i.1) with hB
  set X := (selfEnergyMatrix (a.oneBody s) (e + Complex.I * eta) (Matrix.of fun i j : Fin a.n => (G i j).call e eta)).submatrix (fun i : {i : Fin a.n // S i} => i.1) (fun i : {i : Fin a.n // S i} => i.1) with hX
  have e1 : X = A⁻¹ * (A * X * B) * B⁻¹ := by
    rw [Matrix.mul_assoc A X B, ← Matrix.mul_assoc A⁻¹, Matrix.nonsing_inv_mul _ uA, Matrix.one_mul, Matrix.mul_assoc, Matrix.mul_nonsing_inv _ uB, Matrix.mul_one]
  rw [eq, Matrix.mul_sub, Matrix.sub_mul, Matrix.nonsing_inv_mul _ uA, Matrix.one_mul, Matrix.mul_assoc, Matrix.mul_nonsing_inv _ uB, Matrix.mul_one] at e1
  exact congrFun (congrFun e1 i) j

/-- **C183** Two inputs with the same cluster and the same non-interacting Green function on it have the same self-energy on it. -/
theorem C183_same (ha : a.Valid) (ha' : a'.Valid) (h : SameCluster a a' S) (hes : EigenEspace a.n a.ham es) (hes' : EigenEspace a'.n a'.ham es') (s : Bool) :
    ∃ G G', buildGf2Exact junk a.n es beta egs s = .ok G ∧ buildGf2Exact junk' a'.n es' beta egs' s = .ok G' ∧
      ∀ e eta : ℝ, 0 < eta → ∀ (i j : ℕ) (hi : S i) (hj : S j),
        selfEnergyMatrix (a'.oneBody s) (e + Complex.I * eta) (Matrix.of fun i j : Fin a'.n => (G' i j).call e eta) ⟨i, h.on'.lt i hi⟩ ⟨j, h.on'.lt j hj⟩ =
        selfEnergyMatrix (a.oneBody s) (e + Complex.I * eta) (Matrix.of fun i j : Fin a.n => (G i j).call e eta) ⟨i, h.on.lt i hi⟩ ⟨j, h.on.lt j hj⟩ := by
  classical
  obtain ⟨G, h1, h2⟩ := C93_gf2_exact (junk := junk) (beta := beta) (egs := egs) ha.le hes s
  obtain ⟨G', h1', h2'⟩ := C93_gf2_exact (junk := junk') (beta := beta) (egs := egs') ha'.le hes' s
  refine ⟨G, G', h1, h1', fun e eta he i j hi hj => ?_⟩
  have hz : 0 < ((e : ℂ) + Complex.I * (eta : ℂ)).im := by simpa using he
  have hG : ∀ i j, IsGreen beta a.ham (ann ℝ (orb s i)) (cre ℝ (orb s j)) (e + Complex.I * eta) ((Matrix.of fun i j : Fin a.n => (G i j).call e eta) i j) :=
    fun i j => (h2 i j e eta he.ne' _).mpr rfl
  have hG' : ∀ i j, IsGreen beta a'.ham (ann ℝ (orb s i)) (cre ℝ (orb s j)) (e + Complex.I * eta) ((Matrix.of fun i j : Fin a'.n => (G' i j).call e eta) i j) :=
    fun i j => (h2' i j e eta he.ne' _).mpr rfl
  obtain ⟨uA, uB, eq⟩ := h.on.block ha hes s beta hz hG (f := fun i : {i : Fin a.n // S i} => i.1) Subtype.val_injective fun i hi => ⟨⟨i, hi⟩, rfl⟩
  obtain ⟨-, -, eq'⟩ := h.on'.block ha' hes' s beta hz hG' (f := fun i : {i : Fin a.n // S i} => (⟨i.1, h.on'.lt i.1 i.2⟩ : Fin a'.n))
    (fun x y hxy => Subtype.ext (Fin.ext (by simpa using hxy))) fun i hi => ⟨⟨⟨i, h.on.lt i hi⟩, hi⟩, rfl⟩
  have eA : (resolvent (e + Complex.I * eta) (a'.oneBody s)).submatrix (fun i : {i : Fin a.n // S i} => (⟨i.1, h.on'.lt i.1 i.2⟩ : Fin a'.n)) (fun i : {i : Fin a.n // S i} => (⟨i.1, h.on'.lt i.1 i.2⟩ : Fin a'.n)) =
      (resolvent (e + Complex.I * eta) (a.oneBody s)).submatrix (fun i : {i : Fin a.n // S i} => i.1) (fun i : {i : Fin a.n // S i} => i.1) := by
    ext x y
    exact (h.green s _ hz.ne' x.1 y.1 x.2 y.2).symm
  have eB : (Matrix.of fun i j : Fin a'.n => (G' i j).call e eta).submatrix (fun i : {i : Fin a.n // S i} => (⟨i.1, h.on'.lt i.1 i.2⟩ : Fin a'.n)) (fun i : {i : Fin a.n // S i} => (⟨i.1, h.on'.lt i.1 i.2⟩ : Fin a'.n)) =
      (Matrix.of fun i j : Fin a.n => (G i j).call e eta).submatrix (fun i : {i : Fin a.n // S i} => i.1) (fun i : {i : Fin a.n // S i} => i.1) := by
    ext x y
    obtain ⟨g, q1, q2⟩ := (h.core ha ha' beta).1 s (e + Complex.I * eta) hz.ne' x.1 y.1 x.2 y.2
    exact ((h2' ⟨x.1, h.on'.lt _ x.2⟩ ⟨y.1, h.on'.lt _ y.2⟩ e eta he.ne' _).mp q2).symm.trans ((h2 x.1 y.1 e eta he.ne' _).mp q1)
  rw [eA, eB, ← eq] at eq'
  have e1 := uA.mul_left_cancel (uB.mul_right_cancel eq')
  exact congrFun (congrFun e1 ⟨⟨i, h.on.lt i hi⟩, hi⟩) ⟨⟨j, h.on.lt j hj⟩, hj⟩

end

/-- The dimer interacts on its two sites; the hypotheses of C183 hold for it, and its bath sites carry no self-energy. -/
example (U V : ℝ) : InteractsOn (dimerTwo U V) (· < 2) ∧ (∃ es, EigenEspace 4 (dimerTwo U V).ham es) := by
  have key : ∀ i j : ℕ, (if i < 2 ∧ j < 2 then (if i = j then U else V) else 0) ≠ 0 → i < 2 ∧ j < 2 := fun i j h => by
    by_contra hc; rw [if_neg hc] at h; exact h rfl
  exact ⟨⟨fun i hi => lt_trans hi (by simp [dimerTwo]), fun i j _ _ h => key i j h, fun i j _ _ _ h => absurd rfl h, fun i j _ _ _ h => absurd rfl h⟩, eigenEspace_exists (dimerTwo_valid U V)⟩

end Edpyt
