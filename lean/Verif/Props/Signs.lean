import Verif.Proof.Signs
import Verif.Props.Decouple
/-!
C180: the signs of the site orbitals are a convention.
-/
namespace Edpyt
open Edpyt.Spec Matrix

section
variable {a : HamArgs} {ε : Bool → ℕ → ℝ} {junk junk' : ℕ} {es es' : Espace (ℕ × ℕ)} {egs egs' beta : ℝ}

theorem isGreen_smul_pair {ι : Type} [Fintype ι] [DecidableEq ι] {β : ℝ} {H A B : Matrix ι ι ℝ} (hH : H.IsSymm) {z g : ℂ} (hz : z.im ≠ 0) (c d : ℝ) (h : IsGreen β H A B z g) :
    IsGreen β H (c • A) (d • B) z (c * d * g) := by
  obtain ⟨u, E, hb⟩ := EigBasis.of_symm (show Hᵀ = H from hH)
  rw [hb.green β _ _ hz] at h ⊢
  rw [h, ← mul_div_assoc, Finset.mul_sum]
  congr 1
  refine Finset.sum_congr rfl fun k _ => ?_
  rw [Finset.mul_sum]
  refine Finset.sum_congr rfl fun l _ => ?_
  rw [Matrix.smul_mulVec, Matrix.smul_mulVec, dotProduct_smul, dotProduct_smul, smul_eq_mul, smul_eq_mul, Complex.ofReal_mul, Complex.ofReal_mul]
  ring

theorem Spec.IsSigns.green (ha : a.Valid) (h : IsSigns a ε) {β : ℝ} {z g : ℂ} (hz : z.im ≠ 0) {s : Bool} {i j : Fin a.n} (hg : IsGreen β a.ham (ann ℝ (orb s i)) (cre ℝ (orb s j)) z g) :
    IsGreen β (signedHam a ε) (ann ℝ (orb s i)) (cre ℝ (orb s j)) z ((ε s i : ℝ) * (ε s j : ℝ) * g) := by
  obtain ⟨P, hP, hH⟩ := h.ham
  have h1 := isGreen_semiconj hP.orth hH hg
  rw [hP.sign_ann, hP.sign_cre] at h1
  have h2 := isGreen_smul_pair (show (signedHam a ε).IsSymm from ham_symm (h.valid ha)) hz (ε s i) (ε s j) h1
  have hsq : ∀ i : Fin a.n, ε s i * ε s i = 1 := fun i => by rcases h.sign s i i.2 with e | e <;> rw [e] <;> norm_num
  rwa [smul_smul, smul_smul, hsq, hsq, one_smul, one_smul] at h2

theorem Spec.IsSigns.occ (h : IsSigns a ε) (β : ℝ) (s : Bool) (i : Fin a.n) : thermalOcc β (signedHam a ε) s i = thermalOcc β a.ham s i := by
  obtain ⟨P, hP, hH⟩ := h.ham
  unfold thermalOcc
  rw [← thermal_semiconj hP.orth hH, ← cplx_mul', ← cplx_mul', hP.sign_num fun s i => h.sign s i i.2]

/-- **C180** `build_gf2_exact`: with other signs of the orbitals, element `(i, j)` is multiplied by the two signs. -/
theorem C180_gf2_exact (ha : a.Valid) (h : IsSigns a ε) (hes : EigenEspace a.n a.ham es) (hes' : EigenEspace a.n (signed a ε).ham es') (s : Bool) :
    ∃ G G', buildGf2Exact junk a.n es beta egs s = .ok G ∧ buildGf2Exact junk' a.n es' beta egs' s = .ok G' ∧
      ∀ i j : ℕ, i < a.n → j < a.n → ∀ e eta : ℝ, eta ≠ 0 → (G' i j).call e eta = ε s i * ε s j * (G i j).call e eta := by
  obtain ⟨G, h1, h2⟩ := C93_gf2_exact (junk := junk) (beta := beta) (egs := egs) ha.le hes s
  obtain ⟨G', h1', h2'⟩ := C93_gf2_exact (junk := junk') (beta := beta) (egs := egs') (h.valid ha).le hes' s
  refine ⟨G, G', h1, h1', fun i j hi hj e eta he => ?_⟩
  have hz : (e + Complex.I * eta : ℂ).im ≠ 0 := by simpa using he
  have q := (h2 ⟨i, hi⟩ ⟨j, hj⟩ e eta he _).mpr rfl
  exact ((h2' ⟨i, hi⟩ ⟨j, hj⟩ e eta he _).mp (h.green ha hz q)).symm

/-- **C180** `build_gf_exact`: the local Green functions do not depend on the signs. -/
theorem C180_gf_exact (ha : a.Valid) (h : IsSigns a ε) (hes : EigenEspace a.n a.ham es) (hes' : EigenEspace a.n (signed a ε).ham es') {i : ℕ} (hi : i < a.n) :
    ∃ g g', buildGfExact junk a.n es beta egs i false = .ok g ∧ buildGfExact junk' a.n es' beta egs' i false = .ok g' ∧ ∀ e eta : ℝ, eta ≠ 0 → g'.call e eta = g.call e eta := by
  obtain ⟨g, h1, h2⟩ := C92_gf_exact (junk := junk) (beta := beta) (egs := egs) ha.le hes hi
  obtain ⟨g', h1', h2'⟩ := C92_gf_exact (junk := junk') (beta := beta) (egs := egs') (h.valid ha).le hes' hi
  refine ⟨g, g', h1, h1', fun e eta he => ?_⟩
  have hz : (e + Complex.I * eta : ℂ).im ≠ 0 := by simpa using he
  have q := (h2 e eta he _).mpr rfl
  have hsq : (ε false i : ℂ) * (ε false i : ℂ) = 1 := by rcases h.sign false i hi with e | e <;> rw [e] <;> norm_num
  have := (h2' e eta he _).mp (h.green ha hz q)
  rw [← this]
  change (ε false i : ℂ) * (ε false i : ℂ) * g.call e eta = _
  rw [hsq, one_mul]

/-- **C180** `get_occupation` does not depend on the signs. -/
theorem C180_occupation (h : IsSigns a ε) (hes : EigenEspace a.n a.ham es) (hes' : EigenEspace a.n (signed a ε).ham es')
    {occ occ' : List OccSct} (hocc : List.Forall₂ OccView es occ) (hocc' : List.Forall₂ OccView es' occ') :
    ∃ U D As U' D' As', getOccupation occ egs beta a.n = .ok (U, D, As) ∧ getOccupation occ' egs' beta a.n = .ok (U', D', As') ∧ ∀ k < a.n, U' k = U k ∧ D' k = D k := by
  obtain ⟨U, D, As, h1, h2⟩ := C101_get_occupation hes hocc egs beta
  obtain ⟨U', D', As', h1', h2'⟩ := C101_get_occupation hes' hocc' egs' beta
  exact ⟨U, D, As, U', D', As', h1, h1', fun k hk => ⟨Complex.ofReal_injective ((h2' ⟨k, hk⟩).1.trans ((h.occ beta false ⟨k, hk⟩).trans (h2 ⟨k, hk⟩).1.symm)),
    Complex.ofReal_injective ((h2' ⟨k, hk⟩).2.trans ((h.occ beta true ⟨k, hk⟩).trans (h2 ⟨k, hk⟩).2.symm))⟩⟩

/-- **C180** the energies do not depend on the signs. -/
theorem C180_energies (h : IsSigns a ε) (E : ℝ) : (∃ ψ, ψ ≠ 0 ∧ a.ham *ᵥ ψ = E • ψ) ↔ ∃ ψ, ψ ≠ 0 ∧ (signed a ε).ham *ᵥ ψ = E • ψ := by
  obtain ⟨P, hP, hH⟩ := h.ham
  change _ ↔ ∃ ψ, ψ ≠ 0 ∧ signedHam a ε *ᵥ ψ = E • ψ
  constructor
  · rintro ⟨ψ, h0, h1⟩
    refine ⟨P *ᵥ ψ, fun hz => h0 ?_, ?_⟩
    · rw [← Matrix.one_mulVec ψ, ← hP.orth, ← Matrix.mulVec_mulVec, hz, Matrix.mulVec_zero]
    · rw [Matrix.mulVec_mulVec, ← hH, ← Matrix.mulVec_mulVec, h1, Matrix.mulVec_smul]
  · rintro ⟨ψ, h0, h1⟩
    refine ⟨Pᵀ *ᵥ ψ, fun hz => h0 ?_, ?_⟩
    · rw [← Matrix.one_mulVec ψ, ← hP.orth', ← Matrix.mulVec_mulVec, hz, Matrix.mulVec_zero]
    · have h2 : a.ham * Pᵀ = Pᵀ * signedHam a ε := by
        calc a.ham * Pᵀ = Pᵀ * (P * a.ham) * Pᵀ := by rw [← Matrix.mul_assoc, hP.orth, Matrix.one_mul]
          _ = _ := by rw [hH, Matrix.mul_assoc, Matrix.mul_assoc, hP.orth', Matrix.mul_one]
      rw [Matrix.mulVec_mulVec, h2, ← Matrix.mulVec_mulVec, h1, Matrix.mulVec_smul]

/-- **C180** `build_gf_lanczos`: the same up to the errors of the Lanczos runs, for both spins and both representations. -/
theorem C180_gf_lanczos {g g' : GfLArgs} (jk : ℝ) (ha : g.ham.Valid) (h : IsSigns g.ham ε) (hs : g'.ham = signed g.ham ε)
    (hb : g'.beta = g.beta) (hsp : g'.ispin = g.ispin) (hw : g.ham.n ≤ g.w) (hw' : g.ham.n ≤ g'.w) (hcfg : g.cfg.Ok) (hcfg' : g'.cfg.Ok)
    (hes : EigenEspace g.ham.n g.ham.ham es) (hes' : EigenEspace g.ham.n (signed g.ham ε).ham es') {i : ℕ} (hi : i < g.ham.n)
    {out out' : GfLOut} (hr : BuildGfLanczos g i false es (.ok out)) (hr' : BuildGfLanczos g' i false es' (.ok out')) (e eta δ : ℝ) (he : eta ≠ 0) (h0 : 0 ≤ δ)
    (hδ : ∀ run ∈ out.log, run.ResLe δ) (hδ' : ∀ run ∈ out'.log, run.ResLe δ) :
    ‖out'.gfe.call jk e eta - out.gfe.call jk e eta‖ ≤ 2 * (δ / eta ^ 2) + 2 * ((g.cfg.delta ^ 2 + g'.cfg.delta ^ 2) / |eta|) := by
  obtain ⟨cfg', rep', w', jk', ham', beta', egs', isp'⟩ := g'
  obtain rfl : ham' = signed g.ham ε := hs
  obtain rfl : beta' = g.beta := hb
  obtain rfl : isp' = g.ispin := hsp
  have hz : (e + Complex.I * eta : ℂ).im ≠ 0 := by simpa using he
  obtain ⟨o, e1, -, -, -, q⟩ := (C98_gf_lanczos jk ha hw hcfg hi hes false).2 _ hr
  injection e1 with e1; subst e1
  obtain ⟨o', e1', -, -, -, q'⟩ := (C98_gf_lanczos jk (h.valid ha) hw' hcfg' hi hes' false).2 _ hr'
  injection e1' with e1'; subst e1'
  obtain ⟨ge, gh, hp⟩ := greenParts_exist hes g.beta (ann ℝ (orb g.ispin ⟨i, hi⟩)) (cre ℝ (orb g.ispin ⟨i, hi⟩)) hz
  obtain ⟨ge', gh', hp'⟩ := greenParts_exist hes' g.beta (ann ℝ (orb g.ispin ⟨i, hi⟩)) (cre ℝ (orb g.ispin ⟨i, hi⟩)) hz
  have b1 := q e eta δ he h0 hδ ge gh hp
  have b2 := q' e eta δ he h0 hδ' ge' gh' hp'
  rw [if_neg (by simp)] at b1 b2
  have k2 := h.green ha hz (IsGreenParts.isGreen hp)
  have hsq : (ε g.ispin i : ℂ) * (ε g.ispin i : ℂ) = 1 := by rcases h.sign g.ispin i hi with e | e <;> rw [e] <;> norm_num
  change IsGreen g.beta (signed g.ham ε).ham _ _ _ ((ε g.ispin i : ℂ) * (ε g.ispin i : ℂ) * (ge + gh)) at k2
  rw [hsq, one_mul] at k2
  have m2 := ((hes'.basis.green g.beta _ _ hz _).mp (IsGreenParts.isGreen hp')).trans ((hes'.basis.green g.beta _ _ hz _).mp k2).symm
  rw [m2] at b2
  rw [norm_sub_rev] at b1
  refine (norm_sub_le_norm_sub_add_norm_sub _ _ _).trans ((add_le_add b2 b1).trans (le_of_eq ?_))
  change δ / eta ^ 2 + 2 * (cfg'.delta ^ 2 / |eta|) + (δ / eta ^ 2 + 2 * (g.cfg.delta ^ 2 / |eta|)) = _
  ring

end

/-- On a bipartite lattice the sign of the hopping is a convention: a chain of four sites with alternating signs. -/
example (t : ℝ) : ∃ a : HamArgs, ∃ ε : Bool → ℕ → ℝ, a.Valid ∧ IsSigns a ε ∧ a.H 0 0 1 = t ∧ (signed a ε).H 0 0 1 = -t ∧ (signed a ε).H 0 2 2 = a.H 0 2 2 := by
  refine ⟨⟨4, fun _ i j => if i = j then -2 else if i + 1 = j ∨ j + 1 = i then t else 0, .array fun i j => if i = j then 4 else 0, none, false, 0⟩, fun _ i => if i % 2 = 0 then 1 else -1,
    ⟨by norm_num, by norm_num, rfl, fun s i j _ _ => ?_, by simp [VArg.array], by simp [VArg.array], fun _ => rfl⟩, ⟨fun s i _ => ?_, .inl fun _ _ => rfl⟩, ?_, ?_, ?_⟩
  · by_cases h : i = j
    · subst h; rfl
    · simp only [if_neg h, if_neg (Ne.symm h), or_comm]
  · by_cases h : i % 2 = 0 <;> simp [h]
  · simp
  · simp [signed]
  · simp [signed]

end Edpyt
