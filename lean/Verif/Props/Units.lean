import Verif.Proof.Units
import Verif.Props.Decouple
import Verif.Props.Variational
import Verif.Props.FreeSpectrum
import Verif.Props.LevelSymm
import Verif.Props.Signs
/-!
C193: the results do not depend on the unit of energy, as long as no element crosses the absolute threshold `1e-7` of the program.
-/
namespace Edpyt
open Edpyt.Spec Matrix

section
variable {a : HamArgs} {c : ℝ} {junk junk' w w' : ℕ} {es es' : Espace (ℕ × ℕ)} {egs egs' beta : ℝ}

theorem units_z (c e eta : ℝ) : (((c * e : ℝ) : ℂ) + Complex.I * ((c * eta : ℝ) : ℂ)) = c * ((e : ℂ) + Complex.I * eta) := by
  push_cast
  ring

/-- **C193** `build_gf2_exact`: with every energy multiplied by `c > 0` and `beta` divided by `c`, the Green functions at `c` times the frequency and `c` times the broadening are divided by `c`. -/
theorem C193_gf2_exact_partial (ha : a.Valid) (hc : 0 < c) (h : UnitsOk c a) (hes : EigenEspace a.n a.ham es) (hes' : EigenEspace a.n (inUnits c a).ham es') (s : Bool) :
    ∃ G G', buildGf2Exact junk a.n es beta egs s = .ok G ∧ buildGf2Exact junk' a.n es' (beta / c) egs' s = .ok G' ∧
      ∀ i j : ℕ, i < a.n → j < a.n → ∀ e eta : ℝ, eta ≠ 0 → (G' i j).call (c * e) (c * eta) = (G i j).call e eta / c := by
  obtain ⟨G, h1, h2⟩ := C93_gf2_exact (junk := junk) (beta := beta) (egs := egs) ha.le hes s
  obtain ⟨G', h1', h2'⟩ := C93_gf2_exact (junk := junk') (beta := beta / c) (egs := egs') ha.le hes' s
  refine ⟨G, G', h1, h1', fun i j hi hj e eta he => ?_⟩
  have q := green_units hc.ne' ((h2 ⟨i, hi⟩ ⟨j, hj⟩ e eta he _).mpr rfl)
  rw [← units_z] at q
  refine ((h2' ⟨i, hi⟩ ⟨j, hj⟩ (c * e) (c * eta) (mul_ne_zero hc.ne' he) _).mp ?_).symm
  have hh := ham_units h
  exact hh ▸ q

/-- **C193** `build_gf_exact`. -/
theorem C193_gf_exact_partial (ha : a.Valid) (hc : 0 < c) (h : UnitsOk c a) (hes : EigenEspace a.n a.ham es) (hes' : EigenEspace a.n (inUnits c a).ham es') {i : ℕ} (hi : i < a.n) :
    ∃ g g', buildGfExact junk a.n es beta egs i false = .ok g ∧ buildGfExact junk' a.n es' (beta / c) egs' i false = .ok g' ∧
      ∀ e eta : ℝ, eta ≠ 0 → g'.call (c * e) (c * eta) = g.call e eta / c := by
  obtain ⟨g, h1, h2⟩ := C92_gf_exact (junk := junk) (beta := beta) (egs := egs) ha.le hes hi
  obtain ⟨g', h1', h2'⟩ := C92_gf_exact (junk := junk') (beta := beta / c) (egs := egs') ha.le hes' hi
  refine ⟨g, g', h1, h1', fun e eta he => ?_⟩
  have q := green_units hc.ne' ((h2 e eta he _).mpr rfl)
  rw [← units_z] at q
  refine ((h2' (c * e) (c * eta) (mul_ne_zero hc.ne' he) _).mp ?_).symm
  have hh := ham_units h
  exact hh ▸ q

theorem eigenEspace_units (h : UnitsOk c a) (hes' : EigenEspace a.n (inUnits c a).ham es') : EigenEspace a.n (c • a.ham) es' := by
  have hh := ham_units h
  exact hh ▸ hes'

/-- **C193** `get_occupation`: the occupations are the same. -/
theorem C193_occupation_partial (hc : 0 < c) (h : UnitsOk c a) (hes : EigenEspace a.n a.ham es) (hes' : EigenEspace a.n (inUnits c a).ham es')
    {occ occ' : List OccSct} (hocc : List.Forall₂ OccView es occ) (hocc' : List.Forall₂ OccView es' occ') :
    ∃ U D As U' D' As', getOccupation occ egs beta a.n = .ok (U, D, As) ∧ getOccupation occ' egs' (beta / c) a.n = .ok (U', D', As') ∧ ∀ k < a.n, U' k = U k ∧ D' k = D k := by
  obtain ⟨U, D, As, h1, h2⟩ := C101_get_occupation hes hocc egs beta
  obtain ⟨U', D', As', h1', h2'⟩ := C101_get_occupation (eigenEspace_units h hes') hocc' egs' (beta / c)
  have key : ∀ s (k : Fin a.n), thermalOcc (beta / c) (c • a.ham) s k = thermalOcc beta a.ham s k := fun s k => thermal_units hc.ne' _
  exact ⟨U, D, As, U', D', As', h1, h1', fun k hk => ⟨Complex.ofReal_injective ((h2' ⟨k, hk⟩).1.trans ((key false ⟨k, hk⟩).trans (h2 ⟨k, hk⟩).1.symm)),
    Complex.ofReal_injective ((h2' ⟨k, hk⟩).2.trans ((key true ⟨k, hk⟩).trans (h2 ⟨k, hk⟩).2.symm))⟩⟩

/-- The espace with every energy multiplied by `c`. -/
def scaleLevels (c : ℝ) (es : Espace (ℕ × ℕ)) : Espace (ℕ × ℕ) := es.map fun p => (p.1, ⟨p.2.states, p.2.d, p.2.eigvals.map (c * ·), p.2.eigvecs⟩)

theorem EigenEspace.scaleLevels {n : ℕ} {H : Matrix (Finset (Fin (n + n))) (Finset (Fin (n + n))) ℝ} (h : EigenEspace n H es) : EigenEspace n (c • H) (scaleLevels c es) := by
  refine ⟨⟨?_, ?_⟩, ?_⟩
  · have : (Edpyt.scaleLevels c es).map Prod.fst = es.map Prod.fst := by simp [Edpyt.scaleLevels, Function.comp_def]
    rw [this]
    exact h.keys
  · intro p hp
    obtain ⟨q, hq, rfl⟩ := List.mem_map.mp hp
    obtain ⟨up, dw, o, hC⟩ := h.ok q hq
    exact ⟨up, dw, ⟨o.states, o.hup, o.hdw, o.d, by simpa using o.len⟩, hC⟩
  · intro p hp k hk
    obtain ⟨q, hq, rfl⟩ := List.mem_map.mp hp
    have hk' : k < q.2.eigvals.length := by simpa using hk
    have := h.eig q hq k hk'
    have e1 : (q.2.eigvals.map (c * ·))[k]?.getD 0 = c * (q.2.eigvals[k]?.getD 0) := by
      rw [List.getElem?_map, List.getElem?_eq_getElem hk']; rfl
    have e2 : (⟨q.2.states, q.2.d, q.2.eigvals.map (c * ·), q.2.eigvecs⟩ : Sct).ket n k = q.2.ket n k := rfl
    show (c • H) *ᵥ (⟨q.2.states, q.2.d, q.2.eigvals.map (c * ·), q.2.eigvecs⟩ : Sct).ket n k = ((q.2.eigvals.map (c * ·))[k]?.getD 0) • _
    rw [e1, e2, Matrix.smul_mulVec, this, smul_smul]

/-- **C193** `build_espace`: in every sector the list of energies is multiplied by `c`. -/
theorem C193_levels_partial (ha : a.Valid) (hc : 0 < c) (h : UnitsOk c a) (hw : a.n ≤ w) (hw' : a.n ≤ w') {E E' : WithTop ℝ} (hb : BuildEspace w a none (.ok (es, E)))
    (hb' : BuildEspace w' (inUnits c a) none (.ok (es', E'))) {q : ℕ × ℕ} {I J : Sct} (hI : (q, I) ∈ es) (hJ : (q, J) ∈ es') : J.eigvals = I.eigvals.map (c * ·) := by
  have hes := buildEspace_eigen ha hw hb
  have hes' : EigenEspace a.n (c • a.ham) es' := eigenEspace_units h (buildEspace_eigen (inUnits_valid ha) hw' hb')
  have hIc : (q, (⟨I.states, I.d, I.eigvals.map (c * ·), I.eigvecs⟩ : Sct)) ∈ scaleLevels c es := List.mem_map.mpr ⟨_, hI, rfl⟩
  obtain ⟨p, q⟩ := q
  obtain ⟨eI, hp, hq⟩ := sctAt_of_mem (hes.scaleLevels (c := c)) hIc
  obtain ⟨eJ, -, -⟩ := sctAt_of_mem hes' hJ
  refine sorted_ext (buildEspace_sorted (inUnits_valid ha) hw' hb' hJ) ?_ fun x => ?_
  · rw [List.pairwise_map]
    exact (buildEspace_sorted ha hw hb hI).imp fun h => mul_le_mul_of_nonneg_left h hc.le
  · have := levels_eq (hes.scaleLevels (c := c)) hes' (A := 1) (by rw [Matrix.one_mul, Matrix.mul_one]) (by simp) hp hq hp hq
      (fun T S hTS => by
        by_cases hTS' : T = S
        · rw [hTS']
        · exact absurd (Matrix.one_apply_ne hTS') hTS) x
    rw [eI, eJ] at this
    exact this.symm

/-- **C193** `build_espace`: the ground state energy is multiplied by `c`. -/
theorem C193_energy_partial (ha : a.Valid) (hc : 0 < c) (h : UnitsOk c a) (hw : a.n ≤ w) (hw' : a.n ≤ w') {E E' : ℝ} (hb : BuildEspace w a none (.ok (es, (E : WithTop ℝ))))
    (hb' : BuildEspace w' (inUnits c a) none (.ok (es', (E' : WithTop ℝ)))) : E' = c * E := by
  have hes := buildEspace_eigen ha hw hb
  have hes' : EigenEspace a.n (c • a.ham) es' := eigenEspace_units h (buildEspace_eigen (inUnits_valid ha) hw' hb')
  have hk : ∀ k, k ∈ es.map Prod.fst ↔ k ∈ es'.map Prod.fst := fun k => hes.keys.mem_iff.trans hes'.keys.mem_iff.symm
  obtain ⟨_, e1, ⟨p, hp, hx⟩, hl⟩ := buildEspace_least ha hw hb
  obtain rfl := WithTop.coe_injective e1
  obtain ⟨_, e1', ⟨p', hp', hx'⟩, hl'⟩ := buildEspace_least (inUnits_valid ha) hw' hb'
  obtain rfl := WithTop.coe_injective e1'
  refine le_antisymm ?_ ?_
  · obtain ⟨r, hr, er⟩ := List.mem_map.mp ((hk p.1).1 (List.mem_map.mpr ⟨p, hp, rfl⟩))
    have := C193_levels_partial ha hc h hw hw' hb hb' (q := p.1) (I := p.2) (J := r.2) hp (er ▸ hr)
    exact hl' ⟨r, hr, this ▸ List.mem_map.mpr ⟨_, hx, rfl⟩⟩
  · obtain ⟨r, hr, er⟩ := List.mem_map.mp ((hk p'.1).2 (List.mem_map.mpr ⟨p', hp', rfl⟩))
    have := C193_levels_partial ha hc h hw hw' hb hb' (q := p'.1) (I := r.2) (J := p'.2) (er ▸ hr) hp'
    rw [this] at hx'
    obtain ⟨x, hx1, hx2⟩ := List.mem_map.mp hx'
    rw [← hx2]
    exact mul_le_mul_of_nonneg_left (hl ⟨r, hr, hx1⟩) hc.le

/-- **C193** `build_gf_lanczos`: the same up to the errors of the Lanczos runs, for both spins and both representations. -/
theorem C193_gf_lanczos_partial {g g' : GfLArgs} (jk : ℝ) (ha : g.ham.Valid) (hc : 0 < c) (h : UnitsOk c g.ham) (hs : g'.ham = inUnits c g.ham)
    (hb : g'.beta = g.beta / c) (hsp : g'.ispin = g.ispin) (hw : g.ham.n ≤ g.w) (hw' : g.ham.n ≤ g'.w) (hcfg : g.cfg.Ok) (hcfg' : g'.cfg.Ok)
    (hes : EigenEspace g.ham.n g.ham.ham es) (hes' : EigenEspace g.ham.n (inUnits c g.ham).ham es') {i : ℕ} (hi : i < g.ham.n)
    {out out' : GfLOut} (hr : BuildGfLanczos g i false es (.ok out)) (hr' : BuildGfLanczos g' i false es' (.ok out')) (e eta δ δ' : ℝ) (he : eta ≠ 0) (h0 : 0 ≤ δ) (h0' : 0 ≤ δ')
    (hδ : ∀ run ∈ out.log, run.ResLe δ) (hδ' : ∀ run ∈ out'.log, run.ResLe δ') :
    ‖out'.gfe.call jk (c * e) (c * eta) - out.gfe.call jk e eta / c‖ ≤
      (δ' / (c * eta) ^ 2 + 2 * (g'.cfg.delta ^ 2 / |c * eta|)) + (δ / eta ^ 2 + 2 * (g.cfg.delta ^ 2 / |eta|)) / c := by
  obtain ⟨cfg', rep', w', jk', ham', beta', egs', isp'⟩ := g'
  obtain rfl : ham' = inUnits c g.ham := hs
  obtain rfl : beta' = g.beta / c := hb
  obtain rfl : isp' = g.ispin := hsp
  have hz : (e + Complex.I * eta : ℂ).im ≠ 0 := by simpa using he
  have hce : c * eta ≠ 0 := mul_ne_zero hc.ne' he
  have hz' : (((c * e : ℝ) : ℂ) + Complex.I * ((c * eta : ℝ) : ℂ)).im ≠ 0 := by simpa using And.intro hc.ne' he
  obtain ⟨o, e1, -, -, -, q⟩ := (C98_gf_lanczos jk ha hw hcfg hi hes false).2 _ hr
  injection e1 with e1; subst e1
  obtain ⟨o', e1', -, -, -, q'⟩ := (C98_gf_lanczos jk (inUnits_valid ha) hw' hcfg' hi hes' false).2 _ hr'
  injection e1' with e1'; subst e1'
  obtain ⟨ge, gh, hp⟩ := greenParts_exist hes g.beta (ann ℝ (orb g.ispin ⟨i, hi⟩)) (cre ℝ (orb g.ispin ⟨i, hi⟩)) hz
  obtain ⟨ge', gh', hp'⟩ := greenParts_exist hes' (g.beta / c) (ann ℝ (orb g.ispin ⟨i, hi⟩)) (cre ℝ (orb g.ispin ⟨i, hi⟩)) hz'
  have b1 := q e eta δ he h0 hδ ge gh hp
  have b2 := q' (c * e) (c * eta) δ' hce h0' hδ' ge' gh' hp'
  rw [if_neg (by simp)] at b1 b2
  have k2 := green_units hc.ne' (IsGreenParts.isGreen hp)
  rw [← units_z] at k2
  have hes2 := eigenEspace_units h hes'
  have k3 := IsGreenParts.isGreen hp'
  have k4 : IsGreen (g.beta / c) (c • g.ham.ham) (ann ℝ (orb g.ispin ⟨i, hi⟩)) (cre ℝ (orb g.ispin ⟨i, hi⟩)) (((c * e : ℝ) : ℂ) + Complex.I * ((c * eta : ℝ) : ℂ)) (ge' + gh') := by
    rw [← ham_units h]; exact k3
  have m2 := ((hes2.basis.green (g.beta / c) _ _ hz' _).mp k4).trans ((hes2.basis.green (g.beta / c) _ _ hz' _).mp k2).symm
  rw [m2] at b2
  rw [norm_sub_rev] at b1
  refine (norm_sub_le_norm_sub_add_norm_sub _ ((ge + gh) / c) _).trans (add_le_add b2 ?_)
  rw [← sub_div, norm_div, Complex.norm_real, Real.norm_of_nonneg hc.le]
  exact div_le_div_of_nonneg_right b1 hc.le

end
/-- The thresholds matter: two sites with hopping `1`, the energy in one unit is `-2`; in a unit `10^8` times as large the hopping is below `1e-7`, is dropped, and the energy is `0`. -/
theorem C193_refuted : ∃ (a : HamArgs) (c : ℝ), a.Valid ∧ 0 < c ∧ ∀ w w' es es' E E', a.n ≤ w → a.n ≤ w' → BuildEspace w a none (.ok (es, E)) → BuildEspace w' (inUnits c a) none (.ok (es', E')) →
    E = ((-2 : ℝ) : WithTop ℝ) ∧ E' = ((0 : ℝ) : WithTop ℝ) := by
  refine ⟨freeArgs, 1 / 10 ^ 8, freeArgs_valid, by norm_num, fun w w' es es' E E' hw hw' h h' => ⟨?_, ?_⟩⟩
  · rw [C158_ground freeArgs_valid hw freeArgs_free h (freeArgs_basis false) (freeArgs_basis true)]
    simp only [Fin.sum_univ_two]
    norm_num
  · have hb : ∀ s, EigBasis ((inUnits (1 / 10 ^ 8) freeArgs).oneBody s) (fun (a : Fin 2) (i : Fin 2) => if a = i then (1 : ℝ) else 0) (fun _ => 0) := by
      intro s
      have h0 : ∀ i j : Fin 2, kept (n := 2) ((1 : ℝ) / 10 ^ 8 * 0) (fun i j => 1 / 10 ^ 8 * (if i = j then 0 else 1)) i j = (0 : Matrix (Fin 2) (Fin 2) ℝ) i j := by
        intro i j
        rw [kept_apply]
        fin_cases i <;> fin_cases j <;> norm_num
      have : ((inUnits (1 / 10 ^ 8) freeArgs).oneBody s : Matrix (Fin 2) (Fin 2) ℝ) = 0 := funext fun i => funext fun j => h0 i j
      have hz : EigBasis (0 : Matrix (Fin 2) (Fin 2) ℝ) (fun (a : Fin 2) (i : Fin 2) => if a = i then (1 : ℝ) else 0) (fun _ => 0) := by
        refine ⟨rfl, fun a b => ?_, fun k => ?_⟩
        · simp [dotProduct, eq_comm]
        · simp
      exact this.symm ▸ hz
    rw [C158_ground (inUnits_valid freeArgs_valid) hw' ⟨fun _ _ _ _ => by simp [inUnits, freeArgs, VArg.array], rfl, rfl⟩ h' (hb false) (hb true)]
    simp

/-- Two sites in a unit twice as large. -/
example : freeArgs.Valid ∧ UnitsOk 2 freeArgs ∧ (∃ x, BuildEspace 2 freeArgs none (.ok x)) ∧ (∃ x, BuildEspace 2 (inUnits 2 freeArgs) none (.ok x)) ∧ ∃ es es', EigenEspace 2 freeArgs.ham es ∧ EigenEspace 2 (inUnits 2 freeArgs).ham es' := by
  refine ⟨freeArgs_valid, ⟨fun s i j _ _ hij => .inr ?_, by simp [freeArgs, VArg.array], by simp [freeArgs, VArg.array]⟩, (buildEspace_none_ok freeArgs_valid le_rfl).1,
    (buildEspace_none_ok (inUnits_valid freeArgs_valid) le_rfl).1, ?_⟩
  · norm_num [freeArgs, hij]
  · obtain ⟨es, h⟩ := eigenEspace_exists freeArgs_valid
    obtain ⟨es', h'⟩ := eigenEspace_exists (inUnits_valid (c := 2) freeArgs_valid)
    exact ⟨es, es', h, h'⟩

end Edpyt
