import Verif.Model.LanczosMpi
import Verif.Props.Mpi
/-!
C73: the distributed Lanczos recursion.
-/
namespace Edpyt

variable {ρ ι : Type} [Fintype ρ] [Fintype ι]

/-- The global vector whose block on rank `r` is `v r`. -/
def glue (v : ρ → ι → ℝ) : ρ × ι → ℝ := fun x => v x.1 x.2

/-- The blocks of a global vector. -/
def blocks (v : ρ × ι → ℝ) : ρ → ι → ℝ := fun r i => v (r, i)

theorem glue_dot (v w : ρ → ι → ℝ) : glue v ⬝ᵥ glue w = ∑ r, v r ⬝ᵥ w r := by
  unfold dotProduct glue
  rw [Fintype.sum_prod_type]

/-- C73: one distributed step returns on every rank the scalars of the serial step on the glued vectors, and its vectors
are the blocks of the serial ones. -/
theorem C73_step (mpi : (ρ → ι → ℝ) → (ρ → ι → ℝ)) (matvec : (ρ × ι → ℝ) → (ρ × ι → ℝ)) (h : ∀ v, glue (mpi v) = matvec (glue v))
    (v l : ρ → ι → ℝ) (r : ρ) :
    (slStepMpi mpi v l).1 r = (slStep matvec (glue v) (glue l)).1 ∧
    (slStepMpi mpi v l).2.1 r = (slStep matvec (glue v) (glue l)).2.1 ∧
    glue (slStepMpi mpi v l).2.2.1 = (slStep matvec (glue v) (glue l)).2.2.1 ∧
    glue (slStepMpi mpi v l).2.2.2 = (slStep matvec (glue v) (glue l)).2.2.2 := by
  have hb : Real.sqrt (∑ r, v r ⬝ᵥ v r) = Real.sqrt (glue v ⬝ᵥ glue v) := by rw [glue_dot]
  have hv : glue (fun r => (1 / Real.sqrt (∑ r, v r ⬝ᵥ v r)) • v r) = (1 / Real.sqrt (glue v ⬝ᵥ glue v)) • glue v := by
    rw [hb]; rfl
  have hw := h fun r => (1 / Real.sqrt (∑ r, v r ⬝ᵥ v r)) • v r
  rw [hv] at hw
  have ha : ∑ r, ((1 / Real.sqrt (∑ r, v r ⬝ᵥ v r)) • v r) ⬝ᵥ mpi (fun r => (1 / Real.sqrt (∑ r, v r ⬝ᵥ v r)) • v r) r
      = ((1 / Real.sqrt (glue v ⬝ᵥ glue v)) • glue v) ⬝ᵥ matvec ((1 / Real.sqrt (glue v ⬝ᵥ glue v)) • glue v) := by
    rw [← hw, ← hv, glue_dot]
  refine ⟨ha, hb, hv, ?_⟩
  funext x
  have hwx := congrFun hw x
  have hvx := congrFun hv x
  simp only [slStepMpi, slStep, allreduce, glue, Pi.add_apply] at *
  rw [← hwx, ← ha, ← hb]
  rfl

theorem slPass_glue {K V W : Type} (f : V → W) (step : V → V → K × K × V × V) (step' : W → W → K × K × W × W)
    (hstep : ∀ v l, step' (f v) (f l) = ((step v l).1, (step v l).2.1, f (step v l).2.2.1, f (step v l).2.2.2)) (tiny : K → Bool) (maxn k : ℕ)
    (st : LancSt K V) :
    slPass step' tiny maxn k ⟨st.n, st.a, st.b, f st.l, f st.v, st.converged⟩ =
      (slPass step tiny maxn k st).map fun s => ⟨s.n, s.a, s.b, f s.l, f s.v, s.converged⟩ := by
  induction k generalizing st with
  | zero => rfl
  | succ k ih =>
    simp only [slPass, hstep, bind, Except.bind]
    cases setItem st.a st.n (step st.v st.l).1 with
    | error e => rfl
    | ok a =>
      simp only
      cases setItem st.b st.n (step st.v st.l).2.1 with
      | error e => rfl
      | ok b =>
        simp only
        by_cases hc : (tiny (step st.v st.l).2.1 || decide ((st.n : ℤ) ≥ (maxn : ℤ) - 1)) = true
        · rw [if_pos hc, if_pos hc]
          by_cases h0 : st.n = 0
          · rw [if_pos h0, if_pos h0]; rfl
          · rw [if_neg h0, if_neg h0]; rfl
        · rw [if_neg hc, if_neg hc]
          exact ih { n := st.n + 1, a := a, b := b, l := (step st.v st.l).2.2.1, v := (step st.v st.l).2.2.2, converged := st.converged }

theorem slLoop_glue {K V W : Type} (f : V → W) (step : V → V → K × K × V × V) (step' : W → W → K × K × W × W)
    (hstep : ∀ v l, step' (f v) (f l) = ((step v l).1, (step v l).2.1, f (step v l).2.2.1, f (step v l).2.2.2)) (tiny : K → Bool)
    (eg : List K → List K → K) (close : K → Option K → Bool) (maxn ND : ℕ) {st : LancSt K V} {egs : Option K} {r}
    (h : SlLoop step tiny eg close maxn ND st egs r) :
    SlLoop step' tiny eg close maxn ND ⟨st.n, st.a, st.b, f st.l, f st.v, st.converged⟩ egs
      (r.map fun s => ⟨s.n, s.a, s.b, f s.l, f s.v, s.converged⟩) := by
  induction h with
  | done h => exact .done h
  | raised h1 h2 => exact .raised h1 (by rw [slPass_glue f step step' hstep, h2]; rfl)
  | one h1 h2 h3 =>
    exact .one (st' := ⟨_, _, _, f _, f _, _⟩) h1 (by rw [slPass_glue f step step' hstep, h2]; rfl) h3
  | @again st egs st' r h1 h2 h3 _ ih =>
    refine .again (st' := ⟨st'.n, st'.a, st'.b, f st'.l, f st'.v, st'.converged⟩) h1 (by rw [slPass_glue f step step' hstep, h2]; rfl) h3 ?_
    by_cases hc : close (eg (st'.a.take st'.n) ((st'.b.take st'.n).drop 1)) egs = true
    · simp only [hc, if_true] at ih ⊢; exact ih
    · simp only [hc, if_false, Bool.false_eq_true] at ih ⊢; exact ih

/-- C73: if the distributed product is the block form of the serial one, the distributed driver returns on every rank exactly
the coefficients (or the exception) of the serial driver started from the whole vector. -/
theorem C73_driver (mpi : (ρ → ι → ℝ) → (ρ → ι → ℝ)) (matvec : (ρ × ι → ℝ) → (ρ × ι → ℝ)) (h : ∀ v, glue (mpi v) = matvec (glue v)) (r0 : ρ)
    (tiny : ℝ → Bool) (eg : List ℝ → List ℝ → ℝ) (close : ℝ → Option ℝ → Bool) (maxn ND : ℕ) (junk : List ℝ) (phi0 : ρ → ι → ℝ) (r)
    (hr : BuildSlTridiag (slStepOn mpi r0) tiny eg close maxn ND junk 0 phi0 r) :
    BuildSlTridiag (slStep matvec) tiny eg close maxn ND junk 0 (glue phi0) r := by
  have hstep : ∀ v l, slStep matvec (glue v) (glue l) = ((slStepOn mpi r0 v l).1, (slStepOn mpi r0 v l).2.1,
      glue (slStepOn mpi r0 v l).2.2.1, glue (slStepOn mpi r0 v l).2.2.2) := by
    intro v l
    obtain ⟨h1, h2, h3, h4⟩ := C73_step mpi matvec h v l r0
    simp only [slStepOn]
    rw [h1, h2, h3, h4]
  cases hr with
  | ok hl => exact .ok (slLoop_glue glue _ _ hstep tiny eg close maxn ND hl)
  | error hl => exact .error (slLoop_glue glue _ _ hstep tiny eg close maxn ND hl)

/-- The hypothesis is met by every matrix: its block form. -/
example (H : Matrix (Fin 2 × Fin 3) (Fin 2 × Fin 3) ℝ) :
    ∀ v, glue (ρ := Fin 2) (ι := Fin 3) ((fun v => blocks (H.mulVec (glue v))) v) = H.mulVec (glue v) := fun _ => rfl

end Edpyt
