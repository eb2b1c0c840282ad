import Verif.Model.Eshow
import Verif.Props.Lookup
/-!
Theorems about the printed form of Fock states and Hilbert spaces, `edpyt/eshow.py`.
-/
namespace Edpyt

namespace Spec

/-- Text of one site: `o` if empty, an arrow for each electron. -/
def siteText (up dw : Bool) : List Char :=
  match up, dw with
  | false, false => ['o']
  | true, false => ['↑']
  | false, true => ['↓']
  | true, true => ['↑', '↓']

/-- Text of a Fock state: the sites from the first to the last, separated by commas, between `|` and `>`. -/
def ketText (up dw : ℕ → Bool) (n : ℕ) : String :=
  String.ofList (['|'] ++ [','].intercalate ((List.range n).map fun i => siteText (up i) (dw i)) ++ ['>'])

end Spec

theorem fockSite_eq (a b : Bool) : fockSite a b = Spec.siteText a b ++ [','] := by cases a <;> cases b <;> rfl

theorem flatMap_comma_dropLast (g : ℕ → List Char) : ∀ l : List ℕ, l ≠ [] →
    (l.flatMap fun i => g i ++ [',']).dropLast = [','].intercalate (l.map g) := by
  intro l
  induction l with
  | nil => intro h; exact absurd rfl h
  | cons x l ih =>
    intro _
    cases l with
    | nil => simp [List.intercalate]
    | cons y l =>
      have := ih (by simp)
      rw [List.flatMap_cons, List.dropLast_append_of_ne_nil (by simp), this]
      simp [List.intercalate, List.intersperse]

theorem binrep_get {i n : ℕ} (h : i < 2 ^ n) (k : ℕ) (hk : k < n) : (binrep i n)[k]?.getD false = i.testBit k := by
  rw [C13_binrep_digits (by omega) h]
  simp [hk]

theorem fock_flat {n sup sdw : ℕ} (hu : sup < 2 ^ n) (hd : sdw < 2 ^ n) :
    ((List.range n).flatMap fun i => fockSite ((binrep sup n)[i]?.getD false) ((binrep sdw n)[i]?.getD false)) =
      (List.range n).flatMap fun i => Spec.siteText (sup.testBit i) (sdw.testBit i) ++ [','] := by
  rw [List.flatMap_def, List.flatMap_def]
  congr 1
  refine List.map_congr_left fun i hi => ?_
  have hi := List.mem_range.mp hi
  rw [binrep_get hu i hi, binrep_get hd i hi, fockSite_eq]

/-- **C69.** The text of a state lists its sites from the first to the last, with an arrow for each electron. -/
theorem C69_text {n sup sdw : ℕ} (hn : 0 < n) (hu : sup < 2 ^ n) (hd : sdw < 2 ^ n) :
    fock sup sdw n = Spec.ketText sup.testBit sdw.testBit n := by
  unfold fock Spec.ketText
  simp only
  rw [fock_flat hu hd]
  have hne : List.range n ≠ [] := by
    intro h
    have := congrArg List.length h
    simp at this
    omega
  rw [List.dropLast_append_of_ne_nil, flatMap_comma_dropLast _ _ hne]
  cases n with
  | zero => omega
  | succ m => simp [List.range_succ_eq_map]

/-- A list of sites is determined by its text. -/
theorem sites_inj : ∀ l l' : List (Bool × Bool), (l.flatMap fun p => Spec.siteText p.1 p.2 ++ [',']) = (l'.flatMap fun p => Spec.siteText p.1 p.2 ++ [',']) → l = l' := by
  intro l
  induction l with
  | nil =>
    intro l' h
    cases l' with
    | nil => rfl
    | cons p l' =>
      have := congrArg List.length h
      simp at this
  | cons p l ih =>
    intro l' h
    cases l' with
    | nil =>
      have := congrArg List.length h
      simp at this
    | cons q l' =>
      obtain ⟨a, b⟩ := p
      obtain ⟨c, d⟩ := q
      rw [List.flatMap_cons, List.flatMap_cons] at h
      have : (a, b) = (c, d) ∧ (l.flatMap fun p => Spec.siteText p.1 p.2 ++ [',']) = (l'.flatMap fun p => Spec.siteText p.1 p.2 ++ [',']) := by
        cases a <;> cases b <;> cases c <;> cases d <;> simp_all [Spec.siteText]
      rw [this.1, ih l' this.2]

/-- **C69.** The text of a Fock state determines the number of sites and the state of both spins: two states of systems of any sizes
with the same text are the same. -/
theorem C69_unambiguous {n n' sup sdw sup' sdw' : ℕ} (hn : 0 < n) (hn' : 0 < n') (hu : sup < 2 ^ n) (hd : sdw < 2 ^ n) (hu' : sup' < 2 ^ n') (hd' : sdw' < 2 ^ n')
    (h : fock sup sdw n = fock sup' sdw' n') : n = n' ∧ sup = sup' ∧ sdw = sdw' := by
  unfold fock at h
  simp only at h
  rw [fock_flat hu hd, fock_flat hu' hd'] at h
  have h := String.ofList_injective h
  have h := List.append_cancel_right h
  have key : ∀ (m s t : ℕ), 0 < m → ∃ L, ['|'] ++ (List.range m).flatMap (fun i => Spec.siteText (s.testBit i) (t.testBit i) ++ [',']) = L ++ [','] := by
    intro m s t hm
    obtain ⟨m, rfl⟩ : ∃ k, m = k + 1 := ⟨m - 1, by omega⟩
    rw [List.range_succ, List.flatMap_append]
    exact ⟨['|'] ++ (List.range m).flatMap (fun i => Spec.siteText (s.testBit i) (t.testBit i) ++ [',']) ++ Spec.siteText (s.testBit m) (t.testBit m), by simp⟩
  obtain ⟨L, hL⟩ := key n sup sdw hn
  obtain ⟨L', hL'⟩ := key n' sup' sdw' hn'
  rw [hL, hL', List.dropLast_concat, List.dropLast_concat] at h
  rw [h, ← hL'] at hL
  have hL := List.append_cancel_left hL
  have conv : ∀ (m s t : ℕ), (List.range m).flatMap (fun i => Spec.siteText (s.testBit i) (t.testBit i) ++ [',']) =
      ((List.range m).map fun i => (s.testBit i, t.testBit i)).flatMap (fun p => Spec.siteText p.1 p.2 ++ [',']) := fun m s t => by
    rw [List.flatMap_map]
  rw [conv, conv] at hL
  have hm := sites_inj _ _ hL
  have hnn : n = n' := by simpa using congrArg List.length hm
  subst hnn
  have hbit : ∀ i, i < n → sup.testBit i = sup'.testBit i ∧ sdw.testBit i = sdw'.testBit i := by
    intro i hi
    have := congrArg (fun l => l[i]?) hm
    simpa [hi] using this
  have big : ∀ s : ℕ, s < 2 ^ n → ∀ i, ¬ i < n → s.testBit i = false := fun s hs i hi =>
    Nat.testBit_lt_two_pow (lt_of_lt_of_le hs (Nat.pow_le_pow_right (by norm_num) (by omega)))
  refine ⟨rfl, Nat.eq_of_testBit_eq fun i => ?_, Nat.eq_of_testBit_eq fun i => ?_⟩
  · by_cases hi : i < n
    · exact (hbit i hi).1
    · rw [big _ hu i hi, big _ hu' i hi]
  · by_cases hi : i < n
    · exact (hbit i hi).2
    · rw [big _ hd i hi, big _ hd' i hi]

/-- Non-vacuity, the example of the documentation. -/
example : fock 3 1 2 = "|↑↓,↑>" := by decide

/-- **C84 is false**: `eprint` raises for every space of spin sectors, which is what `build_espace` returns by default. -/
theorem C84_refuted {α : Type} (n : ℕ) (q : α) (up dw : List ℕ) (d : ℕ) (w : List ℝ) (v : List (ℕ → ℝ)) (rest : Espace α) :
    eprint ((q, ⟨.spin up dw, d, w, v⟩) :: rest) n = .error .typeError := rfl

/-- **C84, partial.** For spaces of sectors of a total number of particles, `eprint` prints every eigenpair of every sector once, in ascending
order of energy, each with the coefficients of its vector beside the texts of the basis states: the low `n` bits are the spin-up state. -/
theorem C84_partial {α : Type} (n : ℕ) (espace : Espace α) (states : Sct → List ℕ) (hs : ∀ kv ∈ espace, kv.2.states = .total (states kv.2)) :
    ∃ lines, eprint espace n = .ok lines ∧ lines.Pairwise (fun x y => x.energy ≤ y.energy) ∧
      lines.Perm (espace.flatMap fun kv => List.zipWith (fun e v => ⟨kv.1, e,
        List.zipWith (fun k s => (v k, fock (s % 2 ^ n) (s / 2 ^ n % 2 ^ n) n)) (List.range kv.2.d) (states kv.2)⟩) kv.2.eigvals kv.2.eigvecs) := by
  have hmask : ∀ s : ℕ, s &&& (1 <<< n - 1) = s % 2 ^ n := fun s => by rw [Nat.one_shiftLeft]; exact Nat.and_two_pow_sub_one_eq_mod s n
  have hmask2 : ∀ s : ℕ, (s &&& ((1 <<< n - 1) <<< n)) >>> n = s / 2 ^ n % 2 ^ n := fun s => by
    rw [Nat.shiftRight_and_distrib, Nat.shiftLeft_shiftRight, hmask, Nat.shiftRight_eq_div_pow]
  have key : ∀ (es : Espace α) (acc : List (EprintLine α)), (∀ kv ∈ es, kv.2.states = .total (states kv.2)) →
      forM' (fun (acc : List (EprintLine α)) (kv : α × Sct) => do
        let texts ← fockstates n kv.2.states
        let evecs := kv.2.eigvecs.map fun v => List.zipWith (fun k s => (v k, s)) (List.range kv.2.d) texts
        pure (acc ++ List.zipWith (fun e v => ⟨kv.1, e, v⟩) kv.2.eigvals evecs)) es acc =
      .ok (acc ++ es.flatMap fun kv => List.zipWith (fun e v => ⟨kv.1, e,
        List.zipWith (fun k s => (v k, fock (s % 2 ^ n) (s / 2 ^ n % 2 ^ n) n)) (List.range kv.2.d) (states kv.2)⟩) kv.2.eigvals kv.2.eigvecs) := by
    intro es
    induction es with
    | nil => intro acc _; simp [forM']
    | cons kv es ih =>
      intro acc h
      unfold forM'
      rw [h kv (by simp)]
      simp only [fockstates, bind, Except.bind, pure, Except.pure]
      refine (ih _ fun kv' h' => h kv' (by simp [h'])).trans ?_
      simp only [List.flatMap_cons, List.append_assoc, List.zipWith_map_right, hmask, hmask2]
  refine ⟨(List.flatMap (fun kv => List.zipWith (fun e v => (⟨kv.1, e,
        List.zipWith (fun k s => (v k, fock (s % 2 ^ n) (s / 2 ^ n % 2 ^ n) n)) (List.range kv.2.d) (states kv.2)⟩ : EprintLine α)) kv.2.eigvals kv.2.eigvecs) espace).mergeSort
          fun x y => decide (x.energy ≤ y.energy), ?_, ?_, ?_⟩
  · unfold eprint
    rw [key espace [] hs]
    rfl
  · have := List.pairwise_mergeSort (le := fun (x y : EprintLine α) => decide (x.energy ≤ y.energy)) (fun a b c h1 h2 => by
      simp only [decide_eq_true_eq] at *
      exact le_trans h1 h2) (fun a b => by
      simp only [Bool.or_eq_true, decide_eq_true_eq]
      exact le_total _ _)
    refine (this _).imp fun h => ?_
    simpa using h
  · exact List.mergeSort_perm _ _

/-- Non-vacuity: the space of one site with one electron. -/
example : ∃ lines, eprint [((1 : ℕ), ⟨.total [1, 2], 2, [0, 1], [fun k => if k = 0 then 1 else 0, fun k => if k = 1 then 1 else 0]⟩)] 1 = .ok lines ∧ lines.length = 2 := by
  obtain ⟨lines, h, -, hp⟩ := C84_partial (α := ℕ) 1 [(1, ⟨.total [1, 2], 2, [0, 1], [fun k => if k = 0 then 1 else 0, fun k => if k = 1 then 1 else 0]⟩)]
    (fun _ => [1, 2]) (by simp)
  exact ⟨lines, h, by rw [hp.length_eq]; rfl⟩

end Edpyt
