import Verif.Model.Sampler
import Verif.Props.Backend
import Verif.Props.Pipeline
import Verif.Props.Precision
import Verif.Props.Budget
import Mathlib.Probability.Independence.InfinitePi
import Mathlib.MeasureTheory.Measure.Lebesgue.Basic
import Mathlib.MeasureTheory.Function.Floor

/-!
# C105: the simulator measures by Born's rule; seeded simulators repeat themselves
-/

namespace ZQ.Stat

open ZQ ZQ.PyDict ZQ.Op ZQ.Circuits ZQ.Gates ZQ.Est ZQ.Expect ZQ.Backend MeasureTheory ProbabilityTheory Matrix

/-! ### Choosing positions -/

theorem cumsum_ge {ps : List ℝ} (h : ∀ p ∈ ps, 0 ≤ p) : ∀ (a : ℝ), ∀ c ∈ cumsum a ps, a ≤ c := by
  induction ps with
  | nil => intro a c hc; cases hc
  | cons p ps ih =>
    intro a c hc
    have hp := h p (by simp)
    rcases List.mem_cons.1 hc with rfl | hc
    · linarith
    · have := ih (fun q hq => h q (List.mem_cons_of_mem _ hq)) _ c hc
      linarith

theorem cumsum_last (ps : List ℝ) : ∀ (a : ℝ) (d : ℝ), (cumsum a ps).getLastD d = if ps = [] then d else a + ps.sum := by
  induction ps with
  | nil => intro a d; rfl
  | cons p ps ih =>
    intro a d
    rw [cumsum, List.getLastD_cons, ih]
    by_cases h : ps = []
    · subst h; simp
    · rw [if_neg h, if_neg (by simp), List.sum_cons]; ring

/-- The number of cumulative sums that are at most `u`. -/
theorem count_cumsum {ps : List ℝ} (h : ∀ p ∈ ps, 0 ≤ p) : ∀ (a u : ℝ), a ≤ u → u < a + ps.sum →
    ∃ i < ps.length, (cumsum a ps).countP (fun c => decide (c ≤ u)) = i ∧ a + (ps.take i).sum ≤ u ∧ u < a + (ps.take (i + 1)).sum := by
  induction ps with
  | nil => intro a u h1 h2; simp at h2; linarith
  | cons p ps ih =>
    intro a u h1 h2
    have hps : ∀ q ∈ ps, 0 ≤ q := fun q hq => h q (List.mem_cons_of_mem _ hq)
    by_cases hp : a + p ≤ u
    · obtain ⟨i, hi, h3, h4, h5⟩ := ih hps (a + p) u hp (by rw [List.sum_cons] at h2; linarith)
      refine ⟨i + 1, by simpa using hi, ?_, ?_, ?_⟩
      · rw [cumsum, List.countP_cons, h3, if_pos (by simpa using hp)]
      · rw [List.take_succ_cons, List.sum_cons]; linarith
      · rw [List.take_succ_cons, List.sum_cons]; linarith
    · refine ⟨0, by simp, ?_, by simpa using h1, by simp; linarith⟩
      rw [cumsum, List.countP_cons, if_neg (by simpa using hp), add_zero, List.countP_eq_zero]
      intro c hc
      have := cumsum_ge hps _ c hc
      simp
      linarith

theorem pick_eq {ps : List ℝ} (h1 : ps.sum = 1) (u : ℝ) : pick ps u = (cumsum 0 ps).countP fun c => decide (c ≤ u) := by
  have hne : ps ≠ [] := by rintro rfl; simp at h1
  rw [pick, cumsum_last, if_neg hne, h1]
  simp

theorem take_sum_mono {ps : List ℝ} (h : ∀ p ∈ ps, 0 ≤ p) {i j : ℕ} (hij : i ≤ j) : (ps.take i).sum ≤ (ps.take j).sum := by
  rw [← Nat.add_sub_cancel' hij, List.take_add, List.sum_append]
  have : 0 ≤ ((ps.drop i).take (j - i)).sum := List.sum_nonneg fun p hp => h p (List.mem_of_mem_drop (List.mem_of_mem_take hp))
  linarith

/-- Position `i` is chosen exactly by the numbers between the `i`-th cumulative sum and the next. -/
theorem pick_iff {ps : List ℝ} (h : ∀ p ∈ ps, 0 ≤ p) (h1 : ps.sum = 1) {u : ℝ} (hu : 0 ≤ u ∧ u < 1) (i : ℕ) :
    pick ps u = i ↔ (ps.take i).sum ≤ u ∧ u < (ps.take (i + 1)).sum := by
  obtain ⟨k, hk, e, a, b⟩ := count_cumsum h 0 u hu.1 (by rw [h1]; linarith [hu.2])
  rw [zero_add] at a b
  rw [pick_eq h1, e]
  constructor
  · rintro rfl; exact ⟨a, b⟩
  · rintro ⟨c, d⟩
    rcases lt_trichotomy k i with hlt | he | hlt
    · have := take_sum_mono h (show k + 1 ≤ i from hlt); linarith
    · exact he
    · have := take_sum_mono h (show i + 1 ≤ k from hlt); linarith

theorem pick_lt {ps : List ℝ} (h : ∀ p ∈ ps, 0 ≤ p) (h1 : ps.sum = 1) {u : ℝ} (hu : 0 ≤ u ∧ u < 1) : pick ps u < ps.length := by
  obtain ⟨k, hk, e, a, b⟩ := count_cumsum h 0 u hu.1 (by rw [h1]; linarith [hu.2])
  rw [pick_eq h1, e]
  exact hk

theorem fromStream_draws {u : ℕ → ℝ} (hu : ∀ j, 0 ≤ u j ∧ u j < 1) : (fromStream u).Draws := by
  intro ps k h h1
  refine ⟨by simp [fromStream], fun i hi => ?_⟩
  obtain ⟨j, -, rfl⟩ := List.mem_map.1 hi
  have hlt := pick_lt h h1 (hu j)
  obtain ⟨a, b⟩ := (pick_iff h h1 (hu j) _).1 rfl
  refine ⟨ps[pick ps (u j)], List.getElem?_eq_getElem hlt, ?_⟩
  rw [List.take_add_one, List.getElem?_eq_getElem hlt, List.sum_append] at b
  simp at b
  linarith

theorem measurable_pick (ps : List ℝ) : Measurable (pick ps) := by
  unfold pick
  generalize (cumsum 0 ps).getLastD 1 = d
  generalize cumsum 0 ps = l
  induction l with
  | nil => simp
  | cons c l ih =>
    simp only [List.countP_cons, decide_eq_true_eq]
    exact ih.add (Measurable.ite (measurableSet_le measurable_const measurable_id) measurable_const measurable_const)

/-! ### Measuring a circuit -/

/-- Born's rule: the probabilities of the outcomes of a circuit, in the order of the basis states. -/
noncomputable def bornList (ρ : String → ℂ) (c : Circuit) : List ℝ := (List.range (2 ^ c.n)).map fun i => Complex.normSq (outputState ρ c (bitsOf c.n i))

/-- The outcome which the number `u` selects. -/
noncomputable def outcome (ρ : String → ℂ) (c : Circuit) (u : ℝ) : Fin c.n → Bool := bitsOf c.n (pick (bornList ρ c) u)

theorem bornList_nonneg (ρ : String → ℂ) (c : Circuit) : ∀ p ∈ bornList ρ c, 0 ≤ p := by
  intro p hp
  obtain ⟨i, -, rfl⟩ := List.mem_map.1 hp
  exact Complex.normSq_nonneg _

theorem bornList_sum {ρ : String → ℂ} {c : Circuit} (hc : Unitary ρ c) : (bornList ρ c).sum = 1 := by
  rw [← output_normalised hc, bornList]
  refine (sum_range_eq_sum_bits c.n fun i => Complex.normSq (outputState ρ c (bitsOf c.n i))).trans ?_
  exact Finset.sum_congr rfl fun x _ => by rw [bitsOf_basisIndex]

theorem bornList_length (ρ : String → ℂ) (c : Circuit) : (bornList ρ c).length = 2 ^ c.n := by simp [bornList]

/-- One run of the simulator returns the outcomes which the numbers of the generator's stream select. -/
theorem symbolicRun_stream {W : Type} {u : ℕ → ℝ} (hu : ∀ j, 0 ≤ u j ∧ u j < 1) {ρ : String → ℂ} {c : Circuit} (hc : Unitary ρ c) (hn : 0 < c.n) (s : ℕ) (hs : 0 < s) (st : St W) :
    (symbolicRun (fromStream u) (fun _ => false) ρ c s none st).1 = .ok (List.ofFn fun j : Fin s => bits (outcome ρ c (u j))) := by
  obtain ⟨w, v, h1, h2, h3, h4, -, -⟩ := getWavefunction_spec (symbolic ρ) ρ (fun _ _ _ => rfl) c hc.1 hc.2.1 hc.2.2 none (by simp) st
  have hv : v.onBits c.n = outputState ρ c := h3
  have hborn : ((List.range (2 ^ c.n)).map v.e).map Complex.normSq = bornList ρ c := by
    rw [List.map_map, bornList]
    refine List.map_congr_left fun i hi => ?_
    rw [← hv]
    show _ = Complex.normSq (v.e (basisIndex (bitsOf c.n i)))
    rw [basisIndex_bitsOf c.n i (by simpa using hi)]
    rfl
  obtain ⟨samples, s1, s2, s3, -⟩ := sample_spec (fromStream u) (fromStream_draws hu) c.n hn ((List.range (2 ^ c.n)).map v.e) (by simp) (by rw [hborn, bornList_sum hc]) w
    (by rw [h2, List.map_map]; rfl) s (by exact_mod_cast hs)
  have hrun : (symbolicRun (fromStream u) (fun _ => false) ρ c s none st).1 = .ok samples := by
    rw [symbolicRun]
    cases hg : getWavefunction (symbolic ρ) ρ c none st with
    | mk o st' =>
      rw [hg] at h1
      dsimp only at h1
      subst h1
      dsimp only
      rw [if_neg (by simp), s1]
  rw [hrun]
  congr 1
  rw [hborn, Int.toNat_natCast] at s3
  have hl : samples.length = s := by exact_mod_cast s2
  refine List.ext_getElem (by simp [hl]) fun j hj1 hj2 => ?_
  obtain ⟨x, hx1, hx2⟩ := (List.forall₂_iff_get.1 s3).2 j (by simp [fromStream]; omega) hj1
  simp only [fromStream, List.get_eq_getElem, List.getElem_map, List.getElem_range] at hx1 hx2
  rw [hx2, List.getElem_ofFn, outcome, hx1, bitsOf_basisIndex]
  rfl

/-- The simulator on a list of circuits. -/
theorem simLoop_stream {r : Randomness} {seed : Option ℕ} (hr : ∀ k j, 0 ≤ defaultRng r seed k j ∧ defaultRng r seed k j < 1) {ρ : String → ℂ} :
    ∀ (tasks : List Task), (∀ t ∈ tasks, Unitary ρ t.circuit ∧ 0 < t.circuit.n ∧ ∃ s : ℕ, 0 < s ∧ t.shots = some (s : ℤ)) → ∀ st : St ℕ,
      (simLoop r seed ρ (tasks.map fun t => (t.circuit, t.shots)) st).1 =
        .ok (List.ofFn fun k : Fin tasks.length => List.ofFn fun j : Fin (shotsOf tasks[k]) => bits (outcome ρ tasks[k].circuit (defaultRng r seed (st.world + k) j))) := by
  intro tasks
  induction tasks with
  | nil => intro _ st; rfl
  | cons t tasks ih =>
    intro h st
    obtain ⟨hc, hn, s, hs, hst⟩ := h t (by simp)
    have e1 := symbolicRun_stream (hr st.world) hc hn s hs st
    have e2 : (simRun r seed ρ t.circuit t.shots st).1 = .ok (List.ofFn fun j : Fin s => bits (outcome ρ t.circuit (defaultRng r seed st.world j))) := by
      rw [hst]; exact e1
    have e3 : (simRun r seed ρ t.circuit t.shots st).2.world = st.world + 1 := by rw [hst]; rfl
    have e4 : shotsOf t = s := by rw [shotsOf, hst]; rfl
    rw [List.map_cons, simLoop]
    cases hg : simRun r seed ρ t.circuit t.shots st with
    | mk o st' =>
      rw [hg] at e2 e3
      dsimp only at e2 e3
      subst e2
      have ih' := ih (fun u hu => h u (List.mem_cons_of_mem _ hu)) st'
      dsimp only
      cases hl : simLoop r seed ρ (tasks.map fun t => (t.circuit, t.shots)) st' with
      | mk o' st'' =>
        rw [hl] at ih'
        dsimp only at ih'
        subst ih'
        dsimp only
        congr 1
        show _ = List.ofFn (n := tasks.length + 1) _
        rw [List.ofFn_succ]
        congr 1
        · subst e4
          rfl
        · congr 1
          funext k
          rw [e3, show st.world + 1 + (k : ℕ) = st.world + ((k.succ : Fin (tasks.length + 1)) : ℕ) by simp; omega]
          rfl

/-! ### Specification -/

variable {Ω : Type} [MeasurableSpace Ω]

/-- Specification: a random number that is uniformly distributed in `[0, 1)`. -/
structure Uniform (P : Measure Ω) (U : Ω → ℝ) : Prop where
  measurable : Measurable U
  law : P.map U = volume.restrict (Set.Ico 0 1)
  range : ∀ ω, 0 ≤ U ω ∧ U ω < 1

/-- Specification: what a generator made without a seed promises: all its numbers are uniform, and all numbers of all such generators are independent. -/
def FreshRandom (P : Measure Ω) (r : Ω → Randomness) : Prop :=
  (∀ k j, Uniform P fun ω => (r ω).fresh k j) ∧ iIndepFun (fun (kj : ℕ × ℕ) ω => (r ω).fresh kj.1 kj.2) P

/-- Specification: the numbers of the generators made with the seed `s` are uniform and independent of each other. -/
def SeededRandom (P : Measure Ω) (r : Ω → Randomness) (s : ℕ) : Prop :=
  (∀ j, Uniform P fun ω => (r ω).seeded s j) ∧ iIndepFun (fun (j : ℕ) ω => (r ω).seeded s j) P

/-! ### Born's rule -/

theorem measurable_outcome (ρ : String → ℂ) (c : Circuit) : Measurable (outcome ρ c) :=
  (Measurable.of_discrete (f := fun i : ℕ => bitsOf c.n i)).comp (measurable_pick _)

/-- A uniform number selects each outcome with the probability of Born's rule. -/
theorem outcome_law {P : Measure Ω} {U : Ω → ℝ} (hU : Uniform P U) {ρ : String → ℂ} {c : Circuit} (hc : Unitary ρ c) (x : Fin c.n → Bool) :
    P.real {ω | outcome ρ c (U ω) = x} = Complex.normSq (outputState ρ c x) := by
  have hm : MeasurableSet {u | outcome ρ c u = x} := measurable_outcome ρ c (measurableSet_singleton x)
  have h0 := bornList_nonneg ρ c
  have h1 := bornList_sum hc
  have hi := basisIndex_lt x
  have hget : (bornList ρ c)[basisIndex x]? = some (Complex.normSq (outputState ρ c x)) := by
    rw [bornList, List.getElem?_map, List.getElem?_range hi, Option.map_some, bitsOf_basisIndex]
  have hset : {u | outcome ρ c u = x} ∩ Set.Ico 0 1 = Set.Ico ((bornList ρ c).take (basisIndex x)).sum ((bornList ρ c).take (basisIndex x + 1)).sum := by
    ext u
    have key : (0 ≤ u ∧ u < 1) → (outcome ρ c u = x ↔ pick (bornList ρ c) u = basisIndex x) := by
      intro hu
      have hlt := pick_lt h0 h1 hu
      rw [bornList_length] at hlt
      rw [outcome]
      constructor
      · intro h; rw [← h, basisIndex_bitsOf _ _ hlt]
      · intro h; rw [h, bitsOf_basisIndex]
    constructor
    · rintro ⟨a, b⟩
      exact (pick_iff h0 h1 b _).1 ((key b).1 a)
    · intro hu
      have hb : 0 ≤ u ∧ u < 1 := by
        constructor
        · exact le_trans (by simpa using take_sum_mono h0 (Nat.zero_le (basisIndex x))) hu.1
        · refine lt_of_lt_of_le hu.2 ?_
          rw [← h1]
          have := take_sum_mono h0 (show basisIndex x + 1 ≤ (bornList ρ c).length by rw [bornList_length]; exact hi)
          rwa [List.take_length] at this
      exact ⟨(key hb).2 ((pick_iff h0 h1 hb _).2 hu), hb⟩
  have e : P {ω | outcome ρ c (U ω) = x} = volume ({u | outcome ρ c u = x} ∩ Set.Ico 0 1) := by
    rw [← Measure.restrict_apply hm, ← hU.law, Measure.map_apply hU.measurable hm]
    rfl
  rw [measureReal_def, e, hset, Real.volume_Ico, List.take_add_one, hget, List.sum_append]
  simp [Complex.normSq_nonneg]

/-- The measurements of the simulator are independent with Born's probabilities if the numbers of its generators are independent and uniform. -/
theorem simulator_general {P : Measure Ω} {r : Ω → Randomness} {seed : Option ℕ} {ρ : String → ℂ} {tasks : List Task}
    (ht : ∀ t ∈ tasks, Unitary ρ t.circuit ∧ 0 < t.circuit.n ∧ ∃ s : ℕ, 0 < s ∧ t.shots = some (s : ℤ)) (st : St ℕ)
    (hU : ∀ k j, Uniform P fun ω => defaultRng (r ω) seed k j)
    (hind : iIndepFun (fun (kj : (k : Fin tasks.length) × Fin (shotsOf tasks[k])) ω => defaultRng (r ω) seed (st.world + kj.1) kj.2) P) :
    Returns (fun ω => simRunner (r ω) seed ρ st) tasks (fun k j ω => outcome ρ tasks[k].circuit (defaultRng (r ω) seed (st.world + k) j)) ∧
      Measures P ρ tasks (fun k j ω => outcome ρ tasks[k].circuit (defaultRng (r ω) seed (st.world + k) j)) := by
  refine ⟨fun ω => simLoop_stream (fun k j => (hU k j).range ω) tasks ht st, fun k j => ?_, ?_, fun k j x => ?_⟩
  · exact (measurable_outcome ρ tasks[k].circuit).comp (hU _ _).measurable
  · exact hind.comp (fun kj => outcome ρ tasks[kj.1].circuit) fun kj => measurable_outcome ρ tasks[kj.1].circuit
  · exact outcome_law (hU _ _) (ht _ (List.getElem_mem _)).1 x

/-- C105. A simulator without a seed measures by Born's rule: in every history, for all lists of unitary circuits and numbers of shots, `run_circuitset_and_measure` returns as many bitstrings
for each circuit as asked for, each is `x` with probability `|ψ(x)|²` in the state `ψ` of its circuit, and all are independent. -/
theorem simulator_measures {P : Measure Ω} {r : Ω → Randomness} (hr : FreshRandom P r) {ρ : String → ℂ} {tasks : List Task}
    (ht : ∀ t ∈ tasks, Unitary ρ t.circuit ∧ 0 < t.circuit.n ∧ ∃ s : ℕ, 0 < s ∧ t.shots = some (s : ℤ)) (st : St ℕ) :
    ∃ draw, Returns (fun ω => simRunner (r ω) none ρ st) tasks draw ∧ Measures P ρ tasks draw := by
  refine ⟨_, simulator_general ht st hr.1 ?_⟩
  refine hr.2.precomp (g := fun kj : (k : Fin tasks.length) × Fin (shotsOf tasks[k]) => (st.world + (kj.1 : ℕ), (kj.2 : ℕ))) ?_
  rintro ⟨k, j⟩ ⟨k', j'⟩ h
  have h1 : (k : ℕ) = k' := by have := congrArg Prod.fst h; simpa using this
  have h2 : (j : ℕ) = j' := congrArg Prod.snd h
  obtain rfl := Fin.ext h1
  obtain rfl := Fin.ext h2
  rfl

theorem ready_runs {ρ : String → ℂ} {tasks : List Task} (h : ∀ t ∈ tasks, Ready ρ t) :
    ∀ t ∈ measuredTasks tasks, Unitary ρ t.circuit ∧ 0 < t.circuit.n ∧ ∃ s : ℕ, 0 < s ∧ t.shots = some (s : ℤ) := by
  intro t ht
  have hr := h t (List.mem_filter.1 ht).1
  exact ⟨hr.unitary, hr.qubits, hr.shots⟩

/-- C105. Estimation by averaging on a simulator without a seed: its mean is the sum of the exact expectation values, and its variance the sum of the operators' variances per shot. -/
theorem simulator_statistics (P : Measure Ω) [IsProbabilityMeasure P] {r : Ω → Randomness} (hr : FreshRandom P r) {ρ : String → ℂ} {tasks : List Task} (hready : ∀ t ∈ tasks, Ready ρ t)
    (st : St ℕ) :
    ∃ X : Ω → ℝ, (∀ ω, ∃ out, estimateByAveraging (simRunner (r ω) none ρ st) tasks = .ok out ∧ out.length = tasks.length ∧ (∀ e ∈ out, e ≠ none) ∧ total out = X ω) ∧ MemLp X 2 P ∧
      P[X] = (tasks.map (exactMean ρ)).sum ∧ Var[X; P] = (tasks.map fun t => exactVar ρ t / shotsOf t).sum := by
  obtain ⟨draw, h1, h2⟩ := simulator_measures hr (ready_runs hready) st
  exact averaging_statistics P hready h1 h2

/-- C105. From an operator and a circuit to its energy on the simulator: the operator's terms are grouped greedily, each group gets `s` shots and its basis change, the circuits are run on a
simulator without a seed, and the measurements are averaged. No step fails, the mean is `⟨ψ|H|ψ⟩`, and the variance is the sum of the groups' variances divided by `s`. -/
theorem simulator_energy (P : Measure Ω) [IsProbabilityMeasure P] {r : Ω → Randomness} (hr : FreshRandom P r) {ρ : String → ℂ} {c : Circuit} (hc : Unitary ρ c) (hq : 0 < c.n)
    {H : Terms Letter} (h : CanonicalOp H) (hbig : ∀ kv ∈ H, 1 / 10 ^ 8 ≤ ‖kv.2‖) (hreal : ∀ kv ∈ H, kv.2.im = 0) (hb : Below c.n H) (sortTerms : Bool) (s : ℕ) (hs : 0 < s) (st : St ℕ) :
    ∃ tasks out, allocateUniformly (groupGreedily [⟨H, c, none⟩] sortTerms) s = .ok tasks ∧ performContextSelection tasks = .ok out ∧
      ∃ X : Ω → ℝ, (∀ ω, ∃ res, estimateByAveraging (simRunner (r ω) none ρ st) out = .ok res ∧ res.length = out.length ∧ (∀ e ∈ res, e ≠ none) ∧ total res = X ω) ∧ MemLp X 2 P ∧
        P[X] = (braket (outputState ρ c) (opMatrix c.n H)).re ∧
        Var[X; P] = ((groupGreedy H sortTerms).map fun g => qvar (outputState ρ c) (opMatrix c.n g)).sum / s := by
  obtain ⟨tasks, out, h1, h2, hready, h3⟩ := greedy_estimate hc hq h hbig hreal hb sortTerms s hs
  obtain ⟨draw, d1, d2⟩ := simulator_measures hr (ready_runs hready) st
  exact ⟨tasks, out, h1, h2, h3 P d1 d2⟩

/-! ### Seeds -/

theorem wavefunctionLoop_outcome {W : Type} (ρ : String → ℂ) : ∀ (l : List (Bool × Circuit)) (v : Vec ℂ) (st st' : St W),
    (wavefunctionLoop (symbolic ρ) ρ l v st).1 = (wavefunctionLoop (symbolic ρ) ρ l v st').1 := by
  intro l
  induction l with
  | nil => intro v st st'; rfl
  | cons bc l ih =>
    obtain ⟨b, c⟩ := bc
    intro v st st'
    cases b with
    | true =>
      simp only [wavefunctionLoop, symbolic]
      cases applyAll ρ c.ops v with
      | error e => rfl
      | ok v' => exact ih _ _ _
    | false =>
      simp only [wavefunctionLoop]
      cases applyAll ρ c.ops v with
      | error e => rfl
      | ok v' => exact ih _ _ _

theorem symbolicRun_outcome {W : Type} (choose : Chooser) (hs : Circuit → Bool) (ρ : String → ℂ) (c : Circuit) (n : ℤ) (m : Option Expr.SymMap) (st st' : St W) :
    (symbolicRun choose hs ρ c n m st).1 = (symbolicRun choose hs ρ c n m st').1 := by
  have hw : ∀ c : Circuit, (getWavefunction (symbolic ρ) ρ c none st).1 = (getWavefunction (symbolic ρ) ρ c none st').1 := by
    intro c
    unfold getWavefunction
    cases splitCircuit c (symbolic (W := W) ρ).isNative with
    | error e => rfl
    | ok pieces =>
      have h := wavefunctionLoop_outcome ρ pieces (Option.getD none (zeroVec c.n)) st st'
      dsimp only
      cases ha : wavefunctionLoop (symbolic ρ) ρ pieces (Option.getD none (zeroVec c.n)) st with
      | mk a b =>
        cases ha' : wavefunctionLoop (symbolic ρ) ρ pieces (Option.getD none (zeroVec c.n)) st' with
        | mk a' b' =>
          rw [ha, ha'] at h
          dsimp only at h
          subst h
          cases a with
          | error e => rfl
          | ok v => dsimp only; cases Wavefunction.mk? ((Backend.Vec.toList v).map .num) <;> rfl
  have hb : ∀ bound : Except Err Circuit, (match bound with
      | .error e => ((.error e, st) : Except Err (List (List ℕ)) × St W)
      | .ok c =>
        match getWavefunction (symbolic ρ) ρ c none st with
        | (.error e, st) => (.error e, st)
        | (.ok w, st) => if hs c then (.error .valueError, st) else (sampleFromWavefunction choose w n, st)).1 = (match bound with
      | .error e => ((.error e, st') : Except Err (List (List ℕ)) × St W)
      | .ok c =>
        match getWavefunction (symbolic ρ) ρ c none st' with
        | (.error e, st) => (.error e, st)
        | (.ok w, st) => if hs c then (.error .valueError, st) else (sampleFromWavefunction choose w n, st)).1 := by
    intro bound
    cases bound with
    | error e => rfl
    | ok c =>
      have h := hw c
      dsimp only
      cases ha : getWavefunction (symbolic ρ) ρ c none st with
      | mk a b =>
        cases ha' : getWavefunction (symbolic ρ) ρ c none st' with
        | mk a' b' =>
          rw [ha, ha'] at h
          dsimp only at h
          subst h
          cases a with
          | error e => rfl
          | ok w => dsimp only; cases hs c <;> rfl
  exact hb _

/-- C105. A simulator with a seed gives, in every history, the same bitstrings for the same circuit and number of shots: its second run is the first run again. -/
theorem seeded_same (r : Randomness) (s : ℕ) (ρ : String → ℂ) (c : Circuit) (n : Option ℤ) (st st' : St ℕ) :
    (simRun r (some s) ρ c n st).1 = (simRun r (some s) ρ c n st').1 := by
  cases n with
  | none => rfl
  | some n => exact symbolicRun_outcome _ _ ρ c n none st st'

/-- C105. So every estimate on a simulator with a seed is the same each time. -/
theorem seeded_estimate_same (r : Randomness) (s : ℕ) (ρ : String → ℂ) (tasks : List Task) (st st' : St ℕ) :
    estimateByAveraging (simRunner r (some s) ρ st) tasks = estimateByAveraging (simRunner r (some s) ρ st') tasks := by
  have key : ∀ (cs : List (Circuit × Option ℤ)) (st st' : St ℕ), (simLoop r (some s) ρ cs st).1 = (simLoop r (some s) ρ cs st').1 := by
    intro cs
    induction cs with
    | nil => intro st st'; rfl
    | cons cn cs ih =>
      obtain ⟨c, n⟩ := cn
      intro st st'
      have h1 := seeded_same r s ρ c n st st'
      rw [simLoop, simLoop]
      cases hg : simRun r (some s) ρ c n st with
      | mk o st1 =>
        cases hg' : simRun r (some s) ρ c n st' with
        | mk o' st1' =>
          rw [hg, hg'] at h1
          dsimp only at h1
          subst h1
          cases o with
          | error e => rfl
          | ok m =>
            have h2 := ih st1 st1'
            dsimp only
            cases hl : simLoop r (some s) ρ cs st1 with
            | mk p st2 =>
              cases hl' : simLoop r (some s) ρ cs st1' with
              | mk p' st2' =>
                rw [hl, hl'] at h2
                dsimp only at h2
                subst h2
                cases p <;> rfl
  have : simRunner r (some s) ρ st = simRunner r (some s) ρ st' := funext fun cs => key cs st st'
  rw [this]

/-- What one task contributes to the estimate if its shots use the numbers `u`. -/
noncomputable def streamValue (ρ : String → ℂ) (t : Task) (u : ℕ → ℝ) : ℝ :=
  if notMeasured t then exactMean ρ t else ∑ j : Fin (shotsOf t), energyAt t.operator (outcome ρ t.circuit (u j)) / shotsOf t

omit [MeasurableSpace Ω] in
/-- The estimate on a simulator with a seed: all tasks use the same random numbers. -/
theorem seeded_total {r : Randomness} {s : ℕ} (hr : ∀ j, 0 ≤ r.seeded s j ∧ r.seeded s j < 1) {ρ : String → ℂ} {tasks : List Task} (hready : ∀ t ∈ tasks, Ready ρ t) (st : St ℕ) :
    ∃ out, estimateByAveraging (simRunner r (some s) ρ st) tasks = .ok out ∧ out.length = tasks.length ∧ (∀ e ∈ out, e ≠ none) ∧
      total out = (tasks.map fun t => streamValue ρ t (r.seeded s)).sum := by
  obtain ⟨out, h1, h2, h3, h4⟩ := averaging_total (Ω := Unit) hready (run := fun _ => simRunner r (some s) ρ st)
    (draw := fun k j _ => outcome ρ (measuredTasks tasks)[k].circuit (defaultRng r (some s) (st.world + k) j))
    (fun _ => simLoop_stream (r := r) (seed := some s) (fun k j => hr j) _ (ready_runs hready) st) ()
  refine ⟨out, h1, h2, h3, ?_⟩
  rw [h4, sum_partition notMeasured (fun t => streamValue ρ t (r.seeded s)) tasks, Fintype.sum_sigma,
    show (tasks.filter fun t => !notMeasured t) = measuredTasks tasks from rfl, sum_map_fin _ (measuredTasks tasks)]
  congr 1
  · congr 1
    refine List.map_congr_left fun t ht => ?_
    rw [streamValue, if_pos (List.mem_filter.1 ht).2]
  · refine Finset.sum_congr rfl fun k _ => ?_
    have hk : notMeasured (measuredTasks tasks)[k] = false := by
      have := (List.mem_filter.1 (List.getElem_mem (l := measuredTasks tasks) k.2)).2
      simpa using this
    rw [streamValue, if_neg (by rw [hk]; simp)]
    rfl

/-- The contribution of a task has the exact mean and the variance per shot. -/
theorem streamValue_stats (P : Measure Ω) [IsProbabilityMeasure P] {U : ℕ → Ω → ℝ} (hU : ∀ j, Uniform P (U j)) (hind : iIndepFun U P) {ρ : String → ℂ} {t : Task} (ht : Ready ρ t) :
    MemLp (fun ω => streamValue ρ t fun j => U j ω) 2 P ∧ P[fun ω => streamValue ρ t fun j => U j ω] = exactMean ρ t ∧
      Var[fun ω => streamValue ρ t fun j => U j ω; P] = exactVar ρ t / shotsOf t := by
  have hall : ∀ u ∈ [t], Ready ρ u := by simpa using ht
  obtain ⟨h1, h2⟩ := simulator_general (P := P) (r := fun ω => ⟨fun _ _ => 0, fun _ j => U j ω⟩) (seed := some 0) (ready_runs hall) ⟨0, 0, 0⟩ (fun _ j => hU j) (by
    refine hind.precomp (g := fun kj : (k : Fin (measuredTasks [t]).length) × Fin (shotsOf (measuredTasks [t])[k]) => (kj.2 : ℕ)) ?_
    rintro ⟨k, j⟩ ⟨k', j'⟩ h
    have hl : (measuredTasks [t]).length ≤ 1 := List.length_filter_le _ _
    obtain rfl : k = k' := Fin.ext (by omega)
    obtain rfl := Fin.ext (show (j : ℕ) = j' from h)
    rfl)
  obtain ⟨X, x1, x2, x3, x4⟩ := averaging_statistics P hall h1 h2
  have hX : X = fun ω => streamValue ρ t fun j => U j ω := by
    funext ω
    obtain ⟨out, o1, -, -, o4⟩ := x1 ω
    obtain ⟨out', p1, -, -, p4⟩ := seeded_total (r := ⟨fun _ _ => 0, fun _ j => U j ω⟩) (s := 0) (fun j => (hU j).range ω) hall ⟨0, 0, 0⟩
    rw [p1] at o1
    cases o1
    rw [← o4, p4]
    simp
  rw [← hX]
  exact ⟨x2, by simpa using x3, by simpa using x4⟩

/-- C105. On a simulator with a seed the mean of the estimate is still exact, for all tasks. -/
theorem seeded_mean (P : Measure Ω) [IsProbabilityMeasure P] {r : Ω → Randomness} {s : ℕ} (hr : SeededRandom P r s) {ρ : String → ℂ} {tasks : List Task} (hready : ∀ t ∈ tasks, Ready ρ t)
    (st : St ℕ) :
    ∃ X : Ω → ℝ, (∀ ω, ∃ out, estimateByAveraging (simRunner (r ω) (some s) ρ st) tasks = .ok out ∧ out.length = tasks.length ∧ (∀ e ∈ out, e ≠ none) ∧ total out = X ω) ∧ MemLp X 2 P ∧
      P[X] = (tasks.map (exactMean ρ)).sum := by
  refine ⟨fun ω => (tasks.map fun t => streamValue ρ t ((r ω).seeded s)).sum, fun ω => seeded_total (fun j => (hr.1 j).range ω) hready st, ?_⟩
  induction tasks with
  | nil => simp
  | cons t tasks ih =>
    obtain ⟨i1, i2⟩ := ih fun u hu => hready u (List.mem_cons_of_mem _ hu)
    obtain ⟨j1, j2, -⟩ := streamValue_stats P hr.1 hr.2 (hready t (by simp))
    simp only [List.map_cons, List.sum_cons]
    refine ⟨j1.add i1, ?_⟩
    rw [integral_add (j1.integrable (by norm_num)) (i1.integrable (by norm_num)), i2, j2]

/-- C105. But estimating the same task `m` times on a simulator with a seed does not help: the sum of the `m` estimates has the variance `m² Var/s`, that of `m` times one estimate, and not
the variance `m Var/s` of independent measurements. -/
theorem seeded_repeats (P : Measure Ω) [IsProbabilityMeasure P] {r : Ω → Randomness} {s : ℕ} (hr : SeededRandom P r s) {ρ : String → ℂ} {t : Task} (ht : Ready ρ t) (m : ℕ) (st : St ℕ) :
    ∃ X : Ω → ℝ, (∀ ω, ∃ out, estimateByAveraging (simRunner (r ω) (some s) ρ st) (List.replicate m t) = .ok out ∧ total out = m * X ω) ∧
      P[X] = exactMean ρ t ∧ Var[X; P] = exactVar ρ t / shotsOf t ∧ Var[fun ω => m * X ω; P] = m ^ 2 * (exactVar ρ t / shotsOf t) := by
  obtain ⟨j1, j2, j3⟩ := streamValue_stats P hr.1 hr.2 ht
  refine ⟨fun ω => streamValue ρ t ((r ω).seeded s), fun ω => ?_, j2, j3, ?_⟩
  · obtain ⟨out, h1, -, -, h4⟩ := seeded_total (fun j => (hr.1 j).range ω) (ρ := ρ) (tasks := List.replicate m t) (fun u hu => (List.eq_of_mem_replicate hu) ▸ ht) st
    exact ⟨out, h1, by rw [h4]; simp⟩
  · rw [variance_const_mul, j3]

/-- C105, counterexample. Measurements on a simulator with a seed are not independent: there is a task, ready for measurement, such that estimating it twice in one call has a variance that is
not the sum of the variances per shot, for all seeds, random numbers and histories. -/
theorem seeded_counterexample (ρ : String → ℂ) (m : ℕ) (hm : 0 < m) :
    ∃ t : Task, Ready ρ t ∧ shotsOf t = 2 * m ∧ exactVar ρ t = 4 ∧
      ∀ {Ω : Type} [MeasurableSpace Ω] (P : Measure Ω) [IsProbabilityMeasure P] {r : Ω → Randomness} {s : ℕ}, SeededRandom P r s → ∀ st : St ℕ,
        ∃ X : Ω → ℝ, (∀ ω, ∃ out, estimateByAveraging (simRunner (r ω) (some s) ρ st) [t, t] = .ok out ∧ total out = X ω) ∧
          Var[X; P] = 8 / m ∧ ([t, t].map fun t => exactVar ρ t / shotsOf t).sum = 4 / m := by
  obtain ⟨out, -, h2⟩ := contextSelected (ρ := ρ) (tasks := [correlated m]) (by simpa using correlated_groupable ρ m hm)
  obtain ⟨t, l, ⟨a1, a2, -, a4⟩, -, rfl⟩ := List.forall₂_cons_left_iff.1 h2
  have hshots : shotsOf t = 2 * m := by
    rw [shotsOf, a2]
    show ((2 * m : ℕ) : ℤ).toNat = 2 * m
    exact Int.toNat_natCast _
  have hm' : (m : ℝ) ≠ 0 := by exact_mod_cast hm.ne'
  rw [(correlated_values ρ m).1] at a4
  refine ⟨t, a1, hshots, a4, ?_⟩
  intro Ω _ P _ r s hr st
  obtain ⟨X, x1, -, -, x4⟩ := seeded_repeats P hr a1 2 st
  refine ⟨_, x1, ?_, ?_⟩
  · rw [x4, a4, hshots]
    push_cast
    field_simp
    norm_num
  · simp only [List.map_cons, List.map_nil, List.sum_cons, List.sum_nil, a4, hshots]
    push_cast
    field_simp
    norm_num

/-! ### Such random numbers exist -/

theorem uniforms_exist (ι : Type) [Countable ι] : ∃ (Ω : Type) (_ : MeasurableSpace Ω) (P : Measure Ω) (_ : IsProbabilityMeasure P) (U : ι → Ω → ℝ),
    (∀ i, Uniform P (U i)) ∧ iIndepFun U P := by
  have hp : IsProbabilityMeasure (volume.restrict (Set.Ico (0 : ℝ) 1)) := ⟨by simp⟩
  refine ⟨ι → ℝ, inferInstance, Measure.infinitePi fun _ : ι => volume.restrict (Set.Ico (0 : ℝ) 1), inferInstance, fun i ω => Int.fract (ω i), fun i => ⟨?_, ?_, ?_⟩, ?_⟩
  · exact measurable_fract.comp (measurable_pi_apply i)
  · have h1 : (Measure.infinitePi fun _ : ι => volume.restrict (Set.Ico (0 : ℝ) 1)).map (fun ω => ω i) = volume.restrict (Set.Ico (0 : ℝ) 1) := Measure.infinitePi_map_eval _ i
    have h2 : (Measure.infinitePi fun _ : ι => volume.restrict (Set.Ico (0 : ℝ) 1)).map (fun ω => Int.fract (ω i)) =
        (volume.restrict (Set.Ico (0 : ℝ) 1)).map Int.fract := by
      have h3 := Measure.map_map (μ := Measure.infinitePi fun _ : ι => volume.restrict (Set.Ico (0 : ℝ) 1)) (g := Int.fract) (f := fun ω : ι → ℝ => ω i) measurable_fract
        (measurable_pi_apply i)
      rw [h1] at h3
      exact h3.symm
    rw [h2]
    conv_rhs => rw [← Measure.map_id (μ := volume.restrict (Set.Ico (0 : ℝ) 1))]
    refine Measure.map_congr ?_
    filter_upwards [ae_restrict_mem measurableSet_Ico] with u hu
    exact Int.fract_eq_self.2 hu
  · exact fun ω => ⟨Int.fract_nonneg _, Int.fract_lt_one _⟩
  · have : iIndepFun (fun (i : ι) (ω : ι → ℝ) => ω i) (Measure.infinitePi fun _ : ι => volume.restrict (Set.Ico (0 : ℝ) 1)) :=
      iIndepFun_infinitePi (X := fun _ x => x) (fun _ => measurable_id)
    exact this.comp (fun _ => Int.fract) fun _ => measurable_fract

/-- Non-vacuity: there are independent uniform random numbers. -/
theorem randomness_exists : ∃ (Ω : Type) (_ : MeasurableSpace Ω) (P : Measure Ω) (_ : IsProbabilityMeasure P) (r : Ω → Randomness), FreshRandom P r ∧ ∀ s, SeededRandom P r s := by
  obtain ⟨Ω, i, P, hP, U, h1, h2⟩ := uniforms_exist (Bool × ℕ × ℕ)
  refine ⟨Ω, i, P, hP, fun ω => ⟨fun k j => U (true, k, j) ω, fun s j => U (false, s, j) ω⟩, ⟨fun k j => h1 _, ?_⟩, fun s => ⟨fun j => h1 _, ?_⟩⟩
  · exact h2.precomp (g := fun kj : ℕ × ℕ => (true, kj.1, kj.2)) fun a b h => by simpa [Prod.ext_iff] using h
  · exact h2.precomp (g := fun j : ℕ => (false, s, j)) fun a b h => by simpa [Prod.ext_iff] using h

end ZQ.Stat
