import Verif.Lemmas.Hoeffding
import Verif.Props.Born
import Verif.Props.OutcomeDistribution
import Mathlib.Analysis.Complex.ExponentialBounds

/-!
# C136: how many shots are enough
-/

namespace ZQ.Stat

open ZQ ZQ.PyDict ZQ.Op ZQ.Circuits ZQ.Gates ZQ.Est ZQ.Expect ZQ.Backend MeasureTheory ProbabilityTheory Matrix

variable {Ω : Type} [MeasurableSpace Ω]

/-! ### Specification -/

/-- Specification: the sum of the absolute values of the coefficients of an operator, without its constant. -/
noncomputable def reach (o : Terms Letter) : ℝ := ((o.filter fun kv => !kv.1.isEmpty).map fun kv => |kv.2.re|).sum

/-! ### Auxiliary facts -/

theorem reach_nonneg (o : Terms Letter) : 0 ≤ reach o := by
  refine List.sum_nonneg fun x hx => ?_
  obtain ⟨kv, -, rfl⟩ := List.mem_map.1 hx
  exact abs_nonneg _

/-- The values of an operator of `Z`s are within `reach` of its constant. -/
theorem energyAt_reach {n : ℕ} (o : Terms Letter) (x : Fin n → Bool) :
    ((o.filter fun kv => kv.1.isEmpty).map fun kv => kv.2.re).sum - reach o ≤ energyAt o x ∧
      energyAt o x ≤ ((o.filter fun kv => kv.1.isEmpty).map fun kv => kv.2.re).sum + reach o := by
  induction o with
  | nil => simp [energyAt, reach]
  | cons kv o ih =>
    obtain ⟨h1, h2⟩ := ih
    have e : energyAt (kv :: o) x = kv.2.re * Meas.termSpin (kv.1.map Prod.fst) (bits x) + energyAt o x := by simp [energyAt]
    rw [e]
    by_cases h : kv.1 = []
    · have r1 : reach (kv :: o) = reach o := by simp [reach, h]
      have r2 : (((kv :: o).filter fun kv => kv.1.isEmpty).map fun kv => kv.2.re).sum = kv.2.re + ((o.filter fun kv => kv.1.isEmpty).map fun kv => kv.2.re).sum := by simp [h]
      have r3 : Meas.termSpin (kv.1.map Prod.fst) (bits x) = 1 := by simp [h, Meas.termSpin]
      rw [r1, r2, r3]
      constructor <;> linarith
    · have r1 : reach (kv :: o) = |kv.2.re| + reach o := by simp [reach, h]
      have r2 : (((kv :: o).filter fun kv => kv.1.isEmpty).map fun kv => kv.2.re).sum = ((o.filter fun kv => kv.1.isEmpty).map fun kv => kv.2.re).sum := by simp [h]
      have r3 : |kv.2.re * Meas.termSpin (kv.1.map Prod.fst) (bits x)| = |kv.2.re| := by rw [abs_mul, Meas.termSpin_abs, mul_one]
      rw [r1, r2]
      have := neg_abs_le (kv.2.re * Meas.termSpin (kv.1.map Prod.fst) (bits x))
      have := le_abs_self (kv.2.re * Meas.termSpin (kv.1.map Prod.fst) (bits x))
      rw [r3] at *
      constructor <;> linarith

/-- A bound `2 exp (-a / b)` is at most `η` if `b log (2 / η) ≤ a`. -/
theorem exp_enough {a b η : ℝ} (hb : 0 < b) (hη : 0 < η) {m : ℝ} (hm : 0 < m) (h : b * Real.log (m / η) ≤ a) : m * Real.exp (-a / b) ≤ η := by
  have h1 : Real.log (m / η) ≤ a / b := by rw [le_div_iff₀ hb]; linarith
  have h2 : Real.exp (-a / b) ≤ η / m := by
    rw [neg_div, ← Real.exp_log (show 0 < η / m by positivity), Real.exp_le_exp, Real.log_div hη.ne' hm.ne']
    rw [Real.log_div hm.ne' hη.ne'] at h1
    linarith
  calc m * Real.exp (-a / b) ≤ m * (η / m) := by gcongr
    _ = η := by field_simp

/-! ### Estimates of operators -/

/-- C136. Estimation by averaging is off by `δ` or more with a probability that is exponentially small in the numbers of shots: for all tasks on operators of `Z`s and all backends that return
independent measurements it is at most `2 exp (-δ² / (2 ∑ reach² / shots))`. -/
theorem averaging_confidence (P : Measure Ω) [IsProbabilityMeasure P] {ρ : String → ℂ} {tasks : List Task} (hready : ∀ t ∈ tasks, Ready ρ t) {run : Ω → Runner}
    {draw : (k : Fin (measuredTasks tasks).length) → Fin (shotsOf (measuredTasks tasks)[k]) → Ω → (Fin (measuredTasks tasks)[k].circuit.n → Bool)}
    (hrun : Returns run (measuredTasks tasks) draw) (hdraw : Measures P ρ (measuredTasks tasks) draw) {δ : ℝ} (hδ : 0 ≤ δ) :
    P.real {ω | ∃ out, estimateByAveraging (run ω) tasks = .ok out ∧ δ ≤ |total out - (tasks.map (exactMean ρ)).sum|} ≤
      2 * Real.exp (-δ ^ 2 / (2 * (tasks.map fun t => reach t.operator ^ 2 / shotsOf t).sum)) := by
  have hmem : ∀ k : Fin (measuredTasks tasks).length, (measuredTasks tasks)[k] ∈ tasks := fun k => (List.mem_filter.1 (List.getElem_mem k.2)).1
  obtain ⟨X, x1, x2, x3, -⟩ := averaging_statistics P hready hrun hdraw
  have hX : X = fun ω => ((tasks.filter notMeasured).map (exactMean ρ)).sum +
      ∑ kj : (k : Fin (measuredTasks tasks).length) × Fin (shotsOf (measuredTasks tasks)[k]),
        energyAt (measuredTasks tasks)[kj.1].operator (draw kj.1 kj.2 ω) / shotsOf (measuredTasks tasks)[kj.1] := by
    funext ω
    obtain ⟨out, o1, -, -, o4⟩ := x1 ω
    obtain ⟨out', p1, -, -, p4⟩ := averaging_total hready hrun ω
    rw [p1] at o1
    cases o1
    rw [← o4, p4]
  let cst : Task → ℝ := fun t => ((t.operator.filter fun kv => kv.1.isEmpty).map fun kv => kv.2.re).sum
  have hh := hoeffding_draws (P := P) (κ := (k : Fin (measuredTasks tasks).length) × Fin (shotsOf (measuredTasks tasks)[k]))
    (S := fun kj => draw kj.1 kj.2) (fun kj => hdraw.measurable kj.1 kj.2) hdraw.independent
    (fun kj x => energyAt (measuredTasks tasks)[kj.1].operator x / shotsOf (measuredTasks tasks)[kj.1])
    (((tasks.filter notMeasured).map (exactMean ρ)).sum)
    (fun kj => (cst (measuredTasks tasks)[kj.1] - reach (measuredTasks tasks)[kj.1].operator) / shotsOf (measuredTasks tasks)[kj.1])
    (fun kj => (cst (measuredTasks tasks)[kj.1] + reach (measuredTasks tasks)[kj.1].operator) / shotsOf (measuredTasks tasks)[kj.1])
    (fun kj x => by
      obtain ⟨a, b⟩ := energyAt_reach (measuredTasks tasks)[kj.1].operator x
      exact ⟨div_le_div_of_nonneg_right a (Nat.cast_nonneg _), div_le_div_of_nonneg_right b (Nat.cast_nonneg _)⟩) hδ
  have hsum : ∑ kj : (k : Fin (measuredTasks tasks).length) × Fin (shotsOf (measuredTasks tasks)[k]),
      ((cst (measuredTasks tasks)[kj.1] + reach (measuredTasks tasks)[kj.1].operator) / shotsOf (measuredTasks tasks)[kj.1] -
        (cst (measuredTasks tasks)[kj.1] - reach (measuredTasks tasks)[kj.1].operator) / shotsOf (measuredTasks tasks)[kj.1]) ^ 2 =
      4 * (tasks.map fun t => reach t.operator ^ 2 / shotsOf t).sum := by
    rw [sum_partition notMeasured (fun t => reach t.operator ^ 2 / shotsOf t) tasks, List.sum_eq_zero (l := List.map _ (tasks.filter notMeasured)), zero_add,
      show (tasks.filter fun t => !notMeasured t) = measuredTasks tasks from rfl, sum_map_fin, Fintype.sum_sigma, Finset.mul_sum]
    · refine Finset.sum_congr rfl fun k _ => ?_
      have hs : ((shotsOf (measuredTasks tasks)[k] : ℕ) : ℝ) ≠ 0 := by exact_mod_cast (hready _ (hmem k)).shotsOf_pos.1.ne'
      refine (Finset.sum_congr rfl (g := fun _ => 4 * (reach (measuredTasks tasks)[k].operator ^ 2 / shotsOf (measuredTasks tasks)[k] ^ 2)) fun j _ => ?_).trans ?_
      · dsimp only
        field_simp
        ring
      rw [Finset.sum_const, Finset.card_univ, Fintype.card_fin, nsmul_eq_mul]
      field_simp
    · intro x hx
      obtain ⟨t, ht, rfl⟩ := List.mem_map.1 hx
      obtain ⟨h1, h2⟩ := List.mem_filter.1 ht
      obtain ⟨c, hc⟩ := (notMeasured_ready (hready t h1)).1 h2
      simp [reach, hc]
  have hexp : -(2 * δ ^ 2) / (4 * (tasks.map fun t => reach t.operator ^ 2 / shotsOf t).sum) = -δ ^ 2 / (2 * (tasks.map fun t => reach t.operator ^ 2 / shotsOf t).sum) := by
    rw [show -(2 * δ ^ 2) = 2 * (-δ ^ 2) by ring, show 4 * (tasks.map fun t => reach t.operator ^ 2 / shotsOf t).sum = 2 * (2 * (tasks.map fun t => reach t.operator ^ 2 / shotsOf t).sum) by ring,
      mul_div_mul_left _ _ (by norm_num)]
  rw [hsum, hexp] at hh
  refine le_trans (measureReal_mono ?_) hh
  rintro ω ⟨out, ho, hd⟩
  obtain ⟨out', ho', -, -, ht⟩ := x1 ω
  rw [ho] at ho'
  cases ho'
  rw [← x3, ht] at hd
  subst hX
  exact hd

/-- C136. So enough shots make the estimate as reliable as wanted: if `2 ∑ reach² / shots · log (2 / η) ≤ δ²`, the estimate is off by `δ` or more with probability at most `η`. -/
theorem averaging_enough (P : Measure Ω) [IsProbabilityMeasure P] {ρ : String → ℂ} {tasks : List Task} (hready : ∀ t ∈ tasks, Ready ρ t) {run : Ω → Runner}
    {draw : (k : Fin (measuredTasks tasks).length) → Fin (shotsOf (measuredTasks tasks)[k]) → Ω → (Fin (measuredTasks tasks)[k].circuit.n → Bool)}
    (hrun : Returns run (measuredTasks tasks) draw) (hdraw : Measures P ρ (measuredTasks tasks) draw) {δ η : ℝ} (hδ : 0 < δ) (hη : 0 < η)
    (henough : 2 * (tasks.map fun t => reach t.operator ^ 2 / shotsOf t).sum * Real.log (2 / η) ≤ δ ^ 2) :
    P.real {ω | ∃ out, estimateByAveraging (run ω) tasks = .ok out ∧ δ ≤ |total out - (tasks.map (exactMean ρ)).sum|} ≤ η := by
  have hnn : 0 ≤ (tasks.map fun t => reach t.operator ^ 2 / shotsOf t).sum := by
    refine List.sum_nonneg fun x hx => ?_
    obtain ⟨t, -, rfl⟩ := List.mem_map.1 hx
    positivity
  rcases hnn.eq_or_lt with h0 | hpos
  · -- nothing is measured: the estimate is exact
    obtain ⟨X, x1, x2, x3, x4⟩ := averaging_statistics P hready hrun hdraw
    have hvar : (tasks.map fun t => exactVar ρ t / shotsOf t).sum = 0 := by
      refine List.sum_eq_zero fun x hx => ?_
      obtain ⟨t, ht, rfl⟩ := List.mem_map.1 hx
      have hr0 : reach t.operator ^ 2 / shotsOf t = 0 :=
        le_antisymm (h0 ▸ List.single_le_sum (l := tasks.map fun t => reach t.operator ^ 2 / (shotsOf t : ℝ)) (fun y hy => by
          obtain ⟨u, -, rfl⟩ := List.mem_map.1 hy
          positivity) _ (List.mem_map_of_mem ht)) (by positivity)
      have hs : ((shotsOf t : ℕ) : ℝ) ≠ 0 := by exact_mod_cast (hready t ht).shotsOf_pos.1.ne'
      have hr : reach t.operator = 0 := by
        rcases div_eq_zero_iff.1 hr0 with h | h
        · exact pow_eq_zero_iff (by norm_num) |>.1 h
        · exact absurd h hs
      obtain ⟨-, b2⟩ := braket_ising (outputState ρ t.circuit) (hready t ht).canonicals (hready t ht).zs (hready t ht).real (hready t ht).below
      have he : ∀ x : Fin t.circuit.n → Bool, energyAt t.operator x = ((t.operator.filter fun kv => kv.1.isEmpty).map fun kv => kv.2.re).sum := by
        intro x
        obtain ⟨a, b⟩ := energyAt_reach t.operator x
        rw [hr] at a b
        linarith
      rw [exactVar, b2]
      simp only [he]
      rw [← Finset.sum_mul, ← Finset.sum_mul, output_normalised (hready t ht).unitary]
      simp
    have hcheb := averaging_error P hready hrun hdraw hδ
    rw [hvar, zero_div, ENNReal.ofReal_zero, nonpos_iff_eq_zero] at hcheb
    rw [measureReal_def, hcheb]
    simpa using hη.le
  · exact (averaging_confidence P hready hrun hdraw hδ.le).trans (exp_enough (by positivity) hη (by norm_num) henough)

theorem reach_zTerm (o : Terms Letter) : reach (o.map fun kv => (kv.1.map fun f => (f.1, Letter.Z), kv.2)) = reach o := by
  induction o with
  | nil => rfl
  | cons kv o ih =>
    unfold reach at *
    by_cases h : kv.1 = []
    · simpa [h] using ih
    · simpa [h] using ih

theorem contextSelected_reach {ρ : String → ℂ} {tasks out : List Task} (h : ∀ t ∈ tasks, Groupable ρ t) (hout : performContextSelection tasks = .ok out) :
    (out.map fun u => reach u.operator ^ 2 / shotsOf u).sum = (tasks.map fun t => reach t.operator ^ 2 / shotsOf t).sum := by
  have h2 := (performContextSelection_spec tasks out).1 hout
  clear hout
  induction h2 with
  | nil => rfl
  | @cons t u tasks out htu _ ih =>
    obtain ⟨c, c1, -, c3⟩ := htu
    have ht := h t (by simp)
    obtain ⟨c', D, d1, d2, -⟩ := contextSelection_spec ht.canonical ht.together
    rw [c1] at d1
    obtain ⟨rfl, rfl⟩ := Prod.mk.inj (Except.ok.inj d1)
    rw [List.map_cons, List.sum_cons, List.map_cons, List.sum_cons, ih fun t ht => h t (by simp [ht])]
    rw [bigTerms_eq_self ht.big] at d2
    rw [d2, reach_zTerm, shotsOf, c3]
    rfl

/-- C136. From an operator and a circuit to its energy on the simulator: the terms are grouped greedily, each group gets `s` shots and its basis change, the circuits are run on a simulator
without a seed and the measurements are averaged. For all real operators, unitary circuits, numbers of shots and histories no step fails, and the result is off from `⟨ψ|H|ψ⟩` by `δ` or more
with probability at most `2 exp (-s δ² / (2 ∑ reach²))`, the sum over the groups. -/
theorem energy_confidence (P : Measure Ω) [IsProbabilityMeasure P] {r : Ω → Randomness} (hr : FreshRandom P r) {ρ : String → ℂ} {c : Circuit} (hc : Unitary ρ c) (hq : 0 < c.n)
    {H : Terms Letter} (h : CanonicalOp H) (hbig : ∀ kv ∈ H, 1 / 10 ^ 8 ≤ ‖kv.2‖) (hreal : ∀ kv ∈ H, kv.2.im = 0) (hb : Below c.n H) (sortTerms : Bool) (s : ℕ) (hs : 0 < s) (st : St ℕ) :
    ∃ tasks out, allocateUniformly (groupGreedily [⟨H, c, none⟩] sortTerms) s = .ok tasks ∧ performContextSelection tasks = .ok out ∧
      (∀ ω, ∃ res, estimateByAveraging (simRunner (r ω) none ρ st) out = .ok res) ∧
      ∀ δ, 0 ≤ δ → P.real {ω | ∃ res, estimateByAveraging (simRunner (r ω) none ρ st) out = .ok res ∧ δ ≤ |total res - (braket (outputState ρ c) (opMatrix c.n H)).re|} ≤
        2 * Real.exp (-(s * δ ^ 2) / (2 * ((groupGreedy H sortTerms).map fun g => reach g ^ 2).sum)) := by
  obtain ⟨tasks, out, h1, h2, hready, h3⟩ := greedy_estimate hc hq h hbig hreal hb sortTerms s hs
  obtain ⟨draw, d1, d2⟩ := simulator_measures hr (ready_runs hready) st
  obtain ⟨X, x1, -, x3, -⟩ := h3 P d1 d2
  obtain ⟨Y, y1, -, y3, -⟩ := averaging_statistics P hready d1 d2
  have hXY : X = Y := by
    funext ω
    obtain ⟨o1, a1, -, -, a4⟩ := x1 ω
    obtain ⟨o2, b1, -, -, b4⟩ := y1 ω
    rw [a1] at b1
    cases b1
    rw [← a4, b4]
  have hmean : (out.map (exactMean ρ)).sum = (braket (outputState ρ c) (opMatrix c.n H)).re := by rw [← y3, ← hXY, x3]
  refine ⟨tasks, out, h1, h2, fun ω => ?_, fun δ hδ => ?_⟩
  · obtain ⟨o1, a1, -⟩ := x1 ω
    exact ⟨o1, a1⟩
  have hconf := averaging_confidence P hready d1 d2 hδ
  rw [hmean] at hconf
  have htasks : tasks = (groupGreedy H sortTerms).map fun g => ⟨g, c, some (s : ℤ)⟩ := by
    rw [(allocateUniformly_spec _ _).1 (by exact_mod_cast hs)] at h1
    rw [← Except.ok.inj h1, groupGreedily]
    simp [Function.comp_def]
  have hpart := groupGreedy_partition h sortTerms hbig
  have hgroup : ∀ t ∈ tasks, Groupable ρ t := by
    intro t ht
    rw [htasks] at ht
    obtain ⟨g, hg, rfl⟩ := List.mem_map.1 ht
    have hnd : (keys g).Nodup := by
      have : (keys (groupGreedy H sortTerms).flatten).Nodup := (hpart.map Prod.fst).nodup_iff.2 h.1
      exact this.sublist ((List.sublist_flatten_of_mem hg).map Prod.fst)
    obtain ⟨a, b, d, e⟩ := group_ok h hbig hreal hb (fun kv hkv => hpart.mem_iff.1 (List.mem_flatten.2 ⟨g, hg, hkv⟩)) hnd
    exact ⟨a, ((groupGreedy_spec h sortTerms).2.1 g hg).2, b, d, e, hc, hq, s, hs, rfl⟩
  have hs' : (s : ℝ) ≠ 0 := by exact_mod_cast hs.ne'
  have hR : (out.map fun u => reach u.operator ^ 2 / shotsOf u).sum = ((groupGreedy H sortTerms).map fun g => reach g ^ 2).sum / s := by
    rw [contextSelected_reach hgroup h2, htasks, List.map_map]
    generalize groupGreedy H sortTerms = gs
    induction gs with
    | nil => simp
    | cons g gs ih =>
      rw [List.map_cons, List.sum_cons, ih, List.map_cons, List.sum_cons, add_div]
      rfl
  rw [hR] at hconf
  refine hconf.trans (le_of_eq ?_)
  congr 2
  generalize ((groupGreedy H sortTerms).map fun g => reach g ^ 2).sum = R
  by_cases hR0 : R = 0
  · simp [hR0]
  · field_simp

/-! ### Measured distributions -/

theorem freq_confidence (P : Measure Ω) [IsProbabilityMeasure P] {O : Type} [Fintype O] [DecidableEq O] [MeasurableSpace O] [MeasurableSingletonClass O] {s : ℕ} (hs : 0 < s)
    {S : Fin s → Ω → O} (hS : ∀ j, Measurable (S j)) (hind : iIndepFun S P) {p : O → ℝ} (law : ∀ j x, P.real {ω | S j ω = x} = p x) (x : O) {δ : ℝ} (hδ : 0 ≤ δ) :
    P.real {ω | δ ≤ |freq S x ω - p x|} ≤ 2 * Real.exp (-(2 * s * δ ^ 2)) := by
  have hs' : (s : ℝ) ≠ 0 := by exact_mod_cast hs.ne'
  have hh := hoeffding_draws (P := P) (κ := Fin s) (O := fun _ => O) (S := S) hS hind (fun _ y => (if y = x then 1 else 0) / (s : ℝ)) 0 (fun _ => 0) (fun _ => 1 / s)
    (fun _ y => by
      by_cases h : y = x
      · simp [h]
      · simp [h]) hδ
  have hsum : (∑ _k : Fin s, ((1 : ℝ) / (s : ℝ) - 0) ^ 2) = 1 / (s : ℝ) := by
    rw [Finset.sum_const, Finset.card_univ, Fintype.card_fin, nsmul_eq_mul]
    field_simp
    ring
  have hfreq : ∀ ω, 0 + ∑ k, (if S k ω = x then 1 else 0) / (s : ℝ) = freq S x ω := fun ω => by rw [zero_add]; rfl
  simp only [hfreq] at hh
  rw [hsum, freq_mean hs hS law x] at hh
  refine hh.trans (le_of_eq ?_)
  congr 2
  field_simp

/-- C136. The probability which a measured distribution of `s` samples reports for an outcome is off from Born's rule by `δ` or more with probability at most `2 exp (-2 s δ²)`, for all
unitary circuits, outcomes and histories, with and without a seed. -/
theorem outcome_confidence (P : Measure Ω) [IsProbabilityMeasure P] {r : Ω → Randomness} {seed : Option ℕ} (hr : Promised P r seed) {ρ : String → ℂ} {c : Circuit} (hc : Unitary ρ c)
    (hn : 0 < c.n) {s : ℕ} (hs : 0 < s) (st : St ℕ) (x : Fin c.n → Bool) {δ : ℝ} (hδ : 0 ≤ δ) :
    P.real {ω | ∃ d, (outcomeDistribution (r ω) seed ρ c (some (s : ℤ)) st).1 = .ok d ∧ δ ≤ |Dist.pmf d (outcomeKey x) - born ρ c x|} ≤ 2 * Real.exp (-(2 * s * δ ^ 2)) := by
  obtain ⟨S, D, hS, hI, hlaw, hD⟩ := measured_outcomes P hr hc hn hs st
  refine le_trans (measureReal_mono ?_) (freq_confidence P hs hS hI hlaw x hδ)
  rintro ω ⟨d, hd, hδ⟩
  rw [(hD ω).1] at hd
  cases hd
  rw [(hD ω).2.2.2] at hδ
  exact hδ

/-- C136. All outcomes at once: some reported probability is off by `δ` or more with probability at most `2 · 2ⁿ exp (-2 s δ²)`. -/
theorem distribution_confidence (P : Measure Ω) [IsProbabilityMeasure P] {r : Ω → Randomness} {seed : Option ℕ} (hr : Promised P r seed) {ρ : String → ℂ} {c : Circuit} (hc : Unitary ρ c)
    (hn : 0 < c.n) {s : ℕ} (hs : 0 < s) (st : St ℕ) {δ : ℝ} (hδ : 0 ≤ δ) :
    P.real {ω | ∃ d, (outcomeDistribution (r ω) seed ρ c (some (s : ℤ)) st).1 = .ok d ∧ ∃ x, δ ≤ |Dist.pmf d (outcomeKey x) - born ρ c x|} ≤ 2 * 2 ^ c.n * Real.exp (-(2 * s * δ ^ 2)) := by
  have hsub : {ω | ∃ d, (outcomeDistribution (r ω) seed ρ c (some (s : ℤ)) st).1 = .ok d ∧ ∃ x, δ ≤ |Dist.pmf d (outcomeKey x) - born ρ c x|} ⊆
      ⋃ x : Fin c.n → Bool, {ω | ∃ d, (outcomeDistribution (r ω) seed ρ c (some (s : ℤ)) st).1 = .ok d ∧ δ ≤ |Dist.pmf d (outcomeKey x) - born ρ c x|} := by
    rintro ω ⟨d, hd, x, hx⟩
    exact Set.mem_iUnion.2 ⟨x, d, hd, hx⟩
  refine (measureReal_mono hsub).trans ((measureReal_iUnion_fintype_le _).trans ?_)
  refine (Finset.sum_le_sum fun x _ => outcome_confidence P hr hc hn hs st x hδ).trans (le_of_eq ?_)
  rw [Finset.sum_const, Finset.card_univ, Fintype.card_fun, Fintype.card_bool, Fintype.card_fin, nsmul_eq_mul]
  push_cast
  ring

/-- C136. So `log (2 · 2ⁿ / η) / (2 δ²)` samples are enough for a distribution all of whose reported probabilities are right to within `δ`, except with probability `η`: the number of samples grows
with the number of qubits, not with the number of outcomes. -/
theorem distribution_enough (P : Measure Ω) [IsProbabilityMeasure P] {r : Ω → Randomness} {seed : Option ℕ} (hr : Promised P r seed) {ρ : String → ℂ} {c : Circuit} (hc : Unitary ρ c)
    (hn : 0 < c.n) {s : ℕ} (hs : 0 < s) (st : St ℕ) {δ η : ℝ} (hδ : 0 < δ) (hη : 0 < η) (henough : Real.log (2 * 2 ^ c.n / η) / (2 * δ ^ 2) ≤ s) :
    (∀ ω, ∃ d, (outcomeDistribution (r ω) seed ρ c (some (s : ℤ)) st).1 = .ok d) ∧
      P.real {ω | ∃ d, (outcomeDistribution (r ω) seed ρ c (some (s : ℤ)) st).1 = .ok d ∧ ∃ x, δ ≤ |Dist.pmf d (outcomeKey x) - born ρ c x|} ≤ η := by
  constructor
  · obtain ⟨S, D, -, -, -, hD⟩ := measured_outcomes P hr hc hn hs st
    exact fun ω => ⟨D ω, (hD ω).1⟩
  · refine (distribution_confidence P hr hc hn hs st hδ.le).trans ?_
    have := exp_enough (a := 2 * s * δ ^ 2) (b := 1) one_pos hη (m := 2 * 2 ^ c.n) (by positivity) (by
      rw [div_le_iff₀ (by positivity)] at henough
      linarith)
    simpa using this

/-! ### Non-vacuity -/

/-- Non-vacuity: with 1200 samples of a two-qubit circuit every reported probability is right to within `1/20`, except with probability `1/20`. -/
example (P : Measure Ω) [IsProbabilityMeasure P] {r : Ω → Randomness} {seed : Option ℕ} (hr : Promised P r seed) (st : St ℕ) :
    P.real {ω | ∃ d, (outcomeDistribution (r ω) seed (fun _ => 0) ⟨contextGate (0, .X), 2⟩ (some ((1200 : ℕ) : ℤ)) st).1 = .ok d ∧
      ∃ x, 1 / 20 ≤ |Dist.pmf d (outcomeKey x) - born (fun _ => 0) ⟨contextGate (0, .X), 2⟩ x|} ≤ 1 / 20 := by
  refine (distribution_enough P hr ⟨by intro h; simp at h, fun op hop => (contextGate_ok (n := 2) (f := (0, .X)) (fun _ => 0) (by norm_num) op hop).1,
    fun op hop => (contextGate_ok (n := 2) (f := (0, .X)) (fun _ => 0) (by norm_num) op hop).2⟩ (by norm_num) (by norm_num) st (by norm_num) (by norm_num) ?_).2
  have h1 : Real.log (2 * 2 ^ 2 / (1 / 20)) ≤ 6 := by
    rw [Real.log_le_iff_le_exp (by norm_num)]
    have h2 : (2.7 : ℝ) ≤ Real.exp 1 := le_trans (by norm_num) (le_of_lt Real.exp_one_gt_d9)
    have h3 : Real.exp 6 = Real.exp 1 ^ 6 := by rw [← Real.exp_nat_mul]; norm_num
    rw [h3]
    calc (2 * 2 ^ 2 / (1 / 20) : ℝ) ≤ 2.7 ^ 6 := by norm_num
      _ ≤ _ := by gcongr
  show Real.log (2 * 2 ^ 2 / (1 / 20)) / (2 * (1 / 20) ^ 2) ≤ ((1200 : ℕ) : ℝ)
  rw [div_le_iff₀ (by norm_num)]
  refine h1.trans (by norm_num)

/-- Non-vacuity: the reach of `3 - 2 Z0 + X1` is `3`. -/
example : reach [([], 3), ([(0, .Z)], -2), ([(1, .X)], 1)] = 3 := by
  norm_num [reach]

end ZQ.Stat
