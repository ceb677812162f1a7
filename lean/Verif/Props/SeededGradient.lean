import Verif.Props.MeasuredGradient
import Mathlib.Analysis.Real.Pi.Bounds

/-!
# C142: gradients from measurements on a simulator with a seed
-/

namespace ZQ.Stat

open ZQ ZQ.PyDict ZQ.Op ZQ.Circuits ZQ.Gates ZQ.Est ZQ.Expect ZQ.Backend ZQ.Gradient MeasureTheory ProbabilityTheory Matrix

variable {Ω : Type} [MeasurableSpace Ω]

/-- What estimation by averaging returns in total on a simulator with a seed whose generators give the numbers `u`. -/
noncomputable def seededEstimate (ρ : String → ℂ) (T : List Task) (u : ℕ → ℝ) : ℝ := (T.map fun t => streamValue ρ t u).sum

omit [MeasurableSpace Ω] in
/-- Estimates that are all there are the values of the method. -/
theorem method_of_estimate {r : Randomness} {seed : Option ℕ} {ρ : String → ℂ} {T : List Task} (hready : ∀ t ∈ T, Ready ρ t) (st : St ℕ) {out : List (Option Meas.ExpectationValues)}
    (h1 : estimateByAveraging (simRunner r seed ρ st) T = .ok out) (h3 : ∀ e ∈ out, e ≠ none) :
    ∃ es st', averagingMethod r seed ρ st T = (.ok es, st') ∧ (Cost.summarize es).value = total out := by
  obtain ⟨l, hl⟩ : ∃ l, evaluateNonMeasured (split T).2.1 = .ok l := ⟨(T.filter notMeasured).map fun t => plainValue t.operator, by
    rw [evaluateNonMeasured, mapM_ok_iff, show (split T).2.1 = T.filter notMeasured from (split_fst 0 T).2, List.forall₂_map_right_iff, List.forall₂_same]
    exact fun t ht => evaluateNonMeasured1_ok (List.mem_filter.1 ht).2⟩
  obtain ⟨vs, rfl⟩ : ∃ vs : List Meas.ExpectationValues, out = vs.map some := by
    refine ⟨out.filterMap id, ?_⟩
    clear h1
    induction out with
    | nil => rfl
    | cons e out ih =>
      cases e with
      | none => exact absurd rfl (h3 none (by simp))
      | some v =>
        have := ih fun e he => h3 e (by simp [he])
        rw [List.filterMap_cons]
        simpa using this
  have hvals : (vs.map some).mapM toValues = .ok (vs.map fun v => (⟨v.values.map fun x : ℝ => (x : ℂ), false, v.correlations, v.covariances⟩ : Cost.Values)) := by
    rw [mapM_ok_iff, List.forall₂_map_left_iff, List.forall₂_map_right_iff, List.forall₂_same]
    exact fun v _ => rfl
  refine ⟨vs.map fun v => ⟨v.values.map fun x : ℝ => (x : ℂ), false, v.correlations, v.covariances⟩,
    if (split T).1.isEmpty then st else (simLoop r seed ρ ((split T).1.map fun t => (t.circuit, t.shots)) st).2, ?_, summarize_total vs⟩
  unfold averagingMethod
  rw [hl]
  dsimp only
  rw [h1]
  exact congrArg (·, _) hvals

theorem seededEstimate_mean (P : Measure Ω) [IsProbabilityMeasure P] {r : Ω → Randomness} {s : ℕ} (hr : SeededRandom P r s) {ρ : String → ℂ} {T : List Task} (hready : ∀ t ∈ T, Ready ρ t) :
    MemLp (fun ω => seededEstimate ρ T ((r ω).seeded s)) 2 P ∧ P[fun ω => seededEstimate ρ T ((r ω).seeded s)] = energySum ρ T := by
  unfold seededEstimate energySum
  induction T with
  | nil => simp
  | cons t T ih =>
    obtain ⟨i1, i2⟩ := ih fun u hu => hready u (List.mem_cons_of_mem _ hu)
    obtain ⟨j1, j2, -⟩ := streamValue_stats P hr.1 hr.2 (hready t (by simp))
    simp only [List.map_cons, List.sum_cons]
    refine ⟨j1.add i1, ?_⟩
    rw [integral_add (j1.integrable (by norm_num)) (i1.integrable (by norm_num)), i2, j2]

/-- The outcome which the number `u` selects in the state `ψ`. -/
noncomputable def outcomeIn (n : ℕ) (ψ : (Fin n → Bool) → ℂ) (u : ℝ) : Fin n → Bool := bitsOf n (pick ((List.range (2 ^ n)).map fun i => Complex.normSq (ψ (bitsOf n i))) u)

theorem outcome_eq (ρ : String → ℂ) (c : Circuit) (u : ℝ) : outcome ρ c u = outcomeIn c.n (outputState ρ c) u := by
  unfold outcome outcomeIn bornList
  rfl

theorem bound_outcome {symbols : List String} {ps : List ℝ} {t t' : Task} (h1 : t'.operator = t.operator) (h3 : Cost.BoundTo symbols ps t.circuit t'.circuit) {ρ ρ' : String → ℂ}
    (ha : Assigns symbols ps ρ ρ') (hc : Unitary ρ' t.circuit) (x : ℝ) : energyAt t'.operator (outcome ρ t'.circuit x) = energyAt t.operator (outcome ρ' t.circuit x) := by
  rw [outcome_eq, outcome_eq, h1]
  exact bound_output h3 ha hc fun n ψ => energyAt t.operator (outcomeIn n ψ x)

theorem streamValue_bound {ρ ρ' : String → ℂ} {t t' : Task} (h1 : t'.operator = t.operator) (hnm : notMeasured t' = notMeasured t) (hmean : exactMean ρ t' = exactMean ρ' t)
    (hsh : shotsOf t' = shotsOf t) (ho : ∀ x, energyAt t'.operator (outcome ρ t'.circuit x) = energyAt t.operator (outcome ρ' t.circuit x)) (u : ℕ → ℝ) :
    streamValue ρ t' u = streamValue ρ' t u := by
  unfold streamValue
  simp only [ho]
  rw [hnm, hmean, hsh]

/-- The values of bound tasks are those of the original tasks at the values of their symbols. -/
theorem seededEstimate_bound {symbols : List String} {ps : List ℝ} {ρ ρ' : String → ℂ} (ha : Assigns symbols ps ρ ρ') {T out : List Task}
    (h : List.Forall₂ (fun t t' => t'.operator = t.operator ∧ t'.shots = t.shots ∧ Cost.BoundTo symbols ps t.circuit t'.circuit) T out) (hT : ∀ t ∈ T, Ready ρ' t) (u : ℕ → ℝ) :
    seededEstimate ρ out u = seededEstimate ρ' T u := by
  induction h with
  | nil => simp [seededEstimate]
  | @cons t t' T out htu _ ih =>
    obtain ⟨a1, a2, a3⟩ := htu
    have hr := hT t (by simp)
    have ih := ih fun t ht => hT t (by simp [ht])
    obtain ⟨b1, b2, -⟩ := bound_state a3 ρ ρ' ha hr.unitary
    have hu : Ready ρ t' := ⟨by rw [a1]; exact hr.canonical, by rw [a1]; exact hr.ising, by rw [a1]; exact hr.big, by rw [a1]; exact hr.real,
      by rw [a1, b2]; exact hr.below, b1, by rw [b2]; exact hr.qubits, by rw [a2]; exact hr.shots⟩
    have hnm : notMeasured t' = notMeasured t := by
      rw [Bool.eq_iff_iff, notMeasured_ready hu, notMeasured_ready hr, a1]
    have hmean : exactMean ρ t' = exactMean ρ' t := by
      unfold exactMean
      rw [a1]
      exact bound_output a3 ha hr.unitary fun n ψ => (braket ψ (opMatrix n t.operator)).re
    have hsh : shotsOf t' = shotsOf t := by unfold shotsOf; rw [a2]
    have hsv := streamValue_bound a1 hnm hmean hsh (bound_outcome a1 a3 ha hr.unitary) u
    unfold seededEstimate at ih ⊢
    rw [List.map_cons, List.sum_cons, List.map_cons, List.sum_cons, ih, hsv]

/-- C142.  On a simulator with a seed the measured gradient never fails, it is the same after every history, and its mean is the difference quotient of the exact energies: the entry for a
parameter is the difference quotient of the estimates at the shifted parameters that are made from one and the same sequence of random numbers. -/
theorem seeded_gradient (P : Measure Ω) [IsProbabilityMeasure P] {r : Ω → Randomness} {s : ℕ} (hr : SeededRandom P r s) (ρ : String → ℂ) {T : List Task} {symbols : List String}
    (hn : symbols.Nodup) (hbind : ∀ t ∈ T, Ansatz.Bindable t.circuit) (hsym : ∀ t ∈ T, ∀ x ∈ t.circuit.freeSymbols, x ∈ symbols)
    (preprocessors : List (History.Target (St ℕ) Err (List ℝ) (List ℝ))) (Q : List ℝ → List ℝ) (hQ : ∀ st q, Cost.runAll preprocessors st q = (.ok (Q q), st))
    (ps : List ℝ) (hlen : ∀ q : List ℝ, q.length = ps.length → symbols.length = (Q q).length)
    (hready : ∀ q : List ℝ, q.length = symbols.length → ∀ t ∈ T, Ready (assign symbols ρ q) t) (h : ℝ) (hh : h ≠ 0) :
    (∀ ω (st : St ℕ), (Cost.costGradient (averagingMethod (r ω) (some s) ρ) (Cost.expectationValueFactory (T, symbols)) preprocessors h ps st).1 =
      .ok (List.ofFn fun i : Fin ps.length => (seededEstimate (assign symbols ρ (Q (shifted ps i h))) T ((r ω).seeded s) -
        seededEstimate (assign symbols ρ (Q (shifted ps i (-h)))) T ((r ω).seeded s)) / (2 * h))) ∧
      ∀ i : Fin ps.length, P[fun ω => (seededEstimate (assign symbols ρ (Q (shifted ps i h))) T ((r ω).seeded s) -
          seededEstimate (assign symbols ρ (Q (shifted ps i (-h)))) T ((r ω).seeded s)) / (2 * h)] =
        (energySum (assign symbols ρ (Q (shifted ps i h))) T - energySum (assign symbols ρ (Q (shifted ps i (-h)))) T) / (2 * h) := by
  refine ⟨fun ω st => ?_, fun i => ?_⟩
  · unfold Cost.costGradient
    rw [EnergyGradient.finiteDifferences_value Err.zeroDivision _ (fun q => seededEstimate (assign symbols ρ (Q q)) T ((r ω).seeded s)) h hh ps ?_ st]
    · congr 1
      apply List.ext_getElem <;> simp
    · intro w q hq
      obtain ⟨out, h1, h2⟩ := (Cost.bindTasks_spec symbols hn T hbind hsym (Q q)).2 (hlen q hq)
      have hB := (bound_tasks (assign_assigns hn ρ (Q q)) h2 (hready (Q q) (hlen q hq).symm)).1
      obtain ⟨res, r1, -, r3, r4⟩ := seeded_total (r := r ω) (s := s) (fun j => (hr.1 j).range ω) hB w
      obtain ⟨es, st', e1, e3⟩ := method_of_estimate hB w r1 r3
      have hf : Cost.expectationValueFactory (T, symbols) w (Q q) = (.ok out, w) := by
        unfold Cost.expectationValueFactory Cost.effectless
        rw [h1]
      unfold Cost.asNumber
      rw [Cost.createCostFunction_spec _ _ _ w w w st' q (Q q) out es (hQ w q) hf e1]
      show Except.ok _ = _
      rw [e3, r4, ← seededEstimate_bound (assign_assigns hn ρ (Q q)) h2 (hready (Q q) (hlen q hq).symm)]
      rfl
  · have hi : ∀ d, (Q (shifted ps i d)).length = symbols.length := fun d => (hlen _ (by simp [shifted])).symm
    obtain ⟨a1, a2⟩ := seededEstimate_mean P hr (hready _ (hi h))
    obtain ⟨b1, b2⟩ := seededEstimate_mean P hr (hready _ (hi (-h)))
    rw [integral_div, integral_sub (a1.integrable (by norm_num)) (b1.integrable (by norm_num)), a2, b2]

/-- C142.  The noise cancels where it can: if the shifted parameters give each outcome of each circuit the same probability and each constant task the same value, the entry of the gradient
is exactly 0, for all random numbers. -/
theorem seeded_cancels {T : List Task} {ρ₁ ρ₂ : String → ℂ} (hT : ∀ t ∈ T, Ready ρ₁ t ∧ Ready ρ₂ t)
    (h : ∀ t ∈ T, ∀ x, Complex.normSq (outputState ρ₁ t.circuit x) = Complex.normSq (outputState ρ₂ t.circuit x)) (u : ℕ → ℝ) :
    seededEstimate ρ₁ T u = seededEstimate ρ₂ T u := by
  unfold seededEstimate
  congr 1
  refine List.map_congr_left fun t ht => ?_
  unfold streamValue
  cases hm : notMeasured t with
  | true =>
    rw [if_pos rfl, if_pos rfl]
    obtain ⟨c, hc⟩ := (notMeasured_ready (hT t ht).1).1 hm
    rw [(constant_stats (hT t ht).1 hc).1, (constant_stats (hT t ht).2 hc).1]
  | false =>
    have hb : bornList ρ₁ t.circuit = bornList ρ₂ t.circuit := List.map_congr_left fun i _ => h t ht _
    simp only [outcome, hb, Bool.false_eq_true, if_false]

/-- C142, counterexample.  The variance without a seed (C140) is not the variance with a seed: for `RX(t) RX(t)`, the operator `Z` and `m` shots, the gradient at `t = 0` with the step 1 is
always 0 with a seed, and the variance without a seed is positive. -/
theorem seeded_variance_counterexample (ρ : String → ℂ) (m : ℕ) (hm : 0 < m) :
    let T : List Task := [⟨[([(0, .Z)], 1)], EnergyGradient.twice, some (m : ℤ)⟩]
    (∀ q : List ℝ, q.length = 1 → ∀ t ∈ T, Ready (assign ["t"] ρ q) t) ∧
      (∀ u, seededEstimate (assign ["t"] ρ (shifted [0] 0 1)) T u - seededEstimate (assign ["t"] ρ (shifted [0] 0 (-1))) T u = 0) ∧
      0 < noiseSum (assign ["t"] ρ (shifted [0] 0 1)) T + noiseSum (assign ["t"] ρ (shifted [0] 0 (-1))) T := by
  intro T
  have hass : ∀ x : ℝ, assign ["t"] ρ [x] = Function.update ρ "t" (x : ℂ) := by
    intro x
    funext y
    by_cases hy : y = "t"
    · subst hy; simp [assign]
    · simp [assign, hy]
  have hsh : ∀ d : ℝ, shifted [0] 0 d = [d] := by intro d; simp [shifted]
  have hready : ∀ q : List ℝ, q.length = 1 → ∀ t ∈ T, Ready (assign ["t"] ρ q) t := by
    intro q hq t ht
    obtain ⟨x, rfl⟩ := List.length_eq_one_iff.1 hq
    rw [List.mem_singleton.1 ht, hass]
    have h1 : ∀ kv ∈ [([(0, Letter.Z)], (1 : ℂ))], kv = ([(0, Letter.Z)], 1) := fun kv hkv => List.mem_singleton.1 hkv
    refine ⟨⟨by simp [WF, keys], ?_⟩, ?_, ?_, ?_, ?_, EnergyGradient.twice_unitary _ (by simp), by simp [EnergyGradient.twice], m, hm, rfl⟩
    · intro t ht
      simp only [keys, List.map_cons, List.map_nil, List.mem_singleton] at ht
      rw [ht]
      exact ⟨by simp, by simp⟩
    · intro t ht f hf
      simp only [keys, List.map_cons, List.map_nil, List.mem_singleton] at ht
      rw [ht, List.mem_singleton] at hf
      rw [hf]
    · intro kv hkv; rw [h1 kv hkv]; norm_num
    · intro kv hkv; rw [h1 kv hkv]; simp
    · intro kv hkv f hf
      rw [h1 kv hkv, List.mem_singleton] at hf
      rw [hf]
      exact one_pos
  refine ⟨hready, fun u => ?_, ?_⟩
  · rw [sub_eq_zero]
    refine seeded_cancels (fun t ht => ⟨hready _ (by simp [shifted]) t ht, hready _ (by simp [shifted]) t ht⟩) (fun t ht x => ?_) u
    rw [List.mem_singleton] at ht
    subst ht
    rw [hsh, hsh, hass, hass]
    have e1 := EnergyGradient.twice_output ρ 1 x
    have e2 := EnergyGradient.twice_output ρ (-1) x
    refine (congrArg Complex.normSq e1).trans (Eq.trans ?_ (congrArg Complex.normSq e2).symm)
    split <;> simp
  · have hv : ∀ d : ℝ, noiseSum (assign ["t"] ρ [d]) T = (1 - Real.cos (2 * d) ^ 2) / m := by
      intro d
      have hn : ∑ x, Complex.normSq (outputState (Function.update ρ "t" (d : ℂ)) EnergyGradient.twice x) = 1 := output_normalised (EnergyGradient.twice_unitary _ (by simp))
      have hq := qvar_term hn ([(0, Letter.Z)], 1) (by simp)
      have he := EnergyGradient.twice_energy ρ d
      have h1 : opMatrix 1 [([(0, Letter.Z)], (1 : ℂ))] = pauliString 1 [(0, Letter.Z)] := by simp [opMatrix]
      rw [h1] at he
      have hx : exactVar (assign ["t"] ρ [d]) ⟨[([(0, .Z)], 1)], EnergyGradient.twice, some (m : ℤ)⟩ = 1 - Real.cos (2 * d) ^ 2 := by
        rw [hass, exactVar, ← he]
        refine hq.trans ?_
        simp only [Complex.one_re, one_pow, one_mul]
        rfl
      show ([⟨[([(0, .Z)], 1)], EnergyGradient.twice, some (m : ℤ)⟩].map fun t : Task => exactVar (assign ["t"] ρ [d]) t / shotsOf t).sum = _
      rw [List.map_singleton, List.sum_singleton, hx]
      simp [shotsOf]
    rw [hsh, hsh, hv, hv, show 2 * (-1 : ℝ) = -(2 * 1) by ring, Real.cos_neg, mul_one]
    have hlt : Real.cos 2 ^ 2 < 1 := by
      have := Real.sin_sq_add_cos_sq 2
      have hs : 0 < Real.sin 2 := Real.sin_pos_of_pos_of_lt_pi (by norm_num) (by linarith [Real.pi_gt_three])
      nlinarith
    have : 0 < (1 - Real.cos 2 ^ 2) / m := div_pos (by linarith) (by exact_mod_cast hm)
    linarith

/-- A case of `seeded_gradient`: the circuit, operator and shots of the counterexample, and such random numbers exist. -/
example : (∀ t ∈ [(⟨[([(0, .Z)], 1)], EnergyGradient.twice, some 5⟩ : Task)], Ansatz.Bindable t.circuit) ∧
    (∀ t ∈ [(⟨[([(0, .Z)], 1)], EnergyGradient.twice, some 5⟩ : Task)], ∀ x ∈ t.circuit.freeSymbols, x ∈ ["t"]) ∧
    ∃ (Ω : Type) (_ : MeasurableSpace Ω) (P : Measure Ω) (_ : IsProbabilityMeasure P) (r : Ω → Randomness), SeededRandom P r 17 := by
  refine ⟨by simpa using EnergyGradient.twice_bindable, fun t ht x hx => ?_, ?_⟩
  · rw [List.mem_singleton.1 ht] at hx
    have hf : EnergyGradient.twice.freeSymbols = ["t"] := by decide +kernel
    exact hf ▸ hx
  · obtain ⟨Ω, m, P, hP, r, -, hr⟩ := randomness_exists
    exact ⟨Ω, m, P, hP, r, hr 17⟩

end ZQ.Stat
