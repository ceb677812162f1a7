import Verif.Props.Pipeline
import Mathlib.Probability.ProbabilityMassFunction.Constructions
import Mathlib.MeasureTheory.Constructions.Pi

/-!
# C103: the reported precision, and runs that meet the hypotheses
-/

namespace ZQ.Stat

open ZQ ZQ.PyDict ZQ.Op ZQ.Circuits ZQ.Gates ZQ.Est ZQ.Expect ZQ.Backend MeasureTheory ProbabilityTheory Matrix

/-! ### The reported precision -/

theorem energy_isingTable {n : ℕ} (o : Terms Letter) (x : Fin n → Bool) : Cost.energy (isingTable o) (bits x) = energyAt o x := by
  rw [Cost.energy, isingTable, energyAt, List.map_map]
  rfl

theorem mean_ofFn {m : ℕ} (f : List ℕ → ℝ) (d : Fin m → List ℕ) : Meas.mean f (List.ofFn d) = ∑ j, f (d j) / m := by
  rw [Meas.mean, List.map_ofFn, List.sum_ofFn, List.length_ofFn, Finset.sum_div]
  rfl

theorem precision_aux {Ω : Type} [MeasurableSpace Ω] (P : Measure Ω) [IsProbabilityMeasure P] {ρ : String → ℂ} {t : Task} (h : Ready ρ t) (m : ℕ) (hs : 0 < m) (bessel : Bool)
    (hB : bessel = true → 2 ≤ m) {draw : Fin (m) → Ω → (Fin t.circuit.n → Bool)} (hm : ∀ j, Measurable (draw j)) (hind : iIndepFun draw P)
    (law : ∀ j x, P.real {ω | draw j ω = x} = Complex.normSq (outputState ρ t.circuit x)) :
    ∃ Y : Ω → ℝ, (∀ ω, ∃ r, Meas.getExpectationValues (List.ofFn fun j => bits (draw j ω)) (isingTable t.operator) bessel = .ok r ∧
        (Cost.sumExpectationValues r).precision = some (some (Y ω)) ∧ 0 ≤ Y ω) ∧
      ∫ ω, Y ω ^ 2 ∂P = exactVar ρ t / m * if bessel then 1 else ((m : ℝ) - 1) / m := by
  have hs' : (m : ℝ) ≠ 0 := by exact_mod_cast hs.ne'
  set D : ℝ := if bessel then (m : ℝ) - 1 else m with hD
  have hDpos : 0 < D := by
    rw [hD]
    cases bessel with
    | false => simpa using hs
    | true =>
      have : (2 : ℝ) ≤ m := by exact_mod_cast hB rfl
      simp only [if_true]
      linarith
  have hbits : ∀ ω, Meas.Bitstrings t.circuit.n (List.ofFn fun j => bits (draw j ω)) := by
    intro ω s hs
    obtain ⟨j, rfl⟩ := List.mem_ofFn.1 hs
    refine ⟨by simp [bits], ?_⟩
    intro b hb
    obtain ⟨q, rfl⟩ := List.mem_ofFn.1 hb
    cases draw j ω q <;> simp
  have hne : ∀ ω, (List.ofFn fun j => bits (draw j ω)) ≠ [] := by
    intro ω e
    have := congrArg List.length e
    simp at this
    omega
  have hop : ∀ tc ∈ isingTable t.operator, tc.1.Nodup ∧ ∀ q ∈ tc.1, q < t.circuit.n := by
    intro tc htc
    obtain ⟨kv, hkv, rfl⟩ := List.mem_map.1 htc
    refine ⟨(h.canonicals kv hkv).nodup, ?_⟩
    intro q hq
    obtain ⟨g, hg, rfl⟩ := List.mem_map.1 hq
    exact h.below kv hkv g hg
  have hlen : ∀ ω, (List.ofFn fun j => bits (draw j ω)).length = m := fun ω => by simp
  have hsq : ∀ ω, Meas.mean (fun s => Cost.energy (isingTable t.operator) s ^ 2) (List.ofFn fun j => bits (draw j ω)) = ∑ j, energyAt t.operator (draw j ω) ^ 2 / m := by
    intro ω
    rw [mean_ofFn]
    exact Finset.sum_congr rfl fun j _ => by rw [energy_isingTable]
  have hav : ∀ ω, Meas.mean (Cost.energy (isingTable t.operator)) (List.ofFn fun j => bits (draw j ω)) = ∑ j, energyAt t.operator (draw j ω) / m := by
    intro ω
    rw [mean_ofFn]
    exact Finset.sum_congr rfl fun j _ => by rw [energy_isingTable]
  have hnn : ∀ ω, 0 ≤ (∑ j, energyAt t.operator (draw j ω) ^ 2 / m - (∑ j, energyAt t.operator (draw j ω) / m) ^ 2) / D := by
    intro ω
    have := Meas.mean_sq_le (Cost.energy (isingTable t.operator)) (List.ofFn fun j => bits (draw j ω))
    rw [hsq, hav] at this
    exact div_nonneg (by linarith) hDpos.le
  refine ⟨fun ω => Real.sqrt ((∑ j, energyAt t.operator (draw j ω) ^ 2 / m - (∑ j, energyAt t.operator (draw j ω) / m) ^ 2) / D), fun ω => ?_, ?_⟩
  · have he := Meas.expectationValues_spec t.circuit.n h.qubits _ (hne ω) (hbits ω) (isingTable t.operator) hop bessel (by rw [hlen]; exact hB)
    refine ⟨_, he, ?_, Real.sqrt_nonneg _⟩
    have := (Cost.measured_sum t.circuit.n h.qubits _ (hne ω) (hbits ω) (isingTable t.operator) hop bessel (by rw [hlen]; exact hB) _ he).2
    rw [this, hsq, hav, hlen]
  · have e1 : (fun ω => Real.sqrt ((∑ j, energyAt t.operator (draw j ω) ^ 2 / m - (∑ j, energyAt t.operator (draw j ω) / m) ^ 2) / D) ^ 2) =
        fun ω => (∑ j, energyAt t.operator (draw j ω) ^ 2 / m - (∑ j, energyAt t.operator (draw j ω) / m) ^ 2) / D := by
      funext ω
      exact Real.sq_sqrt (hnn ω)
    have a := sum_draws (P := P) (S := draw) hm hind (p := fun _ x => Complex.normSq (outputState ρ t.circuit x)) (fun j x => law j x) (fun _ x => energyAt t.operator x ^ 2 / m) 0
    have b := sum_draws (P := P) (S := draw) hm hind (p := fun _ x => Complex.normSq (outputState ρ t.circuit x)) (fun j x => law j x) (fun _ x => energyAt t.operator x / m) 0
    simp only [zero_add] at a b
    obtain ⟨a1, a2, -⟩ := a
    obtain ⟨b1, b2, b3⟩ := b
    rw [variance_eq_sub b1] at b3
    obtain ⟨c1, c2⟩ := braket_ising (outputState ρ t.circuit) h.canonicals h.zs h.real h.below
    have d1 : ∑ _j : Fin m, ∑ x, Complex.normSq (outputState ρ t.circuit x) * (energyAt t.operator x ^ 2 / m) = ∑ x, Complex.normSq (outputState ρ t.circuit x) * energyAt t.operator x ^ 2 := by
      rw [Finset.sum_const, Finset.card_univ, Fintype.card_fin, nsmul_eq_mul, Finset.mul_sum]
      exact Finset.sum_congr rfl fun x _ => by field_simp
    have d2 : ∑ x, Complex.normSq (outputState ρ t.circuit x) * (energyAt t.operator x / m) = (∑ x, Complex.normSq (outputState ρ t.circuit x) * energyAt t.operator x) / m := by
      rw [Finset.sum_div]
      exact Finset.sum_congr rfl fun x _ => by field_simp
    have d3 : ∑ x, Complex.normSq (outputState ρ t.circuit x) * (energyAt t.operator x / m) ^ 2 = (∑ x, Complex.normSq (outputState ρ t.circuit x) * energyAt t.operator x ^ 2) / m ^ 2 := by
      rw [Finset.sum_div]
      exact Finset.sum_congr rfl fun x _ => by field_simp
    rw [d1] at a2
    rw [d2] at b2
    rw [d2, d3, Finset.sum_const, Finset.card_univ, Fintype.card_fin, nsmul_eq_mul] at b3
    rw [Finset.sum_const, Finset.card_univ, Fintype.card_fin, nsmul_eq_mul] at b2
    have i2 : Integrable (fun ω => (∑ j, energyAt t.operator (draw j ω) / m) ^ 2) P := b1.integrable_sq
    have e2 : ∫ ω, (∑ j, energyAt t.operator (draw j ω) / m) ^ 2 ∂P = (P[(fun ω => ∑ j, energyAt t.operator (draw j ω) / m) ^ 2] : ℝ) := rfl
    rw [e1, integral_div, integral_sub (a1.integrable (by norm_num)) i2, a2, e2]
    rw [b2] at b3
    have e3 : (P[(fun ω => ∑ j, energyAt t.operator (draw j ω) / m) ^ 2] : ℝ) = m * ((∑ x, Complex.normSq (outputState ρ t.circuit x) * energyAt t.operator x ^ 2) / m ^ 2 -
        ((∑ x, Complex.normSq (outputState ρ t.circuit x) * energyAt t.operator x) / m) ^ 2) + (m * ((∑ x, Complex.normSq (outputState ρ t.circuit x) * energyAt t.operator x) / m)) ^ 2 := by
      linarith
    rw [e3, exactVar, c2, hD]
    cases bessel with
    | false =>
      simp only [Bool.false_eq_true, if_false]
      field_simp
      ring
    | true =>
      have : (2 : ℝ) ≤ m := by exact_mod_cast hB rfl
      have h1 : (m : ℝ) - 1 ≠ 0 := by linarith
      simp only [if_true]
      field_simp
      ring

/-- C103. The reported precision: the mean of its square is the variance of the operator divided by the number `m` of shots (which is the variance of the estimate) if Bessel's correction
is used, and `(m - 1)/m` times that otherwise, as in estimation by averaging. -/
theorem precision_mean {Ω : Type} [MeasurableSpace Ω] (P : Measure Ω) [IsProbabilityMeasure P] {ρ : String → ℂ} {t : Task} (h : Ready ρ t) (bessel : Bool)
    (hB : bessel = true → 2 ≤ shotsOf t) {draw : Fin (shotsOf t) → Ω → (Fin t.circuit.n → Bool)} (hm : ∀ j, Measurable (draw j)) (hind : iIndepFun draw P)
    (law : ∀ j x, P.real {ω | draw j ω = x} = Complex.normSq (outputState ρ t.circuit x)) :
    ∃ Y : Ω → ℝ, (∀ ω, ∃ r, Meas.getExpectationValues (List.ofFn fun j => bits (draw j ω)) (isingTable t.operator) bessel = .ok r ∧
        (Cost.sumExpectationValues r).precision = some (some (Y ω)) ∧ 0 ≤ Y ω) ∧
      ∫ ω, Y ω ^ 2 ∂P = exactVar ρ t / shotsOf t * if bessel then 1 else ((shotsOf t : ℝ) - 1) / shotsOf t :=
  precision_aux P h _ h.shotsOf_pos.1 bessel hB hm hind law

/-! ### The value of a cost function -/

/-- The sum of the estimates is the value which `sum_expectation_values` gives for the concatenated expectation values. -/
theorem summarize_total (out : List Meas.ExpectationValues) :
    (Cost.summarize (out.map fun v => ⟨v.values.map fun x : ℝ => (x : ℂ), false, v.correlations, v.covariances⟩)).value = total (out.map some) := by
  rw [(Cost.summarize_spec _).1, total, List.map_map, List.map_map]
  congr 1
  refine List.map_congr_left fun v _ => ?_
  simp [List.map_map, Function.comp_def]

/-! ### Such runs exist -/

/-- Independent draws with given laws exist. -/
theorem draws_exist {κ : Type} [Fintype κ] (n : κ → ℕ) (p : (k : κ) → (Fin (n k) → Bool) → ℝ) (h0 : ∀ k x, 0 ≤ p k x) (h1 : ∀ k, ∑ x, p k x = 1) :
    ∃ (Ω : Type) (_ : MeasurableSpace Ω) (P : Measure Ω) (_ : IsProbabilityMeasure P) (S : (k : κ) → Ω → (Fin (n k) → Bool)),
      (∀ k, Measurable (S k)) ∧ iIndepFun S P ∧ ∀ k x, P.real {ω | S k ω = x} = p k x := by
  classical
  have hsum : ∀ k, ∑ x, ENNReal.ofReal (p k x) = 1 := by
    intro k
    rw [← ENNReal.ofReal_sum_of_nonneg fun x _ => h0 k x, h1, ENNReal.ofReal_one]
  let born : (k : κ) → PMF (Fin (n k) → Bool) := fun k => PMF.ofFintype _ (hsum k)
  refine ⟨(k : κ) → Fin (n k) → Bool, inferInstance, Measure.pi fun k => (born k).toMeasure, inferInstance, fun k ω => ω k, fun k => measurable_pi_apply k,
    iIndepFun_pi (X := fun (k : κ) (x : Fin (n k) → Bool) => x) fun k => aemeasurable_id, fun k x => ?_⟩
  have e : (Measure.pi fun k => (born k).toMeasure) {ω | ω k = x} = (born k).toMeasure {x} :=
    (measurePreserving_eval (fun k => (born k).toMeasure) k).measure_preimage (measurableSet_singleton x).nullMeasurableSet
  rw [measureReal_def, e, PMF.toMeasure_apply_singleton _ _ (measurableSet_singleton x)]
  exact ENNReal.toReal_ofReal (h0 k x)

/-- Non-vacuity: for all tasks with unitary circuits there are a probability space, independent measurements and a backend returning them. -/
theorem runs_exist (ρ : String → ℂ) (tasks : List Task) (h : ∀ t ∈ tasks, Unitary ρ t.circuit) :
    ∃ (Ω : Type) (_ : MeasurableSpace Ω) (P : Measure Ω) (_ : IsProbabilityMeasure P) (run : Ω → Runner)
      (draw : (k : Fin tasks.length) → Fin (shotsOf tasks[k]) → Ω → (Fin tasks[k].circuit.n → Bool)),
      Returns run tasks draw ∧ Measures P ρ tasks draw := by
  obtain ⟨Ω, i, P, hP, S, h1, h2, h3⟩ := draws_exist (κ := (k : Fin tasks.length) × Fin (shotsOf tasks[k])) (fun kj => tasks[kj.1].circuit.n)
    (fun kj x => Complex.normSq (outputState ρ tasks[kj.1].circuit x)) (fun _ _ => Complex.normSq_nonneg _) (fun kj => output_normalised (h _ (List.getElem_mem _)))
  exact ⟨Ω, i, P, hP, fun ω _ => .ok (List.ofFn fun k => List.ofFn fun j => bits (S ⟨k, j⟩ ω)), fun k j => S ⟨k, j⟩, fun ω => rfl, fun k j => h1 ⟨k, j⟩, h2, fun k j x => h3 ⟨k, j⟩ x⟩

/-- Non-vacuity: `2 Z₀ X₁ - ½ Z₀ + 3 Y₁ + 5` and the two-qubit circuit `RY(π/2)` on qubit 0. -/
example : ∃ (ρ : String → ℂ) (c : Circuit) (H : Terms Letter), Unitary ρ c ∧ 0 < c.n ∧ CanonicalOp H ∧ (∀ kv ∈ H, 1 / 10 ^ 8 ≤ ‖kv.2‖) ∧ (∀ kv ∈ H, kv.2.im = 0) ∧
    Below c.n H ∧ H.length = 4 := by
  refine ⟨fun _ => 0, ⟨contextGate (0, .X), 2⟩, [([(0, .Z), (1, .X)], 2), ([(0, .Z)], -1 / 2), ([(1, .Y)], 3), ([], 5)], ⟨by intro h; simp at h, ?_, ?_⟩, by norm_num, ⟨?_, ?_⟩,
    ?_, ?_, ?_, rfl⟩
  · exact fun op hop => (contextGate_ok (n := 2) (f := (0, .X)) (fun _ => 0) (by norm_num) op hop).1
  · exact fun op hop => (contextGate_ok (n := 2) (f := (0, .X)) (fun _ => 0) (by norm_num) op hop).2
  · simp [WF, keys]
  · intro t ht
    simp only [keys, List.map_cons, List.map_nil, List.mem_cons, List.not_mem_nil, or_false] at ht
    rcases ht with rfl | rfl | rfl | rfl <;> exact ⟨by simp, by simp⟩
  · intro kv hkv
    simp only [List.mem_cons, List.not_mem_nil, or_false] at hkv
    rcases hkv with rfl | rfl | rfl | rfl <;> norm_num
  · intro kv hkv
    simp only [List.mem_cons, List.not_mem_nil, or_false] at hkv
    rcases hkv with rfl | rfl | rfl | rfl <;> norm_num
  · intro kv hkv
    simp only [List.mem_cons, List.not_mem_nil, or_false] at hkv
    rcases hkv with rfl | rfl | rfl | rfl <;> simp

end ZQ.Stat
