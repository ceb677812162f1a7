import Verif.Model.Sampler
import Verif.Model.CostGradient

/-!
# Estimation by averaging as the estimation method of a cost function
-/

namespace ZQ.Backend

open ZQ ZQ.Est

/-- `ExpectationValues` as the cost function gets them; for Python's `None`, reading `values` raises (an `AttributeError`, modelled as `TypeError`). -/
noncomputable def toValues : Option Meas.ExpectationValues → Except Err Cost.Values
  | none => .error .typeError
  | some v => .ok ⟨v.values.map fun x : ℝ => (x : ℂ), false, v.correlations, v.covariances⟩

/-- estimation/_estimation.py:298-361 `estimate_expectation_values_by_averaging` with a `SymbolicSimulator` as the backend (`partial(..., backend)` is the
`estimation_method` of `create_cost_function`).  The state of the simulator changes in `run_circuitset_and_measure` (323-325), which is not reached if there is nothing to measure
or if `evaluate_non_measured_estimation_tasks` (313-315) raises. -/
noncomputable def averagingMethod (r : Randomness) (seed : Option ℕ) (ρ : String → ℂ) : History.Target (St ℕ) Err (List Task) (List Cost.Values) := fun st tasks =>
  match evaluateNonMeasured (split tasks).2.1 with
  | .error e => (.error e, st)
  | .ok _ =>
    ((estimateByAveraging (simRunner r seed ρ st) tasks).bind (List.mapM toValues),
      if (split tasks).1.isEmpty then st else (simLoop r seed ρ ((split tasks).1.map fun t => (t.circuit, t.shots)) st).2)

end ZQ.Backend
