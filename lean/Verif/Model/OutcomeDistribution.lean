import Verif.Model.Sampler
import Verif.Model.Expectation

/-!
# Distributions of outcomes on the simulator: interfaces/backend.py:104-118, 240-259
-/

namespace ZQ.Backend

open ZQ ZQ.Circuits

/-- backend.py:240-259 `QuantumSimulator.get_measurement_outcome_distribution` of a `SymbolicSimulator` made with `seed`: exact without a number of samples, and the relative frequencies of the
measurements of one run otherwise. The states of the circuits have no free symbols. -/
noncomputable def outcomeDistribution (r : Randomness) (seed : Option ℕ) (ρ : String → ℂ) (c : Circuit) (samples : Option ℤ) (st : St ℕ) : Except Err Dist.DDict × St ℕ :=
  match samples with
  | none => Expect.exactDistribution (symbolic ρ) ρ c st
  | some n =>
    match simRun r seed ρ c (some n) st with
    | (.error e, st) => (.error e, st)
    | (.ok m, st) => (Meas.getDistribution m, st)

end ZQ.Backend
