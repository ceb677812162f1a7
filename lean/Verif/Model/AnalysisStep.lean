import Verif.Model.Workflow
import Verif.Model.Estimation

/-!
# The step that counts the measurements a grouped operator needs

Model of `grouped_hamiltonian_analysis` (`steps/measure.py`) and of the lookup of decomposition functions (`hamiltonian.py`).
-/

namespace ZQ.Analysis

open ZQ ZQ.Op ZQ.Files ZQ.ArraySerde ZQ.Workflow ZQ.Est

/-- steps/measure.py:285-288: the expectation values are loaded if a file is given; hamiltonian.py:172 takes their real parts. -/
noncomputable def thePrior (fs : FS) : Option Results.Str → Except FErr (Option (List ℝ))
  | none => .ok none
  | some p => do
    let e ← loadExpectation fs (.str p)
    .ok (some (e.values.data.map Complex.re))

/-- steps/measure.py:254-297 `grouped_hamiltonian_analysis`. -/
noncomputable def analysisStep (groups : Results.Str) (values : Option Results.Str) (fs : FS) : Except FErr FS := do
  let gs ← loadQubitOps fs (.str groups)
  let prior ← thePrior fs values
  let r ← lift (estimateNmeas gs prior)
  save fs "hamiltonian_analysis.json" (.nmeas r.1 r.2.1 (some (realArray r.2.2)))

/-- hamiltonian.py:101-131 `get_decomposition_function` with its table of methods. -/
noncomputable def decompositionFunction (name : String) : Except Err (Terms Letter → List (Terms Letter)) :=
  if name = "greedy" then .ok fun o => groupGreedy o false
  else if name = "greedy-sorted" then .ok fun o => groupGreedy o true
  else .error .valueError

end ZQ.Analysis
