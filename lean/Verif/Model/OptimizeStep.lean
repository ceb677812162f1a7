import Verif.Model.Workflow
import Verif.Model.Optimizer
import Verif.Model.CostFunction
import Verif.Model.Gradient

/-!
# Model: optimization steps

The workflow steps `optimize_parametrized_circuit_for_ground_state_of_operator` and `optimize_ansatz_based_cost_function` (`steps/optimize.py`), from the
objects created from the specifications (`Model/Steps.lean`) on, `combine_ansatz_params` (`steps/circuit.py`) and `save_optimization_results`,
`load_optimization_results` on files.  The optimizer is an arbitrary program that asks for values and gradients (`Model/Optimizer.lean`), given the initial
parameters.  What is in the files after an exception is not modelled.
-/

namespace ZQ.OptStep

open ZQ ZQ.Op ZQ.Files ZQ.ArraySerde ZQ.Results ZQ.History ZQ.Optimizer ZQ.Workflow

variable {W : Type}

/-- Parameters given to a step: the name of a file or an array. -/
inductive Params
  | file (p : Str)
  | array (a : NDArray)

/-- The entries of an array of real parameters. -/
def vector (a : NDArray) : List ℝ := a.data.map Complex.re

/-- steps/optimize.py:112-114, 116-118: a file is loaded. -/
noncomputable def theParams (fs : FS) : Option Params → Except FErr (Option (List ℝ))
  | none => .ok none
  | some (.file p) => do
    let a ← loadArray fs (.str p)
    .ok (some (vector a))
  | some (.array a) => .ok (some (vector a))

/-- What an optimizer ends with: the value (a float or a `ValueEstimate`), the parameters and other items of its `OptimizeResult`. -/
structure Found where
  optValue : Data
  optParams : List ℝ
  others : List (Str × Data)

/-- A `ValueEstimate` as a value; a precision that is nan is left out. -/
def estimateOf (v : Cost.Estimate) : ValueEstimate := ⟨v.value, v.precision.join⟩

/-- history/recorder.py:41-57: an entry of the history as a value; the recorder of a function that takes `store_artifact` adds the artifacts, of which the
cost functions here store none. -/
def entryData (artifacts : Bool) (e : Entry (List ℝ) Cost.Estimate) : Data :=
  if artifacts then .entryArt (.num e.callNumber) (.array (realArray e.params)) (.estimate (estimateOf e.value)) (.dict [])
  else .entry (.num e.callNumber) (.array (realArray e.params)) (.estimate (estimateOf e.value))

/-- An entry of the history of gradients as a value. -/
def gradientData (e : Entry (List ℝ) (List ℝ)) : Data :=
  .entry (.num e.callNumber) (.array (realArray e.params)) (.array (realArray e.value))

/-- interfaces/optimizer.py:88-106 `optimization_result`, called with the items of `construct_history_info`. -/
def resultItems (artifacts : Bool) (f : Found) (h : Histories (Entry (List ℝ) Cost.Estimate) (Entry (List ℝ) (List ℝ))) : List (Str × Data) :=
  [("opt_value".toList, f.optValue), ("opt_params".toList, .array (realArray f.optParams))] ++ f.others ++
    (match h.history with | none => [] | some l => [("history".toList, .list (l.map (entryData artifacts)))]) ++
    (match h.gradientHistory with | none => [] | some l => [("gradient_history".toList, .list (l.map gradientData))])

/-- serialization.py:114-117 `save_optimization_results`. -/
def saveOptResults (fs : FS) (name : String) (items : List (Str × Data)) : Except FErr FS :=
  match writeFile fs name.toList (saveResults items).1 with
  | (fs', none) => .ok fs'
  | (_, some e) => .error e

/-- serialization.py:120-122 `load_optimization_results`. -/
noncomputable def loadOptResults (fs : FS) (p : Str) : Except FErr Data := do
  let d ← readFile fs p
  lift (loadResults d)

/-- steps/optimize.py:133-138, 256-261: the result of the optimizer is saved. -/
noncomputable def finish (artifacts : Bool) (r : Except Err (Found × Histories (Entry (List ℝ) Cost.Estimate) (Entry (List ℝ) (List ℝ))) × W) (fs : FS) :
    Except FErr FS × W :=
  match r with
  | (.error e, w) => (.error (.py e), w)
  | (.ok (f, h), w) => (do
    let fs1 ← saveOptResults fs "optimization-results.json" (resultItems artifacts f h)
    save fs1 "optimized-parameters.json" (.array (realArray f.optParams)), w)

/-- An optimizer: initial parameters (or `None`) to the program its `_minimize` runs. -/
abbrev OptProgram := Option (List ℝ) → Program (List ℝ) Cost.Estimate (List ℝ) Found

/-- cost_function.py:62, 163-165: the default `gradient_function`, gradients.py:8-33 `finite_differences_gradient`; a `ValueEstimate` is a float. -/
noncomputable def finiteGradient (step : ℝ) (target : Target W Err (List ℝ) Cost.Estimate) : Target W Err (List ℝ) (List ℝ) := fun w p =>
  Gradient.finiteDifferences .zeroDivision (fun w p => ((target w p).1.map fun v => v.value, (target w p).2)) step p w

/-- steps/optimize.py:26-138 `optimize_parametrized_circuit_for_ground_state_of_operator`, from the created objects on.  `noise` are the numbers that are
added to the parameters (cost_function.py:140-143), `gradientOf` is the `gradient_function` of the cost function, `keep` the argument `keep_history`, if given. -/
noncomputable def optimizeCircuitStep (noGradient : Err) (optimizer : OptProgram) (order : List String → List String) (key : List Char → List Sorting.Item)
    (method : Target W Err (List Est.Task) (List Cost.Values)) (preprocessors : List (Target W Err (List Est.Task) (List Est.Task)))
    (gradientOf : Target W Err (List ℝ) Cost.Estimate → Target W Err (List ℝ) (List ℝ)) (noise : Option (ℕ → ℝ)) (keep : Option Bool)
    (operator : Operand) (circuit : Circuits.Circuit) (initial fixed : Option Params) (fs : FS) (w : W) : Except FErr FS × W :=
  match (do
    let o ← theQubit fs operator
    let i ← theParams fs initial
    let f ← theParams fs fixed
    .ok (o, i, f)) with
  | .error e => (.error e, w)
  | .ok (o, i, f) =>
    match Cost.prepare order key o circuit preprocessors w () with
    | (.error e, w) => (.error (.py e), w)
    | (.ok prepared, w) =>
      let cost := Cost.groundState prepared f noise method
      finish true (minimize noGradient (optimizer i) cost (some (gradientOf cost)) always always (keep.getD true) w) fs

/-- steps/optimize.py:140-261 `optimize_ansatz_based_cost_function`, from the created objects on; the cost function has no gradient and does not take
`store_artifact`. -/
noncomputable def optimizeAnsatzStep {V : Type} (noGradient : Err) (optimizer : OptProgram) (order : List String → List String) (K : Ansatz.Class V) (ansatz : Ansatz.St V)
    (method : Target W Err (List Est.Task) (List Cost.Values)) (preprocessors : List (Target W Err (List Est.Task) (List Est.Task)))
    (noise : Option (ℕ → ℝ)) (keep : Option Bool) (operator : Operand) (initial fixed : Option Params) (fs : FS) (w : W) : Except FErr FS × W :=
  match (do
    let o ← theQubit fs operator
    let i ← theParams fs initial
    let f ← theParams fs fixed
    .ok (o, i, f)) with
  | .error e => (.error e, w)
  | .ok (o, i, f) =>
    match Cost.prepareFromAnsatz K ansatz order o preprocessors w () with
    | (.error e, w) => (.error (.py e), w)
    | (.ok prepared, w) =>
      finish false (minimize noGradient (optimizer i) (Cost.ansatzBased prepared f noise method) none always always (keep.getD false) w) fs

/-- steps/circuit.py:43-47 `combine_ansatz_params`. -/
noncomputable def combineStep (p1 p2 : Str) (fs : FS) : Except FErr FS := do
  let a ← loadArray fs (.str p1)
  let b ← loadArray fs (.str p2)
  save fs "combined-params.json" (.array (realArray (Ansatz.combineParams (vector a) (vector b))))

end ZQ.OptStep
