import Verif.Model.CreateObject

/-!
# Workflow steps and their specifications: steps/measure.py, steps/optimize.py, steps/evaluation.py, steps/circuit.py

The steps take dictionaries by reference and assign to them.  Every function below that models such a step returns the dictionary as the caller
finds it afterwards, with the result.  Specifications given as JSON text are parsed into a dictionary nobody else sees; then the first component is
lost.
-/

namespace ZQ.Steps

open ZQ.CreateObject

/-- What the steps need to know about values.
* `truthy`: `bool(v)`;
* `contains s v`: `s in v` for the string `v`; `equals s v`: `v == s`;
* `ofList`: a list of created objects as a value; `ofObj`: a created object as a value. -/
structure Py (V : Type) where
  truthy : V → Bool
  contains : String → V → Bool
  equals : String → V → Bool
  ofObj : Obj V → V
  ofList : List (Obj V) → V

variable {V : Type}

/-- A backend as the steps use it: the created object, or `MeasurementTrackingBackend(backend, file, record_bitstrings=record)`. -/
inductive Backend (V : Type)
  | plain (o : Obj V)
  | tracking (o : Obj V) (file : V) (record : Option V)

/-- steps/measure.py:68-74, 103-109, 133-139, 187-193, steps/optimize.py:88-94, 211-217, steps/evaluation.py:78-85: create the backend; if
`track_measurements` is set, wrap it. -/
def makeBackend (W : World V) (py : Py V) (specs : PyDict String V) : Except Err (Backend V) := do
  let backend ← createObject W specs []
  match PyDict.get? specs "track_measurements" with
  | some t =>
    if py.truthy t then
      match PyDict.get? specs "raw_data_file_name" with
      | some file => .ok (.tracking backend file (PyDict.get? specs "record_bitstrings"))
      | none => .error .keyError
    else .ok (.plain backend)
  | none => .ok (.plain backend)

/-- `if value is not None: d[key] = value`. -/
def setOpt (d : PyDict String V) (key : String) (value : Option V) : PyDict String V :=
  match value with
  | some v => PyDict.set d key v
  | none => d

/-- steps/measure.py:59-74 (`run_circuit_and_measure`), 93-109 (`run_circuitset_and_measure`), 125-139 (`get_bitstring_distribution`), 178-193
(`evaluate_ansatz_based_cost_function`): the specifications of the backend, with the loaded noise model and connectivity, if any, assigned to
them; the backend. -/
def measureBackend (W : World V) (py : Py V) (specs : PyDict String V) (noise connectivity : Option V) :
    PyDict String V × Except Err (Backend V) :=
  let specs := setOpt (setOpt specs "noise_model" noise) "device_connectivity" connectivity
  (specs, makeBackend W py specs)

/-- A sequence of such steps called with the same dictionary: the backend of every call. -/
def measureRuns (W : World V) (py : Py V) (specs : PyDict String V) :
    List (Option V × Option V) → List (Except Err (Backend V))
  | [] => []
  | (noise, connectivity) :: calls =>
    (measureBackend W py specs noise connectivity).2 :: measureRuns W py (measureBackend W py specs noise connectivity).1 calls

/-- steps/optimize.py:202-207 `optimize_ansatz_based_cost_function`: the ansatz.  `thetas` is the loaded keyword argument `thetas`, if any. -/
def optimizeAnsatz (W : World V) (py : Py V) (specs : PyDict String V) (target : V) (thetas : Option V) :
    PyDict String V × Except Err (Obj V) :=
  match PyDict.get? specs "function_name" with
  | none => (specs, .error .keyError)
  | some name =>
    if py.contains "WarmStartQAOAAnsatz" name then
      match thetas with
      | none => (specs, .error .keyError)
      | some t =>
        let specs := PyDict.set (PyDict.set specs "thetas" t) "cost_hamiltonian" target
        (specs, createObject W specs [])
    else if py.contains "QAOA" name then
      let specs := PyDict.set specs "cost_hamiltonian" target
      (specs, createObject W specs [])
    else (specs, createObject W specs [])

/-- steps/measure.py:173-176 `evaluate_ansatz_based_cost_function`: the ansatz; the dictionary does not change. -/
def evaluateAnsatz (W : World V) (py : Py V) (specs : PyDict String V) (target : V) : Except Err (Obj V) :=
  match PyDict.get? specs "function_name" with
  | none => .error .keyError
  | some name =>
    if py.equals "QAOAFarhiAnsatz" name then createObject W specs [("cost_hamiltonian", target)] else createObject W specs []

/-- steps/measure.py:228-241: one estimation preprocessor.  `prior` are the prior expectation values, if any, `kwargs` the
`estimation_tasks_transformations_kwargs`. -/
def preprocessor (W : World V) (prior : Option V) (kwargs : PyDict String V) (specs : PyDict String V) :
    PyDict String V × Except Err (Obj V) :=
  let specs := setOpt specs "prior_expectation_values" prior
  (specs, createObject W specs kwargs)

/-- steps/measure.py:220-241: the list of preprocessors, in order; the first exception ends the step. -/
def preprocessors (W : World V) (py : Py V) (prior : Option V) (kwargs : PyDict String V) (l : List (PyDict String V)) : Except Err V :=
  (l.mapM fun specs => (preprocessor W prior kwargs specs).2).map py.ofList

/-- steps/measure.py:198-247 `evaluate_ansatz_based_cost_function`: the cost function, when no preprocessor raised an exception.  `method`, `target`, `ansatz`, `backend`: what has been
created before; `pre`: the created preprocessors, `none` if the argument is `None`.  `RuntimeError` is `other 0`. -/
def evaluateCost (W : World V) (specs : PyDict String V) (method target ansatz backend : V) (pre : Option V) :
    PyDict String V × Except Err (Obj V) :=
  if "estimator-specs" ∈ PyDict.keys specs ∨ "estimation-tasks-transformations-specs" ∈ PyDict.keys specs then
    (specs, .error (.other 0))
  else
    let specs := setOpt (PyDict.set specs "estimation_method" method) "estimation_preprocessors" pre
    let specs := PyDict.set (PyDict.set (PyDict.set specs "target_operator" target) "ansatz" ansatz) "backend" backend
    (specs, createObject W specs [])

/-- What one call of the step passes to `evaluateCost`. -/
structure CostCall (V : Type) where
  method : V
  target : V
  ansatz : V
  backend : V
  pre : Option V

/-- The step called several times with the same dictionary of cost function specifications. -/
def costRuns (W : World V) (specs : PyDict String V) : List (CostCall V) → List (Except Err (Obj V))
  | [] => []
  | c :: calls =>
    (evaluateCost W specs c.method c.target c.ansatz c.backend c.pre).2 ::
      costRuns W (evaluateCost W specs c.method c.target c.ansatz c.backend c.pre).1 calls

/-- Looking up an attribute of an instance by name. -/
def getAttribute {α : Type} (attributes : List (String × α)) (name : String) : Except Err α :=
  match attributes.lookup name with
  | some a => .ok a
  | none => .error .attributeError

/-- circuits/_circuit.py:34-149: the attributes of a `Circuit` (those of `object` aside). -/
def circuitAttributes : List (String × Unit) :=
  ["_operations", "_n_qubits", "operations", "n_qubits", "free_symbols", "__eq__", "__add__",
    "collect_custom_gate_definitions", "to_unitary", "bind", "__repr__"].map fun s => (s, ())

/-- interfaces/backend.py:27-286, symbolic_simulator.py:13-68 and trackers.py:15-160: the attributes of a backend, a simulator or a tracking backend
(those of `object` aside). -/
def backendAttributes : List (String × Unit) :=
  ["supports_batching", "batch_size", "number_of_circuits_run", "number_of_jobs_run", "noise_model", "device_connectivity", "_seed",
    "run_circuit_and_measure", "run_circuitset_and_measure", "get_measurement_outcome_distribution", "get_bitstring_distribution",
    "get_wavefunction", "_get_wavefunction_from_native_circuit", "is_natively_supported", "get_exact_expectation_values",
    "record_bitstrings", "inner_backend", "raw_data", "type", "raw_data_file_name", "record_raw_measurement_data", "save_raw_data"].map fun s => (s, ())

/-- steps/circuit.py:136-149 `evaluate_parametrized_circuit`, up to the binding of the parameters: the symbols are read from the attribute
`symbolic_params` of the circuit. -/
def evaluateParametrized {α : Type} (circuit : Except Err Unit) (parameters : Except Err Unit) (bindAndSave : Unit → Except Err α) : Except Err α := do
  circuit
  parameters
  let symbols ← getAttribute circuitAttributes "symbolic_params"
  bindAndSave symbols

/-- steps/evaluation.py:43-93 `get_expectation_values_for_qubit_operator`: after circuit, operator and backend have been made, the number of samples
is read from the attribute `n_samples` of the backend. -/
def expectationValuesStep {α : Type} (made : Except Err Unit) (estimateAndSave : Unit → Except Err α) : Except Err α := do
  made
  let n ← getAttribute backendAttributes "n_samples"
  estimateAndSave n

/-- steps/measure.py:15-49: the names a step can use that start with a capital letter, imported at the top of the file. -/
def measureImports : List String := ["Dict", "List", "Optional", "Union", "Measurements", "SymbolicOperator", "MeasurementTrackingBackend", "Specs"]

/-- steps/measure.py:337-352 `get_summed_expectation_values`, up to the measurements: an operator given by the name of its file is loaded and
converted to the type `IsingOperator`, a name that has to be found. -/
def summedStep {α : Type} (operatorIsName : Bool) (load : Except Err Unit) (rest : Except Err α) : Except Err α := do
  if operatorIsName then
    load
    if "IsingOperator" ∈ measureImports then rest else .error .nameError
  else rest

end ZQ.Steps
