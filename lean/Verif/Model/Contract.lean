import Verif.Model.Sampler
import Verif.Model.Expectation

/-!
# Contracts for estimators: interfaces/estimator_contract.py

A contract calls an estimator with the backend of the module and looks at the values. The backend keeps its state from one call to the next.
-/

namespace ZQ.Contract

open ZQ ZQ.Op ZQ.Circuits ZQ.Gates ZQ.Backend ZQ.Est

variable {W : Type}

/-- interfaces/estimation.py:48-58 `EstimateExpectationValues`: called with a backend in some state and tasks; `none` in the list is Python's `None`. -/
abbrev Estimator (W : Type) := W → List Task → Except Err (List (Option Meas.ExpectationValues)) × W

/-- `expectation_values[i].values`: the list may be too short, the element may be `None` (an `AttributeError` in Python, `TypeError` here). -/
def valuesAt (l : List (Option Meas.ExpectationValues)) (i : ℕ) : Except Err (List ℝ) :=
  match l[i]? with
  | none => .error .indexError
  | some none => .error .typeError
  | some (some v) => .ok v.values

/-- estimator_contract.py:52-62 `_validate_each_task_returns_one_expecation_value`, for any list of tasks. -/
def countCheck (est : Estimator W) (tasks : List Task) (w : W) : Except Err Bool × W :=
  match est w tasks with
  | (.error e, w) => (.error e, w)
  | (.ok l, w) => (.ok (decide (l.length = tasks.length)), w)

/-- estimator_contract.py:73-83: the list in `all([...])`; `all` gets the complete list, so no call is skipped. `np.array_equal` of two lists of numbers is equality. -/
noncomputable def orderLoop (est : Estimator W) (joint : List (Option Meas.ExpectationValues)) : ℕ → List Task → W → Except Err (List Bool) × W
  | _, [], w => (.ok [], w)
  | i, t :: ts, w =>
    match valuesAt joint i with
    | .error e => (.error e, w)
    | .ok v =>
      match est w [t] with
      | (.error e, w) => (.error e, w)
      | (.ok l, w) =>
        match valuesAt l 0 with
        | .error e => (.error e, w)
        | .ok v' =>
          match orderLoop est joint (i + 1) ts w with
          | (.error e, w) => (.error e, w)
          | (.ok bs, w) => (.ok (decide (v = v') :: bs), w)

/-- estimator_contract.py:65-84 `_validate_order_of_outputs_matches_order_of_inputs`, for any list of tasks. -/
noncomputable def orderCheck (est : Estimator W) (tasks : List Task) (w : W) : Except Err Bool × W :=
  match est w tasks with
  | (.error e, w) => (.error e, w)
  | (.ok l, w) =>
    match orderLoop est l 0 tasks w with
    | (.error e, w) => (.error e, w)
    | (.ok bs, w) => (.ok (bs.all id), w)

/-- estimator_contract.py:96-104, 118-126: the values of the first two tasks differ. -/
noncomputable def differCheck (est : Estimator W) (tasks : List Task) (w : W) : Except Err Bool × W :=
  match est w tasks with
  | (.error e, w) => (.error e, w)
  | (.ok l, w) =>
    match valuesAt l 0, valuesAt l 1 with
    | .ok v, .ok v' => (.ok (decide (v ≠ v')), w)
    | .error e, _ => (.error e, w)
    | _, .error e => (.error e, w)

/-- circuits/_builtin_gates.py: `H`, `RX(a)`, `RY(a)`, `RZ(a)` applied to one qubit. -/
noncomputable def hOp (q : ℕ) : GateOp := ⟨.factory ⟨"H", .builtin fun _ => hMatrix, 1, true⟩ [], [q]⟩

/-- A rotation with a number as angle, applied to one qubit. -/
noncomputable def rotOp (name : String) (m : ℂ → Mat ℂ) (a : ℝ) (q : ℕ) : GateOp := ⟨.factory ⟨name, param1 m, 1, false⟩ [.num (a : ℂ)], [q]⟩

/-- estimator_contract.py:30-49 `_estimation_tasks`. -/
noncomputable def sharedTasks : List Task :=
  [⟨ofTerm ising [(0, .Z)] 1, ⟨[hOp 0], 1⟩, some 10000⟩,
    ⟨add (add (ofTerm ising [(0, .Z)] 1) (ofTerm ising [(1, .Z)] 1)) (ofTerm ising [(2, .Z)] 1), ⟨[hOp 0, rotOp "RX" rxMatrix (Real.pi / 3) 0, hOp 2], 3⟩, some 10000⟩,
    ⟨add (ofTerm ising [(0, .Z)] 1) (ofTerm ising [(1, .Z)] 4),
      ⟨[rotOp "RX" rxMatrix Real.pi 0, rotOp "RY" ryMatrix (12 / 100) 1, rotOp "RZ" rzMatrix (Real.pi / 3) 1, rotOp "RY" ryMatrix (19213 / 10000) 0], 2⟩, some 10000⟩]

/-- estimator_contract.py:90-95. -/
noncomputable def coefficientTasks : List Task :=
  [⟨ofTerm ising [(0, .Z)] 1, ⟨[rotOp "RX" rxMatrix (Real.pi / 3) 0], 1⟩, some 10000⟩,
    ⟨ofTerm ising [(0, .Z)] (19971997 / 1000000), ⟨[rotOp "RX" rxMatrix (Real.pi / 3) 0], 1⟩, some 10000⟩]

/-- estimator_contract.py:110-117. `IsingOperator("[]", c)` is the constant `c`. -/
noncomputable def constantTasks : List Task :=
  [⟨ofTerm ising [(0, .Z)] 1, ⟨[hOp 0], 1⟩, some 10000⟩,
    ⟨add (ofTerm ising [(0, .Z)] 1) (ofTerm ising [] (19971997 / 1000000)), ⟨[hOp 0], 1⟩, some 10000⟩]

/-- estimator_contract.py:129-134 `ESTIMATOR_CONTRACTS`, run one after the other; Python code that asserts each of them. -/
noncomputable def allContracts (est : Estimator W) : List (W → Except Err Bool × W) :=
  [countCheck est sharedTasks, orderCheck est sharedTasks, differCheck est coefficientTasks, differCheck est constantTasks]

/-- estimation/_estimation.py:298-361 `estimate_expectation_values_by_averaging` with a `SymbolicSimulator` made with `seed`; the state is that of the simulator. -/
noncomputable def averaging (r : Randomness) (seed : Option ℕ) (ρ : String → ℂ) : Estimator (St ℕ) := fun st tasks =>
  (estimateByAveraging (simRunner r seed ρ st) tasks,
    if (split tasks).1.isEmpty then st else (simLoop r seed ρ ((split tasks).1.map fun t => (t.circuit, t.shots)) st).2)

/-- estimation/_estimation.py:364-380 `calculate_exact_expectation_values` with the same simulator, for Ising operators. -/
noncomputable def exactEstimator (ρ : String → ℂ) : Estimator (St ℕ) := fun st tasks =>
  match tasks with
  | [] => (.ok [], st)
  | t :: ts =>
    match Expect.getExactExpectationValues (symbolic ρ) ρ t.circuit true t.operator st with
    | (.error e, st) => (.error e, st)
    | (.ok v, st) =>
      match exactEstimator ρ st ts with
      | (.error e, st) => (.error e, st)
      | (.ok vs, st) => (.ok (some v :: vs), st)

end ZQ.Contract
