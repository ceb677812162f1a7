import Verif.Model.Grouping
import Verif.Model.Measurement
import Verif.Model.Discretize
import Verif.Model.Generators

/-!
# Estimation tasks

Model of `estimation/_estimation.py`, of `interfaces/estimation.py` and of the frame variances in `hamiltonian.py`.
-/

namespace ZQ.Est

open ZQ ZQ.Op ZQ.Circuits ZQ.Gates

/-- interfaces/estimation.py:15-28 `EstimationTask`. -/
structure Task where
  operator : Terms Letter
  circuit : Circuit
  shots : Option ℤ

/-! ### Context selection -/

/-- estimation/_estimation.py:33-40, the loop over the factors of one term: context so far, Ising term so far. -/
noncomputable def contextTerm : Term Letter → List (ℕ × Letter) → Terms Letter → Except Err (List (ℕ × Letter) × Terms Letter)
  | [], ctx, op => .ok (ctx, op)
  | f :: t, ctx, op =>
    if ctx.any fun e => decide (e.1 = f.1) && decide (e.2 ≠ f.2) then .error .valueError
    else contextTerm t (if f ∈ ctx then ctx else ctx ++ [f]) (Op.mul ising op (ofTerm ising [(f.1, .Z)] 1))

/-- estimation/_estimation.py:31-41, the loop over the terms. -/
noncomputable def contextLoop : Terms Letter → List (ℕ × Letter) → Terms Letter → Except Err (List (ℕ × Letter) × Terms Letter)
  | [], ctx, out => .ok (ctx, out)
  | (t, c) :: rest, ctx, out =>
    match contextTerm t ctx (ofTerm ising [] 1) with
    | .error e => .error e
    | .ok (ctx', op) => contextLoop rest ctx' (Op.add out (Op.smul op c))

/-- `RX(angle)`, circuits/_builtin_gates.py:49. -/
noncomputable def rxGate (a : Expr) : Gate := .factory ⟨"RX", param1 rxMatrix, 1, false⟩ [a]

/-- estimation/_estimation.py:43-47: the gate for one entry of the context. -/
noncomputable def contextGate (f : ℕ × Letter) : List GateOp :=
  match f.2 with
  | .X => [⟨ryGate (.num (((-Real.pi / 2 : ℝ)) : ℂ)), [f.1]⟩]
  | .Y => [⟨rxGate (.num (((Real.pi / 2 : ℝ)) : ℂ)), [f.1]⟩]
  | _ => []

/-- estimation/_estimation.py:19-49 `get_context_selection_circuit_for_group`. -/
noncomputable def contextSelection (o : Terms Letter) : Except Err (Circuit × Terms Letter) := do
  let empty ← Circuit.make [] none
  let r ← contextLoop o [] []
  let c ← appendOps empty (r.1.flatMap contextGate)
  return (c, r.2)

/-- estimation/_estimation.py:52-73 `perform_context_selection`. -/
noncomputable def performContextSelection (tasks : List Task) : Except Err (List Task) :=
  tasks.mapM fun task => do
    let r ← contextSelection task.operator
    let c ← append task.circuit (.circuit r.1)
    return ⟨r.2, c, task.shots⟩

/-! ### Preprocessors -/

/-- estimation/_estimation.py:76-92 `group_individually`. -/
def groupIndividually (tasks : List Task) : List Task :=
  tasks.flatMap fun task => (getOperators qubit task.operator).map fun o => ⟨o, task.circuit, task.shots⟩

/-- estimation/_estimation.py:95-119 `group_greedily`. -/
noncomputable def groupGreedily (tasks : List Task) (sortTerms : Bool) : List Task :=
  tasks.flatMap fun task => (groupGreedy task.operator sortTerms).map fun o => ⟨o, task.circuit, task.shots⟩

/-- estimation/_estimation.py:122-141 `allocate_shots_uniformly`. -/
def allocateUniformly (tasks : List Task) (shots : ℤ) : Except Err (List Task) :=
  if shots ≤ 0 then .error .valueError else .ok (tasks.map fun task => { task with shots := some shots })

/-- hamiltonian.py:138-142 `_remove_constant_term_from_group`: the constant is removed if it is truthy. -/
noncomputable def removeConstant (g : Terms Letter) : Terms Letter :=
  open Classical in
  match PyDict.get? g [] with
  | some c => if c ≠ 0 then PyDict.del g [] else g
  | none => g

/-- hamiltonian.py:133-135 `_calculate_variance_upper_bound`, for real coefficients. -/
noncomputable def varianceUpperBound (g : Terms Letter) : ℝ := (g.map fun kv => kv.2.re ^ 2).sum

/-- hamiltonian.py:176-184, the loop over the groups with given Pauli variances; `offset` is the number of terms of the groups before. -/
noncomputable def priorVariances : List (Terms Letter) → List ℝ → List ℝ
  | [], _ => []
  | g :: gs, vars =>
    ((g.zip (vars.take g.length)).map fun kv => kv.1.2.re ^ 2 * kv.2).sum :: priorVariances gs (vars.drop g.length)

/-- hamiltonian.py:145-186 `compute_group_variances`; `prior` is the list of prior expectation values.  A coefficient with an imaginary part makes the
variance complex and the later `floor` fail: it is refused here with `TypeError`. -/
noncomputable def groupVariances (groups : List (Terms Letter)) (prior : Option (List ℝ)) : Except Err (List ℝ) :=
  open Classical in
  if ∃ g ∈ groups, ∃ kv ∈ g, kv.2.im ≠ 0 then .error .typeError
  else match prior with
  | none => .ok ((groups.map removeConstant).map varianceUpperBound)
  | some values =>
    if (groups.map List.length).sum ≠ values.length then .error .valueError
    else if ¬ ∀ v ∈ values, -1 ≤ v ∧ v ≤ 1 then .error .valueError
    else .ok (priorVariances groups (values.map fun v => 1 - v ^ 2))

/-- hamiltonian.py:263-309 `estimate_nmeas_for_frames`: `(K2, nterms, frame_meas)`. -/
noncomputable def estimateNmeas (groups : List (Terms Letter)) (prior : Option (List ℝ)) : Except Err (ℝ × ℕ × List ℝ) := do
  let vars ← groupVariances groups prior
  let sqrtLambda := (vars.map Real.sqrt).sum
  let frameMeas := vars.map fun v => sqrtLambda * Real.sqrt v
  return (frameMeas.sum, (groups.map List.length).sum, frameMeas)

/-- estimation/_estimation.py:144-183 `allocate_shots_proportionally`. -/
noncomputable def allocateProportionally (argsort : List ℝ → List ℕ) (tasks : List Task) (total : ℤ) (prior : Option (List ℝ)) :
    Except Err (List Task) :=
  if total ≤ 0 then .error .valueError
  else do
    let r ← estimateNmeas (tasks.map Task.operator) prior
    let shots ← Disc.scaleAndDiscretize argsort r.2.2 total
    return (tasks.zip shots).map fun ts => { ts.1 with shots := some ts.2 }

/-- estimation/_estimation.py:186-208 `evaluate_estimation_circuits`. -/
def evaluateCircuits (tasks : List Task) (maps : List Expr.SymMap) : Except Err (List Task) :=
  (tasks.zip maps).mapM fun tm => do
    let c ← tm.1.circuit.bind tm.2
    return { tm.1 with circuit := c }

/-! ### Estimation by averaging -/

/-- estimation/_estimation.py:240-242: constant operator or no shots. -/
def notMeasured (task : Task) : Bool :=
  (decide (task.operator.length = 1) && decide ([] ∈ PyDict.keys task.operator)) || decide (task.shots = some 0)

/-- estimation/_estimation.py:239-247, the loop with its index. -/
def splitLoop : ℕ → List Task → List Task × List Task × List ℕ × List ℕ
  | _, [] => ([], [], [], [])
  | i, task :: rest =>
    let r := splitLoop (i + 1) rest
    if notMeasured task then (r.1, task :: r.2.1, r.2.2.1, i :: r.2.2.2)
    else (task :: r.1, r.2.1, i :: r.2.2.1, r.2.2.2)

/-- estimation/_estimation.py:211-254 `split_estimation_tasks_to_measure`. -/
def split (tasks : List Task) : List Task × List Task × List ℕ × List ℕ := splitLoop 0 tasks

/-- The value stored for a task that is not measured, estimation/_estimation.py:287-293. Coefficients are real in this model. -/
noncomputable def constantValue (c : ℂ) : Meas.ExpectationValues := ⟨[c.re], some [[[0]]], some [[[0]]]⟩

/-- estimation/_estimation.py:274-286, one task. -/
noncomputable def evaluateNonMeasured1 (task : Task) : Except Err Meas.ExpectationValues :=
  if 1 < task.operator.length ∨ [] ∉ PyDict.keys task.operator then
    match task.shots with
    | some s => if 0 < s then .error .runtimeError else .ok (constantValue 0)
    | none => .ok (constantValue 0)
  else .ok (constantValue (coeff task.operator []))

/-- estimation/_estimation.py:257-295 `evaluate_non_measured_estimation_tasks`. -/
noncomputable def evaluateNonMeasured (tasks : List Task) : Except Err (List Meas.ExpectationValues) := tasks.mapM evaluateNonMeasured1

/-- openfermion/zapata_utils/_utils.py:327-341 `change_operator_type` to `IsingOperator`. -/
noncomputable def toIsing (o : Terms Letter) : Except Err (Terms Letter) :=
  o.foldlM (fun acc kv => (isingOf kv.1 kv.2).map (Op.add acc)) []

/-- The real coefficients and qubit lists which `Measurements.get_expectation_values` works on. -/
def isingTable (o : Terms Letter) : Meas.Ising := o.map fun kv => (kv.1.map Prod.fst, kv.2.re)

/-- A backend's answer to `run_circuitset_and_measure`: external; circuits with shot numbers ↦ one list of bitstrings per circuit, or an exception. -/
abbrev Runner := List (Circuit × Option ℤ) → Except Err (List (List (List ℕ)))

/-- estimation/_estimation.py:330-336: the value computed from the measurements of one task. -/
noncomputable def measuredValue (o : Terms Letter) (m : List (List ℕ)) : Except Err Meas.ExpectationValues := do
  let i ← toIsing o
  Meas.getExpectationValues m (isingTable i) false

/-- estimation/_estimation.py:349-356: `full[index] = value` in a loop. -/
def fill {α : Type} (full : List (Option α)) (vs : List (α × ℕ)) : List (Option α) := vs.foldl (fun acc vi => acc.set vi.2 (some vi.1)) full

/-- estimation/_estimation.py:298-361 `estimate_expectation_values_by_averaging`; `none` is Python's `None`. -/
noncomputable def estimateByAveraging (run : Runner) (tasks : List Task) : Except Err (List (Option Meas.ExpectationValues)) := do
  let s := split tasks
  let non ← evaluateNonMeasured s.2.1
  let meas ← if s.1.isEmpty then .ok []
    else do
      let ms ← run (s.1.map fun t => (t.circuit, t.shots))
      ((s.1.map Task.operator).zip ms).mapM fun om => measuredValue om.1 om.2
  let full := List.replicate (s.2.1.length + s.1.length) none
  return fill (fill full (non.zip s.2.2.2)) (meas.zip s.2.2.1)

/-- estimation/_estimation.py:364-380 `calculate_exact_expectation_values`; `exact` is the simulator's method (external). -/
def exactValues (exact : Circuit → Terms Letter → Except Err Meas.ExpectationValues) (tasks : List Task) : Except Err (List Meas.ExpectationValues) :=
  tasks.mapM fun t => exact t.circuit t.operator

end ZQ.Est
