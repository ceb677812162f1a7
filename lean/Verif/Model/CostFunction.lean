import Verif.Model.Ansatz
import Verif.Model.Recorder

/-!
# Cost functions

Model of `cost_function.py` and `cost_function_augmentations.py`.  Floats are real numbers.  Backends, estimation methods, preprocessors and factories are
arbitrary functions with effects on the rest of the world (`Target`), which may raise.  Arrays of parameters are values: no function here keeps or changes
the caller's array (cost_function.py:138, 282 copy it, `+` and `np.concatenate` make new arrays).
-/

namespace ZQ.Cost

open ZQ ZQ.Op ZQ.Circuits ZQ.Est ZQ.History

variable {W E S T R : Type}

/-- One call after another; an exception of the first is the result. -/
def andThen (f : Target W E S T) (g : Target W E T R) : Target W E S R := fun w s =>
  match f w s with
  | (.error e, w) => (.error e, w)
  | (.ok t, w) => g w t

/-- A function without effects. -/
def effectless (f : S → Except E T) : Target W E S T := fun w s => (f s, w)

/-- `for p in ps: x = p(x)`. -/
def runAll : List (Target W E S S) → Target W E S S
  | [] => fun w s => (.ok s, w)
  | p :: ps => andThen p (runAll ps)

/-- `ExpectationValues` whose values may be of a complex type (measurement.py:30-60). Correlations and covariances are real. -/
structure Values where
  values : List ℂ
  complexType : Bool
  correlations : Option (List (List (List ℝ)))
  covariances : Option (List (List (List ℝ)))

/-- `if extra: if not acc: acc = []; acc += extra` (measurement.py:816-826). -/
def extend (acc extra : Option (List (List (List ℝ)))) : Option (List (List (List ℝ))) :=
  match extra with
  | none => acc
  | some [] => acc
  | some (x :: xs) => some (acc.getD [] ++ x :: xs)

/-- measurement.py:812-826, one round of `concatenate_expectation_values`; concatenating with a complex array gives a complex array. -/
def concatStep (acc e : Values) : Values :=
  ⟨acc.values ++ e.values, acc.complexType || e.complexType, extend acc.correlations e.correlations, extend acc.covariances e.covariances⟩

/-- measurement.py:799-828 `concatenate_expectation_values`. -/
def concatenate (es : List Values) : Values := es.foldl concatStep ⟨[], false, none, none⟩

/-- measurement.py:391-412 `expectation_values_to_real`; the frames of correlations are arrays, so lines 407-411 change nothing. -/
def toReal (e : Values) : Meas.ExpectationValues := ⟨e.values.map Complex.re, e.correlations, e.covariances⟩

/-- `ValueEstimate`: a value, and a precision or `None`; `some none` is the precision nan. -/
structure Estimate where
  value : ℝ
  precision : Option (Option ℝ)

open Classical in
/-- `np.sqrt`: nan (here `none`) for negative numbers. -/
noncomputable def npSqrt (x : ℝ) : Option ℝ := if 0 ≤ x then some (Real.sqrt x) else none

/-- cost_function.py:188-198 `sum_expectation_values`. -/
noncomputable def sumExpectationValues (e : Meas.ExpectationValues) : Estimate :=
  match e.covariances with
  | none => ⟨e.values.sum, none⟩
  | some [] => ⟨e.values.sum, none⟩
  | some (x :: xs) => ⟨e.values.sum, some (npSqrt ((x :: xs).foldl (fun v frame => v + (frame.map List.sum).sum) 0))⟩

/-- interfaces/ansatz_utils.py:77-87 `combine_ansatz_params`, called by cost_function.py:305-317 `fix_parameters`. -/
def fixParameters (fixed : List ℝ) : Target W E (List ℝ) (List ℝ) := effectless fun ps => .ok (Ansatz.combineParams fixed ps)

/-- Adding as many numbers of a stream of random numbers, from a position on, as there are parameters. -/
def addNoise (noise : ℕ → ℝ) (position : ℕ) (ps : List ℝ) : List ℝ := ps.zipIdx.map fun x => x.1 + noise (position + x.2)

/-- cost_function.py:320-340 `add_normal_noise`: the generator, seeded when the preprocessor is made, is a stream of numbers (external) and a position,
kept in the world by `get` and `put`. -/
def addNormalNoise (noise : ℕ → ℝ) (get : W → ℕ) (put : W → ℕ → W) : Target W E (List ℝ) (List ℝ) := fun w ps =>
  (.ok (addNoise noise (get w) ps), put w (get w + ps.length))

/-- cost_function.py:391-404, after the estimation. -/
noncomputable def summarize (es : List Values) : Estimate := sumExpectationValues (toReal (concatenate es))

/-- cost_function.py:391-404: the function made by `create_cost_function`. Its gradient is `gradient_function` of it (Model/Gradient). -/
noncomputable def createCostFunction (method : Target W E (List Task) (List Values)) (factory : Target W E (List ℝ) (List Task))
    (preprocessors : List (Target W E (List ℝ) (List ℝ))) : Target W E (List ℝ) Estimate :=
  andThen (runAll preprocessors) (andThen factory (andThen method (effectless fun es => .ok (summarize es))))

/-- The set of free symbols of the circuits (cost_function.py:50-52), without repetitions, in order of appearance. -/
def symbolSet (tasks : List Task) : List String := (tasks.flatMap fun t => t.circuit.freeSymbols).dedup

/-- cost_function.py:45-55 `_get_sorted_set_of_circuit_symbols`; `order` is the iteration order of a set of symbols (external). -/
def sortedSymbols (order : List String → List String) (key : List Char → List Sorting.Item) (tasks : List Task) : Except Err (List String) :=
  Ansatz.sortSymbols key (order (symbolSet tasks))

/-- cost_function.py:455-459, 290-293 and 147-150: the tasks with the i-th parameter in place of the i-th symbol. -/
noncomputable def bindTasks (symbols : List String) (tasks : List Task) (ps : List ℝ) : Except Err (List Task) := do
  let m ← Ansatz.createSymbolsMap symbols (ps.map fun x : ℝ => (x : ℂ))
  evaluateCircuits tasks (tasks.map fun _ => m)

/-- cost_function.py:435-453, 249-272 and 106-123: the initial task, run through the preprocessors of tasks, and the sorted symbols of the result. -/
def prepare (order : List String → List String) (key : List Char → List Sorting.Item) (operator : Terms Letter) (circuit : Circuit)
    (preprocessors : List (Target W Err (List Task) (List Task))) : Target W Err Unit (List Task × List String) := fun w _ =>
  andThen (runAll preprocessors) (effectless fun tasks => (sortedSymbols order key tasks).map fun symbols => (tasks, symbols)) w [⟨operator, circuit, none⟩]

/-- cost_function.py:455-461: the factory returned by `expectation_value_estimation_tasks_factory`, given the tasks and symbols prepared. -/
noncomputable def expectationValueFactory (prepared : List Task × List String) : Target W Err (List ℝ) (List Task) :=
  effectless (bindTasks prepared.2 prepared.1)

/-- cost_function.py:464-493 `substitution_based_estimation_tasks_factory`: the circuit and the key come from the ansatz. -/
def prepareFromAnsatz {V : Type} (K : Ansatz.Class V) (st : Ansatz.St V) (order : List String → List String) (operator : Terms Letter)
    (preprocessors : List (Target W Err (List Task) (List Task))) : Target W Err Unit (List Task × List String) := fun w u =>
  match (Ansatz.parametrizedCircuit K st).1 with
  | .error e => (.error e, w)
  | .ok c => prepare order K.sortKey operator c preprocessors w u

/-- cost_function.py:496-545: the factory returned by `dynamic_circuit_estimation_tasks_factory`; `generate` is the `_generate_circuit` of the ansatz. -/
def dynamicFactory (generate : Target W E (List ℝ) Circuit) (operator : Terms Letter) (preprocessors : List (Target W E (List Task) (List Task))) :
    Target W E (List ℝ) (List Task) :=
  andThen generate fun w c => runAll preprocessors w [⟨operator, c, none⟩]

/-- cost_function.py:282-289 and 138-145: the parameters after the fixed ones are put first and noise is added; the generator is seeded anew in each call. -/
def fullParameters (fixed : Option (List ℝ)) (noise : Option (ℕ → ℝ)) (ps : List ℝ) : List ℝ :=
  let full := match fixed with
    | none => ps
    | some f => Ansatz.combineParams f ps
  match noise with
  | none => full
  | some n => addNoise n 0 full

/-- cost_function.py:274-302 `AnsatzBasedCostFunction.__call__`. -/
noncomputable def ansatzBased (prepared : List Task × List String) (fixed : Option (List ℝ)) (noise : Option (ℕ → ℝ))
    (method : Target W Err (List Task) (List Values)) : Target W Err (List ℝ) Estimate :=
  andThen (effectless fun ps => bindTasks prepared.2 prepared.1 (fullParameters fixed noise ps))
    (andThen method (effectless fun es => .ok (summarize es)))

/-- cost_function.py:152-161: the sum of the sums, which must be a float and not a complex number. -/
def groundSum (es : List Values) : Except Err Estimate :=
  if es.any Values.complexType then .error .valueError else .ok ⟨((es.map fun e : Values => e.values.sum).sum).re, none⟩

/-- cost_function.py:125-161 `ground_state_cost_function`. -/
noncomputable def groundState (prepared : List Task × List String) (fixed : Option (List ℝ)) (noise : Option (ℕ → ℝ))
    (method : Target W Err (List Task) (List Values)) : Target W Err (List ℝ) Estimate :=
  andThen (effectless fun ps => bindTasks prepared.2 prepared.1 (fullParameters fixed noise ps)) (andThen method (effectless groundSum))

/-! ### Augmentations -/

/-- A callable object: what calling it does, and its attributes. -/
structure Obj (F A : Type) where
  call : F
  attrs : String → Option A

/-- A callable object with a gradient, which is a callable object itself, or without. -/
structure CostObj (F G A : Type) extends Obj F A where
  gradient : Option (Obj G A)

variable {F G A V L : Type}

/-- cost_function_augmentations.py:81-107 `_AttributePropagatingWrapper` around `new`, with the attributes of `old` behind those of `new`. -/
def wrap (new old : Obj F A) : Obj F A := ⟨new.call, fun n => (new.attrs n).or (old.attrs n)⟩

/-- The same for an object with a gradient; the override comes first. -/
def wrapCost (new old : CostObj F G A) (override : Option (Obj G A)) : CostObj F G A :=
  ⟨wrap new.toObj old.toObj, override.or (new.gradient.or old.gradient)⟩

/-- cost_function_augmentations.py:129-139 `_augment_function` for a gradient. -/
def augmentGradient (g : Obj G A) (augmentations : List (Obj G A → Obj G A)) : Obj G A :=
  augmentations.foldl (fun o a => wrap (a o) o) g

/-- cost_function_augmentations.py:129-139 `_augment_function` for the cost function. -/
def augmentFunction (f : CostObj F G A) (augmentations : List (CostObj F G A → CostObj F G A)) (override : Option (Obj G A)) : CostObj F G A :=
  if augmentations.isEmpty then f else augmentations.foldl (fun o a => wrapCost (a o) o override) f

/-- cost_function_augmentations.py:142-176 `augment_cost_function`; a cost function satisfies the protocols if it has the attribute `gradient`. -/
def augmentCostFunction (f : CostObj F G A) (augmentations : List (CostObj F G A → CostObj F G A)) (gradientAugmentations : List (Obj G A → Obj G A)) :
    CostObj F G A :=
  augmentFunction f augmentations (f.gradient.map fun g => augmentGradient g gradientAugmentations)

/-- cost_function_augmentations.py:212-218 `ConditionalSideEffect.__call__`: the state is `call_number` and whatever `_act` changes. -/
def sideEffect (target : Target W E S V) (predicate : SaveCondition E S V) (act : L → ℕ → V → S → Except E Unit × L) :
    Target ((ℕ × L) × W) E S V := fun st params =>
  match target st.2 params with
  | (.error e, w) => (.error e, (st.1, w))
  | (.ok result, w) =>
    match predicate result params st.1.1 with
    | .error e => (.error e, (st.1, w))
    | .ok false => (.ok result, ((st.1.1 + 1, st.1.2), w))
    | .ok true =>
      match act st.1.2 st.1.1 result params with
      | (.error e, l) => (.error e, ((st.1.1, l), w))
      | (.ok _, l) => (.ok result, ((st.1.1 + 1, l), w))

/-- cost_function_augmentations.py:257-258 `FunctionLogger._act`: one log record with the level, the message, the call number and the value. -/
def logAct {M : Type} (level : ℤ) (message : M) (log : List (ℤ × M × ℕ × V)) (k : ℕ) (result : V) (_ : S) : Except E Unit × List (ℤ × M × ℕ × V) :=
  (.ok (), log ++ [(level, message, k, result)])

end ZQ.Cost
