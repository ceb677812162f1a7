import Verif.Model.Circuit
import Verif.Model.Sorting
import Verif.Model.Estimation

/-!
# Ansatzes

Model of `interfaces/ansatz.py`, `interfaces/ansatz_utils.py`, `utils.py: create_symbols_map` and of the ansatz of `interfaces/mock_objects.py`.
`V` is the type of property values.
-/

namespace ZQ.Ansatz

open ZQ ZQ.Circuits ZQ.Gates ZQ.Est

variable {V : Type}

/-- The instance: the attributes `_<name>` behind the properties, and `_parametrized_circuit`. -/
structure St (V : Type) where
  attrs : String → Option V
  cache : Option Circuit

/-- A subclass of `Ansatz`: whether it supports parametrized circuits, the default values of its properties, its `_generate_circuit` as a function of the
property values, the properties this method reads, and the order of symbols. -/
structure Class (V : Type) where
  supports : Bool
  default : String → V
  ofInt : ℤ → V
  generate : (String → V) → Option (List ℂ) → Except Err Circuit
  reads : List String
  sortKey : List Char → List Sorting.Item

/-- interfaces/ansatz_utils.py:54-66 `DynamicProperty.__get__`: stores the default value on first use. -/
def getProp (K : Class V) (name : String) (st : St V) : V × St V :=
  match st.attrs name with
  | some v => (v, st)
  | none => (K.default name, { st with attrs := fun n => if n = name then some (K.default name) else st.attrs n })

/-- interfaces/ansatz_utils.py:68-69 `DynamicProperty.__set__`. -/
def setAttr (name : String) (v : V) (st : St V) : St V := { st with attrs := fun n => if n = name then some v else st.attrs n }

/-- interfaces/ansatz_utils.py:23-25 `_InvalidatingSetter.__set__`. -/
def setProp (name : String) (v : V) (st : St V) : St V := { setAttr name v st with cache := none }

/-- What reading a property gives. -/
def value (K : Class V) (st : St V) (name : String) : V := (getProp K name st).1

/-- Calling `_generate_circuit`, which reads properties. -/
def generate (K : Class V) (params : Option (List ℂ)) (st : St V) : Except Err Circuit × St V :=
  (K.generate (value K st) params, K.reads.foldl (fun st n => (getProp K n st).2) st)

/-- interfaces/ansatz.py:44-49 `__init__`. -/
def init (K : Class V) (layers : ℤ) : Except Err (St V) :=
  if layers < 0 then .error .valueError
  else .ok { setProp "number_of_layers" (K.ofInt layers) ⟨fun _ => none, none⟩ with cache := none }

/-- interfaces/ansatz.py:51-65 `parametrized_circuit`. -/
def parametrizedCircuit (K : Class V) (st : St V) : Except Err Circuit × St V :=
  match st.cache with
  | some c => (.ok c, st)
  | none =>
    if K.supports then
      match generate K none st with
      | (.error e, st) => (.error e, st)
      | (.ok c, st) => (.ok c, { st with cache := some c })
    else (.error .notImplemented, st)

/-- interfaces/ansatz.py:72-78 `number_of_params`. -/
def numberOfParams (K : Class V) (st : St V) : Except Err ℕ × St V :=
  if K.supports then
    match parametrizedCircuit K st with
    | (.error e, st) => (.error e, st)
    | (.ok c, st) => (.ok c.freeSymbols.length, st)
  else (.error .notImplemented, st)

/-- utils.py:497-515 `create_symbols_map`. The keys are distinct symbols (as in every use in the code base). -/
def createSymbolsMap (symbols : List String) (params : List ℂ) : Except Err Expr.SymMap :=
  if symbols.length ≠ params.length then .error .valueError
  else .ok (symbols.zip (params.map Expr.num))

/-- `sorted(symbols, key=...)` of sympy symbols by a key of their names. -/
def sortSymbols (key : List Char → List Sorting.Item) (symbols : List String) : Except Err (List String) :=
  (Sorting.sortedBy key (symbols.map String.toList)).map fun l => l.map String.ofList

/-- interfaces/ansatz.py:80-96 `get_executable_circuit`. Lines 85-86 raise a plain `Exception` for `None`; here `runtimeError`. -/
def getExecutableCircuit (K : Class V) (params : Option (List ℂ)) (st : St V) : Except Err Circuit × St V :=
  match params with
  | none => (.error .runtimeError, st)
  | some ps =>
    if K.supports then
      match parametrizedCircuit K st with
      | (.error e, st) => (.error e, st)
      | (.ok c, st) =>
        match sortSymbols K.sortKey c.freeSymbols with
        | .error e => (.error e, st)
        | .ok symbols =>
          match createSymbolsMap symbols ps with
          | .error e => (.error e, st)
          | .ok m =>
            match parametrizedCircuit K st with
            | (.error e, st) => (.error e, st)
            | (.ok c, st) => (c.bind m, st)
    else generate K (some ps) st

/-- interfaces/ansatz_utils.py:28-51 `invalidates_parametrized_circuit` on a method: the body stores attributes and may raise; the circuit is invalidated only
if the body returns. -/
def callMethod (writes : List (String × V)) (raises : Bool) (st : St V) : St V :=
  let st := writes.foldl (fun st w => setAttr w.1 w.2 st) st
  if raises then st else { st with cache := none }

/-- What a user does with an ansatz. -/
inductive Use (V : Type)
  | assign (name : String) (v : V)
  | readProp (name : String)
  | readCircuit
  | numberOfParams
  | executable (params : Option (List ℂ))
  | method (writes : List (String × V)) (raises : Bool)

/-- The state after a use; exceptions are caught. -/
def step (K : Class V) (st : St V) : Use V → St V
  | .assign name v => setProp name v st
  | .readProp name => (getProp K name st).2
  | .readCircuit => (parametrizedCircuit K st).2
  | .numberOfParams => (numberOfParams K st).2
  | .executable ps => (getExecutableCircuit K ps st).2
  | .method writes raises => callMethod writes raises st

/-- interfaces/ansatz_utils.py:77-87 `combine_ansatz_params`. -/
def combineParams {α : Type} (a b : List α) : List α := a ++ b

/-- interfaces/mock_objects.py:146-149: `theta_{layer_index}`. -/
def theta (i : ℕ) : String := "theta_" ++ Nat.repr i

/-- interfaces/mock_objects.py:143-156 `MockAnsatz._generate_circuit`. Property values are integers; `range` of a negative integer is empty. -/
noncomputable def mockGenerate (get : String → ℤ) (params : Option (List ℂ)) : Except Err Circuit :=
  let symbols := (List.range (get "number_of_layers").toNat).map theta
  let ops := symbols.flatMap fun s => (List.range (get "problem_size").toNat).map fun q => (⟨rxGate (.sym s), [q]⟩ : GateOp)
  do
    let start ← Circuit.make [] none
    let circuit ← ops.foldlM (fun c op => append c (.op op)) start
    match params with
    | none => .ok circuit
    | some ps =>
      let m ← createSymbolsMap symbols ps
      circuit.bind m

/-- interfaces/mock_objects.py:130-141 `MockAnsatz`. -/
noncomputable def mockClass : Class ℤ where
  supports := true
  default := fun _ => 0
  ofInt := id
  generate := mockGenerate
  reads := ["number_of_layers", "problem_size"]
  sortKey := Sorting.naturalKeyRevlex

/-- interfaces/mock_objects.py:134-137 `MockAnsatz.__init__`. -/
noncomputable def mockInit (layers problemSize : ℤ) : Except Err (St ℤ) :=
  (init mockClass layers).map fun st => setProp "problem_size" problemSize (setProp "number_of_layers" layers st)

end ZQ.Ansatz
