import Verif.Model.Circuit

/-!
# Circuit serialization

Model of `circuits/_serde.py` and of `Circuit.collect_custom_gate_definitions`.  Dictionaries are records whose optional keys are `Option`s; the
JSON layer (`json.dump` / `json.load`) is the identity on them.  An outcome in which Python silently returns an object that is not a gate is
modelled as `Err.typeError`.
-/

namespace ZQ.Serde

open Gates Circuits

/-- `str(expr)` and `sympify(text, locals=...)`, circuits/_serde.py:20-45.  External: `de text names` parses with the listed names bound to
symbols. -/
structure Codec where
  ser : Expr → String
  de : String → List String → Expr

/-- What a gate serializes to, circuits/_serde.py:136-172: with or without the key `wrapped_gate`. -/
inductive GateDict
  | leaf (name : String) (params : Option (List String)) (freeSymbols : Option (List String))
  | wrap (name : String) (wrapped : GateDict) (numControl : Option ℤ)

/-- circuits/_serde.py:149-155. -/
structure DefDict where
  gateName : String
  matrix : List (List String)
  paramsOrdering : List String

/-- circuits/_serde.py:127-133. -/
structure OpDict where
  gate : GateDict
  qubitIndices : List ℕ

/-- circuits/_serde.py:82-110. -/
structure CircuitDict where
  schema : String
  nQubits : ℕ
  operations : Option (List OpDict)
  customGateDefinitions : Option (List DefDict)

/-- circuits/_serde.py:16 (`SCHEMA_VERSION` is "zapata-v1", utils.py). -/
def circuitSchema : String := "zapata-v1-circuit-v2"
/-- circuits/_serde.py:17. -/
def circuitsetSchema : String := "zapata-v1-circuitset-v2"

/-- The gate object made by calling a custom definition, circuits/_gates.py:402-408. -/
def baseOf (d : CustomDef) : Base := ⟨d.gateName, .custom d, d.nQubits, false⟩

/-- Entries of a matrix in row order (iteration over a sympy matrix). -/
def flat {K : Type} (A : Mat K) : List K := (List.range A.rows).flatMap fun i => (List.range A.cols).map fun j => A.e i j

/-- circuits/_gates.py:447-451 `_are_matrices_equal`: elementwise comparison of the zipped entries.  The tolerance test on two entries
(lines 428-444) is a parameter. -/
def matricesEqual (eq : Expr → Expr → Bool) (A B : Mat Expr) : Bool := ((flat A).zip (flat B)).all fun p => eq p.1 p.2

/-- circuits/_gates.py:410-425 `CustomGateDefinition.__eq__`. -/
def defEq (eq : Expr → Expr → Bool) (a b : CustomDef) : Bool :=
  a.gateName == b.gateName && a.paramsOrdering == b.paramsOrdering && matricesEqual eq a.matrix b.matrix

/-- circuits/_circuit.py:28-31, 100-104: the definition of an operation that directly uses a custom gate. -/
def customDefOf (op : GateOp) : Option CustomDef :=
  match op.gate with
  | .factory b _ => match b.factory with
    | .custom d => some d
    | .builtin _ => none
  | _ => none

/-- One step of the loop circuits/_circuit.py:106-113; the dictionary is an association list in insertion order. -/
def collectStep (eq : Expr → Expr → Bool) (acc : List CustomDef) (d : CustomDef) : Except Err (List CustomDef) :=
  match acc.find? (fun a => a.gateName == d.gateName) with
  | none => .ok (acc ++ [d])
  | some a => if defEq eq a d then .ok acc else .error .valueError

/-- circuits/_circuit.py:99-116 `collect_custom_gate_definitions`. -/
def collect (eq : Expr → Expr → Bool) (c : Circuit) : Except Err (List CustomDef) :=
  ((c.ops.filterMap customDefOf).foldlM (collectStep eq) []).map fun l => l.mergeSort (fun a b => a.gateName ≤ b.gateName)

/-! ## Serialization -/

/-- circuits/_serde.py:136-146, 158-172. -/
def gateToDict (C : Codec) : Gate → GateDict
  | .factory b ps => .leaf b.name
      (if ps = [] then none else some (ps.map C.ser))
      (if (Gate.factory b ps).freeSymbols = [] then none else some ((Gate.factory b ps).freeSymbols.mergeSort (· ≤ ·)))
  | .ctrl g k => .wrap "Control" (gateToDict C g) (some k)
  | .dag g => .wrap "Dagger" (gateToDict C g) none

/-- circuits/_serde.py:149-155 with `_matrix_to_json` (52-56). -/
def defToDict (C : Codec) (d : CustomDef) : DefDict :=
  ⟨d.gateName, (List.range d.matrix.rows).map fun i => (List.range d.matrix.cols).map fun j => C.ser (d.matrix.e i j), d.paramsOrdering⟩

/-- circuits/_serde.py:127-133. -/
def opToDict (C : Codec) (op : GateOp) : OpDict := ⟨gateToDict C op.gate, op.qubits⟩

/-- circuits/_serde.py:82-110. -/
def circuitToDict (C : Codec) (eq : Expr → Expr → Bool) (c : Circuit) : Except Err CircuitDict := do
  let defs ← collect eq c
  return ⟨circuitSchema, c.n, if c.ops.isEmpty then none else some (c.ops.map (opToDict C)),
    if defs.isEmpty then none else some (defs.map (defToDict C))⟩

/-! ## Deserialization -/

/-- A module-level object of circuits/_builtin_gates.py: a gate, a gate prototype, or something else. -/
inductive GlobalRef
  | fixed (b : Base)
  | proto (b : Base)
  | other

/-- The module-level names of circuits/_builtin_gates.py that are not gates (imports, helpers, module attributes). -/
def otherGlobals : List String :=
  ["Callable", "Union", "_gates", "_matrices", "GatePrototype", "GateRef", "make_parametric_gate_prototype", "builtin_gate_by_name",
   "__name__", "__doc__", "__package__", "__loader__", "__spec__", "__file__", "__cached__", "__builtins__"]

/-- circuits/_builtin_gates.py:24-30 `builtin_gate_by_name` (`globals()[name]`); `none` is the `KeyError`. -/
noncomputable def lookupGlobal (name : String) : Option GlobalRef :=
  match fixedGates.find? (fun b => b.name == name) with
  | some b => some (.fixed b)
  | none => match parametricGates.find? (fun b => b.name == name) with
    | some b => some (.proto b)
    | none => if name ∈ otherGlobals then some .other else none

/-- circuits/_serde.py:221-234 `_builtin_gate_from_dict` once the name was found: with parameters the object is called, otherwise it is
returned.  Calling a fixed gate gives a gate operation, returning a prototype gives a function: not gates. -/
def useGlobal (C : Codec) (ref : GlobalRef) (params freeSymbols : Option (List String)) : Except Err Gate :=
  match ref, params.getD [] with
  | .fixed b, [] => .ok (.factory b [])
  | .proto b, p :: ps => .ok (.factory b ((p :: ps).map fun q => C.de q (freeSymbols.getD [])))
  | _, _ => .error .typeError

/-- circuits/_serde.py:259-276 `_custom_gate_instance_from_dict`.  `symbol_names` is an iterator, so only the first parameter is parsed with
the names of the definition's parameters. -/
def customInstance (C : Codec) (defs : List CustomDef) (name : String) (params : Option (List String)) : Except Err Gate :=
  match defs.find? (fun d => d.gateName == name) with
  | none => .error .valueError
  | some d => .ok (.factory (baseOf d) (match params.getD [] with
    | [] => []
    | p :: ps => C.de p d.paramsOrdering :: ps.map fun q => C.de q []))

/-- circuits/_serde.py:203-218 `_gate_from_dict` with 237-247 `_special_gate_from_dict`: built-in by name, then control / dagger, then custom;
`KeyError`s move on to the next attempt. -/
noncomputable def gateFromDict (C : Codec) (defs : List CustomDef) : GateDict → Except Err Gate
  | .leaf name params freeSymbols =>
    match lookupGlobal name with
    | some ref => useGlobal C ref params freeSymbols
    | none => customInstance C defs name params
  | .wrap name wrapped numControl =>
    match lookupGlobal name with
    | some ref => useGlobal C ref none none
    | none =>
      if name = "Control" then do
        let g ← gateFromDict C defs wrapped
        match numControl with
        | some k => Gate.mkCtrl g k
        | none => customInstance C defs name none
      else if name = "Dagger" then (gateFromDict C defs wrapped).map Gate.dag
      else customInstance C defs name none

/-- `sympy.Matrix` of a list of rows; `_n_qubits` (circuits/_gates.py:337-341) checks the shape. -/
def exprMatrix (rows : List (List Expr)) : Mat Expr :=
  ⟨rows.length, (rows.headD []).length, fun i j => (rows.getD i []).getD j (.num 0)⟩

/-- circuits/_gates.py:398-400 `CustomGateDefinition(name, matrix, ordering)` with its shape check (337-341). -/
def mkDef (name : String) (matrix : Mat Expr) (ordering : List String) : Except Err CustomDef :=
  if matrix.rows = 0 then .error .valueError
  else if 2 ^ Nat.log2 matrix.rows ≠ matrix.rows ∨ 2 ^ Nat.log2 matrix.rows ≠ matrix.cols then .error .valueError
  else .ok ⟨name, Nat.log2 matrix.rows, matrix, ordering⟩

/-- circuits/_serde.py:250-256 with `_matrix_from_json` (59-67). -/
def defFromDict (C : Codec) (d : DefDict) : Except Err CustomDef :=
  mkDef d.gateName (exprMatrix (d.matrix.map fun row => row.map fun s => C.de s d.paramsOrdering)) d.paramsOrdering

/-- circuits/_serde.py:196-200. -/
noncomputable def opFromDict (C : Codec) (defs : List CustomDef) (d : OpDict) : Except Err GateOp :=
  (gateFromDict C defs d.gate).map fun g => ⟨g, d.qubitIndices⟩

/-- circuits/_serde.py:178-193. -/
noncomputable def circuitFromDict (C : Codec) (d : CircuitDict) : Except Err Circuit :=
  if d.schema ≠ circuitSchema then .error .valueError
  else do
    let defs ← (d.customGateDefinitions.getD []).mapM (defFromDict C)
    let ops ← (d.operations.getD []).mapM (opFromDict C defs)
    Circuit.make ops (some (d.nQubits : ℚ))

/-- circuits/_serde.py:113-124. -/
def circuitsetToDict (C : Codec) (eq : Expr → Expr → Bool) (cs : List Circuit) : Except Err (String × List CircuitDict) :=
  (cs.mapM (circuitToDict C eq)).map fun l => (circuitsetSchema, l)

/-- circuits/_serde.py:279-284. -/
noncomputable def circuitsetFromDict (C : Codec) (d : String × List CircuitDict) : Except Err (List Circuit) :=
  if d.1 ≠ circuitsetSchema then .error .valueError
  else d.2.mapM (circuitFromDict C)

end ZQ.Serde
