import Verif.Model.Circuit

/-!
# Circuit generators, multi-phase operations, decompositions

Model of `circuits/_generators.py`, `circuits/_wavefunction_operations.py`, `decompositions/_decomposition.py` and
`decompositions/_zquantum_decompositions.py`.
-/

namespace ZQ.Circuits

open Gates

/-! ## circuits/_generators.py -/

/-- `circuit += op` in a loop (circuits/_generators.py:63-68, 83-85). -/
def appendOps (c : Circuit) : List GateOp → Except Err Circuit
  | [] => .ok c
  | o :: os => (append c (.op o)).bind fun c' => appendOps c' os

/-- circuits/_generators.py:37-70 `apply_gate_to_qubits`.  `setOrder` is the iteration order of Python's `set(qubit_indices)` (external).
`gate` is what `gate_factory(*parameter)` returns; without parameters the factory is already a gate, here `gate []`.
The warning about duplicates is not modelled. -/
def applyGateToQubits (setOrder : List ℕ → List ℕ) (c : Circuit) (qubits : List ℕ) (gate : List Expr → Gate)
    (parameters : Option (List (List Expr))) : Except Err Circuit :=
  let unique := setOrder qubits
  match parameters with
  | some ps =>
    if ps.length = unique.length then
      appendOps c ((unique.zip ps).map fun qp => ⟨gate qp.2, [qp.1]⟩)
    else .error .assertionError
  | none => appendOps c (unique.map fun q => ⟨gate [], [q]⟩)

/-- circuits/_generators.py:14-34 `create_layer_of_gates`. -/
def createLayerOfGates (setOrder : List ℕ → List ℕ) (n : ℕ) (gate : List Expr → Gate) (parameters : Option (List (List Expr))) :
    Except Err Circuit :=
  (Circuit.make [] none).bind fun c => applyGateToQubits setOrder c (List.range n) gate parameters

/-- The built-in identity gate, circuits/_builtin_gates.py:39-41. -/
noncomputable def identityGate : Gate := .factory ⟨"I", .builtin fun _ => iMatrix, 1, true⟩ []

/-- circuits/_generators.py:73-86 `add_ancilla_register`. -/
noncomputable def addAncillaRegister (c : Circuit) (k : ℕ) : Except Err Circuit :=
  appendOps c ((List.range k).map fun i => ⟨identityGate, [c.n + i]⟩)

/-! ## circuits/_wavefunction_operations.py -/

/-- circuits/_wavefunction_operations.py:26-35 `MultiPhaseOperation`. -/
structure MultiPhase where
  params : List Expr

namespace MultiPhase

/-- circuits/_wavefunction_operations.py:37-41 `__post_init__`: number parameters must be real; symbolic expressions are not checked. -/
noncomputable def make (params : List Expr) : Except Err MultiPhase :=
  open Classical in
  if params.any (fun p => match p with
    | .num c => decide (c.im ≠ 0)
    | _ => false) then .error .valueError
  else .ok ⟨params⟩

/-- circuits/_wavefunction_operations.py:43-46 `qubit_indices` (the list length is at least 1; `log2(0)` is not modelled). -/
def qubitIndices (op : MultiPhase) : List ℕ := List.range (Nat.log2 op.params.length)

/-- circuits/_wavefunction_operations.py:48-56 `bind`, `replace_params`. -/
noncomputable def bind (op : MultiPhase) (m : Expr.SymMap) : Except Err MultiPhase :=
  make (op.params.map (Expr.subSymbols m))

/-- Conversion of one parameter by `np.asarray(params, dtype=float)`: fails (`TypeError`) on an expression with free symbols or a non-real
value.  External.  Simplification: Python `complex` numbers with zero imaginary part convert here, while numpy refuses them. -/
noncomputable def toFloat (e : Expr) : Option ℝ :=
  open Classical in
  if e.free = [] ∧ (e.eval fun _ => 0).im = 0 then some (e.eval fun _ => 0).re else none

/-- circuits/_wavefunction_operations.py:58-72 `apply`. -/
noncomputable def apply (op : MultiPhase) (v : List ℂ) : Except Err (List ℂ) :=
  if v.length ≠ op.params.length then .error .valueError
  else match op.params.mapM toFloat with
    | none => .error .runtimeError
    | some xs => .ok (List.zipWith (fun (a : ℂ) (x : ℝ) => a * Complex.exp ((x : ℂ) * Complex.I)) v xs)

/-- circuits/_wavefunction_operations.py:74-87 `free_symbols`. -/
def freeSymbols (op : MultiPhase) : List String := Expr.getFreeSymbols op.params

end MultiPhase

/-! ## decompositions/_decomposition.py -/

/-- decompositions/_decomposition.py:12-24 `DecompositionRule`; `production` may raise. -/
structure Rule (α : Type) where
  predicate : α → Bool
  production : α → Except Err (List α)

/-- decompositions/_decomposition.py:27-45 `decompose_operation`. -/
def decomposeOperation {α : Type} : List (Rule α) → α → Except Err (List α)
  | [], op => .ok [op]
  | r :: rs, op => do
    let new ← if r.predicate op then r.production op else .ok [op]
    let parts ← new.mapM (decomposeOperation rs)
    return parts.flatten

/-- decompositions/_decomposition.py:48-56 `decompose_operations`. -/
def decomposeOperations {α : Type} (rules : List (Rule α)) (ops : List α) : Except Err (List α) := do
  let parts ← ops.mapM (decomposeOperation rules)
  return parts.flatten

/-! ## decompositions/_zquantum_decompositions.py -/

/-- `RZ(angle)`, circuits/_builtin_gates.py:51. -/
noncomputable def rzGate (a : Expr) : Gate := .factory ⟨"RZ", param1 rzMatrix, 1, false⟩ [a]
/-- `RY(angle)`, circuits/_builtin_gates.py:50. -/
noncomputable def ryGate (a : Expr) : Gate := .factory ⟨"RY", param1 ryMatrix, 1, false⟩ [a]
/-- `U3` as a factory, circuits/_builtin_gates.py:54. -/
noncomputable def u3Base : Base := ⟨"U3", .builtin fun l => u3Matrix (l.getD 0 0) (l.getD 1 0) (l.getD 2 0), 1, false⟩

/-- decompositions/_zquantum_decompositions.py:21-27 `U3GateToRotation.predicate`. -/
def u3Predicate (op : GateOp) : Bool :=
  op.gate.name == "U3" || match op.gate with
    | .ctrl w _ => w.name == "U3"
    | _ => false

/-- decompositions/_zquantum_decompositions.py:34-39 `preprocess_gate`; an attribute `num_control_qubits` exists only on controlled gates (for
another gate named "Control" it would be an `AttributeError`, here `runtimeError`). -/
def u3Preprocess (op : GateOp) (g : Gate) : Except Err Gate :=
  if op.gate.name == "Control" then
    match op.gate with
    | .ctrl _ k => g.controlled (k : ℤ)
    | _ => .error .runtimeError
  else .ok g

/-- decompositions/_zquantum_decompositions.py:29-46 `U3GateToRotation.production`; unpacking a wrong number of parameters is a
`ValueError`. -/
noncomputable def u3Production (op : GateOp) : Except Err (List GateOp) :=
  match op.gate.params with
  | [theta, phi, lambda] => do
    let ops ← [rzGate phi, ryGate theta, rzGate lambda].mapM fun g => (u3Preprocess op g).map fun g' => (⟨g', op.qubits⟩ : GateOp)
    return ops.reverse
  | _ => .error .valueError

/-- decompositions/_zquantum_decompositions.py:15-46 `U3GateToRotation`. -/
noncomputable def u3Rule : Rule GateOp := ⟨u3Predicate, u3Production⟩

/-- decompositions/_zquantum_decompositions.py:49-52 `decompose_zquantum_circuit`: the result is `Circuit(operations)`, without a register size. -/
def decomposeCircuit (c : Circuit) (rules : List (Rule GateOp)) : Except Err Circuit := do
  let ops ← decomposeOperations rules c.ops
  Circuit.make ops none

end ZQ.Circuits
