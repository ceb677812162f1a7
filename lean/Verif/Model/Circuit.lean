import Verif.Model.Gates
import Mathlib.Algebra.Order.Floor.Ring
import Mathlib.Data.Rat.Floor

/-!
# Circuits

Model of `circuits/_circuit.py` and of `GateOperation` in `circuits/_gates.py`.  Qubit indices are natural numbers (Python would also accept
negative integers; not modelled).
-/

namespace ZQ.Circuits

open Gates

/-- circuits/_gates.py:104-145 `GateOperation`. -/
structure GateOp where
  gate : Gate
  qubits : List ℕ

namespace GateOp

/-- circuits/_gates.py:115-116. -/
def bind (op : GateOp) (m : Expr.SymMap) : Except Err GateOp :=
  (op.gate.bind m).map fun g => ⟨g, op.qubits⟩

/-- circuits/_gates.py:118-119. -/
def replaceParams (op : GateOp) (ps : List Expr) : Except Err GateOp :=
  (op.gate.replaceParams ps).map fun g => ⟨g, op.qubits⟩

/-- circuits/_gates.py:140-142. -/
def freeSymbols (op : GateOp) : List String := op.gate.freeSymbols

/-- circuits/_gates.py:121-126 `lifted_matrix`.  The sympy and the numpy branch perform the same exact operations; the value is taken at the
valuation `ρ`. -/
noncomputable def liftedMatrix (op : GateOp) (ρ : String → ℂ) (n : ℕ) : Except Err (Mat ℂ) :=
  UnitaryTools.liftMatrix (op.gate.matrix ρ) op.qubits n

/-- circuits/_gates.py:128-137 `apply`.  `2 ** np.log2(len) != len` holds iff the length is not a power of two; for length 0 the conversion
`int(-inf)` overflows. -/
noncomputable def apply (op : GateOp) (ρ : String → ℂ) (v : Vec ℂ) : Except Err (Vec ℂ) :=
  if v.dim = 0 then .error .runtimeError
  else if 2 ^ Nat.log2 v.dim ≠ v.dim then .error .valueError
  else do
    let l ← op.liftedMatrix ρ (Nat.log2 v.dim)
    return l.mulVec v

end GateOp

/-- circuits/_circuit.py:34-58 `Circuit`: operations and register size. -/
structure Circuit where
  ops : List GateOp
  n : ℕ

/-- circuits/_circuit.py:15-25 `_circuit_size_by_operations`; `max` of an empty sequence is a `ValueError`. -/
def sizeByOperations (ops : List GateOp) : Except Err ℕ :=
  if ops.isEmpty then .ok 0
  else match (ops.flatMap GateOp.qubits).max? with
    | some m => .ok (m + 1)
    | none => .error .valueError

/-- Python `int(q)`: truncation towards zero. -/
def pyInt (q : ℚ) : ℤ := if 0 ≤ q then ⌊q⌋ else ⌈q⌉

namespace Circuit

/-- circuits/_circuit.py:40-58 `Circuit.__init__`. `n_qubits` is `None` or a number; `if n_qubits:` skips `None` and 0. -/
def make (ops : List GateOp) (nQubits : Option ℚ) : Except Err Circuit :=
  match nQubits with
  | some q =>
    if q ≠ 0 then
      if q ≠ (pyInt q : ℚ) then .error .valueError
      else if pyInt q ≤ 0 then .error .valueError
      else .ok ⟨ops, (pyInt q).toNat⟩
    else (sizeByOperations ops).map fun n => ⟨ops, n⟩
  | none => (sizeByOperations ops).map fun n => ⟨ops, n⟩

/-- One step of the inner loop of circuits/_circuit.py:80-83. -/
def addSymbol (acc : List String) (s : String) : List String := if s ∈ acc then acc else acc ++ [s]

/-- circuits/_circuit.py:72-85 `free_symbols`; `seen_symbols` always has the same elements as `symbols_sequence`. -/
def freeSymbols (c : Circuit) : List String :=
  c.ops.foldl (fun acc op => op.freeSymbols.foldl addSymbol acc) []

/-- circuits/_circuit.py:118-129 `to_unitary`: `reduce(matmul, [op.lifted_matrix(n) for op in reversed(operations)])`; the matrices all have
the same square shape, `reduce` of an empty list is a `TypeError`. -/
noncomputable def toUnitary (c : Circuit) (ρ : String → ℂ) : Except Err (Mat ℂ) := do
  let lifted ← c.ops.reverse.mapM fun op => op.liftedMatrix ρ c.n
  match lifted with
  | [] => .error .typeError
  | a :: rest => .ok (rest.foldl Mat.mul a)

/-- circuits/_circuit.py:131-141 `bind`. -/
def bind (c : Circuit) (m : Expr.SymMap) : Except Err Circuit := do
  let ops ← c.ops.mapM fun op => op.bind m
  make ops (some (c.n : ℚ))

end Circuit

/-- Anything that can stand on the right of `circuit + _`. -/
inductive Addend
  | op (o : GateOp)
  | circuit (c : Circuit)
  | other

/-- circuits/_circuit.py:151-170 `_append_to_circuit` and its registered implementations. -/
def append (c : Circuit) : Addend → Except Err Circuit
  | .op o =>
    match o.qubits.max? with
    | none => .error .valueError
    | some m => Circuit.make (c.ops ++ [o]) (some ((max c.n (m + 1) : ℕ) : ℚ))
  | .circuit d => Circuit.make (c.ops ++ d.ops) (some ((max c.n d.n : ℕ) : ℚ))
  | .other => .error .notImplemented

/-- `itertools.groupby`: maximal runs of equal keys. External. -/
def groupby {α β : Type} [DecidableEq β] (key : α → β) : List α → List (β × List α)
  | [] => []
  | a :: l =>
    match groupby key l with
    | [] => [(key a, [a])]
    | (k, g) :: rest => if key a = k then (k, a :: g) :: rest else (key a, [a]) :: (k, g) :: rest

/-- circuits/_circuit.py:173-193 `split_circuit` (all yielded items). -/
def splitCircuit {β : Type} [DecidableEq β] (c : Circuit) (predicate : GateOp → β) : Except Err (List (β × Circuit)) :=
  (groupby predicate c.ops).mapM fun kg => (Circuit.make kg.2 (some (c.n : ℚ))).map fun d => (kg.1, d)

/-- Applying the operations of a circuit to a state one by one (as simulators do). -/
noncomputable def applyAll (ρ : String → ℂ) : List GateOp → Vec ℂ → Except Err (Vec ℂ)
  | [], v => .ok v
  | op :: ops, v => do
    let w ← op.apply ρ v
    applyAll ρ ops w

end ZQ.Circuits
