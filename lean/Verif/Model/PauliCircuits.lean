import Verif.Model.Generators
import Verif.Model.SymOp

/-!
# Circuits of Pauli strings

Model of `create_circuits_from_qubit_operator` (`openfermion/zapata_utils/_utils.py`).
-/

namespace ZQ.PauliCirc

open ZQ ZQ.Op ZQ.Circuits ZQ.Gates

/-- _utils.py:538: `term_gate_map`; the gates are circuits/_builtin_gates.py:35-37. A letter without an entry is a `KeyError`. -/
def letterGate : Letter → Except Err Gate
  | .X => .ok (.factory ⟨"X", .builtin fun _ => xMatrix, 1, true⟩ [])
  | .Y => .ok (.factory ⟨"Y", .builtin fun _ => yMatrix, 1, true⟩ [])
  | .Z => .ok (.factory ⟨"Z", .builtin fun _ => zMatrix, 1, true⟩ [])
  | .I => .error .keyError

/-- _utils.py:547-550: the loop over the factors of a term. -/
def factorLoop : Term Letter → Circuit → Except Err Circuit
  | [], c => .ok c
  | f :: t, c => do
    let g ← letterGate f.2
    let c' ← append c (.op ⟨g, [f.1]⟩)
    factorLoop t c'

/-- _utils.py:542-552: the circuit of one term. -/
def termCircuit (t : Term Letter) : Except Err Circuit := do
  let c ← Circuit.make [] none
  factorLoop t c

/-- _utils.py:527-554 `create_circuits_from_qubit_operator`. -/
def createCircuits (o : Terms Letter) : Except Err (List Circuit) := (PyDict.keys o).mapM termCircuit

end ZQ.PauliCirc
