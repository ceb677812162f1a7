import Verif.Model.SymOp
import Verif.Model.Matrices

/-!
# Evaluating operators from expectation values

Model of `evaluate_qubit_operator` and `evaluate_qubit_operator_list` in `openfermion/zapata_utils/_utils.py`.  Numbers are exact.
-/

namespace ZQ.Evaluate

open ZQ ZQ.Op

/-- _utils.py:227-231 and 257-262, one turn of the loop: the running total and the running index; numpy raises `IndexError` past the end. -/
noncomputable def evaluateStep (vals : List ℂ) (s : ℝ × ℕ) (kv : Term Letter × ℂ) : Except Err (ℝ × ℕ) :=
  match vals[s.2]? with
  | none => .error .indexError
  | some v => .ok (s.1 + (kv.2 * v).re, s.2 + 1)

/-- _utils.py:207-234 `evaluate_qubit_operator`; the value of the returned estimate (its precision is `None`). -/
noncomputable def evaluateQubitOperator (o : Terms Letter) (vals : List ℂ) : Except Err ℝ := do
  let s ← o.foldlM (evaluateStep vals) (0, 0)
  .ok s.1

/-- _utils.py:237-265 `evaluate_qubit_operator_list`. -/
noncomputable def evaluateQubitOperatorList (os : List (Terms Letter)) (vals : List ℂ) : Except Err ℝ := do
  let s ← os.foldlM (fun s o => o.foldlM (evaluateStep vals) s) (0, 0)
  .ok s.1

end ZQ.Evaluate
