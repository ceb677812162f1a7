import Verif.Model.Fermion
import Mathlib.LinearAlgebra.Matrix.Notation
import Mathlib.LinearAlgebra.Matrix.Trace

/-!
# Workflow steps that build operators

Model of `steps/operators.py`.  Loading the arguments from files and saving the result (`load_qubit_operator`, `save_qubit_operator`, ...) are modelled
elsewhere; here the steps are functions from the loaded operators to the operator that is saved.
-/

namespace ZQ.OpSteps

open ZQ ZQ.Op

/-- steps/operators.py:41-46 `get_local_zero_state_operator`; `IsingOperator("")` is the identity. -/
noncomputable def localZero (n : ℕ) : Terms Letter :=
  (List.range n).foldl (fun o q => sub o (ofTerm ising [(q, .Z)] (1 / (n : ℂ)))) (ofTerm ising [] 1)

/-- steps/operators.py:82-109 `interpolate_qubit_operators`; `reference` and `target` are the loaded operators. -/
noncomputable def interpolate (reference target : Terms Letter) (ε : ℝ) : Except Err (Terms Letter) :=
  if 1 < ε ∨ ε < 0 then .error .valueError
  else .ok (add (smul target (ε : ℂ)) (smul reference ((1 - ε : ℝ) : ℂ)))

/-- steps/operators.py:139-148: the constant `normal_ordered(FermionOperator(l) * h * FermionOperator(r)).terms[()]`. -/
noncomputable def constantOf (l : Term Bool) (h : Terms Bool) (r : Term Bool) : Except Err ℂ :=
  match PyDict.get? (normalOrdered (mul fermion (mul fermion (ofTerm fermion l 1) h) (ofTerm fermion r 1))) [] with
  | some c => .ok c
  | none => .error .keyError

/-- steps/operators.py:154-168: the expansion of a 2 × 2 matrix in Pauli matrices. -/
noncomputable def expand (m : Matrix (Fin 2) (Fin 2) ℂ) : Terms Letter :=
  let px : Matrix (Fin 2) (Fin 2) ℂ := !![0, 1; 1, 0]
  let py : Matrix (Fin 2) (Fin 2) ℂ := !![0, -Complex.I; Complex.I, 0]
  let pz : Matrix (Fin 2) (Fin 2) ℂ := !![1, 0; 0, -1]
  let rid := 1 / 2 * m.trace
  let rx := 1 / 2 * (m * px).trace
  let ry := 1 / 2 * (m * py).trace
  let rz := 1 / 2 * (m * pz).trace
  add (add (add (smul (ofTerm qubit [] 1) rid) (smul (ofTerm qubit [(0, .X)] 1) rx)) (smul (ofTerm qubit [(0, .Y)] 1) ry)) (smul (ofTerm qubit [(0, .Z)] 1) rz)

/-- steps/operators.py:121-170 `get_one_qubit_hydrogen_hamiltonian`; `h` is `get_fermion_operator(interaction_operator)`. `False` in a factor is annihilation. -/
noncomputable def oneQubit (h : Terms Bool) : Except Err (Terms Letter) := do
  let h00 ← constantOf [(0, false), (1, false)] h [(1, true), (0, true)]
  let h11 ← constantOf [(2, false), (3, false)] h [(3, true), (2, true)]
  let h10 ← constantOf [(2, false), (3, false)] h [(1, true), (0, true)]
  let h01 := (starRingEnd ℂ) h10
  .ok (expand !![h00, h01; h10, h11])

end ZQ.OpSteps
