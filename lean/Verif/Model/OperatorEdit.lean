import Verif.Model.Workflow
import Verif.Model.Inactive
import Verif.Model.FermionTools

/-!
# Model: steps that rewrite operators in files

`reorder_fermionic_modes` of `hamiltonian.py`, and the steps `reorder_fermionic_modes`, `get_diagonal_component`, `get_fermion_number_operator`,
`remove_inactive_orbitals`, `create_one_qubit_operator` and `concatenate_qubit_operator_lists` of `steps/operators.py`, which read and write files
(`Model/Files.lean`).  What is in the files after an exception is not modelled.  The Python types of numbers and arrays (which decide whether imaginary parts are
written) are a parameter.
-/

namespace ZQ.OperatorEdit

open ZQ ZQ.Op ZQ.PolyT ZQ.Files ZQ.ArraySerde ZQ.Workflow

/-- numpy: an index of an axis of length `n`; negative indices count from the end. -/
def axisIndex (n : ℕ) (i : ℤ) : Except Err ℕ :=
  if 0 ≤ i ∧ i < n then .ok i.toNat
  else if -(n : ℤ) ≤ i ∧ i < 0 then .ok (n + i).toNat
  else .error .indexError

/-- hamiltonian.py:323-324 and 327-330: an array of shape `(n, ..., n)` indexed with a list along each of its axes. -/
def chosen (l : List ℕ) (t : Tensor) : Tensor := fun idx => t (idx.map fun i => l.getD i 0)

/-- hamiltonian.py:305-336 `reorder_fermionic_modes` of the interaction operator with `n` orbitals, constant `c` and the given tensors; the ordering is a list of
integers.  Each axis is indexed with the same list, so that the first of them decides about an `IndexError`; the number of orbitals of the result is the length of
the list. -/
def reorderModes (n : ℕ) (c : ℂ) (one two : Tensor) (ordering : List ℤ) : Except Err PolyTensor := do
  let l ← ordering.mapM (axisIndex n)
  .ok (interaction l.length c (chosen l one) (chosen l two))

/-- zapata_utils/_io.py:20-33 `convert_interaction_op_to_dict`: what is saved of an interaction operator; `types` are the Python types of its constant and its arrays
(whether they are complex), by their entries. -/
def interactionArtefact (types : List ℂ → Bool) (T : PolyTensor) : Artefact :=
  let c := ((PyDict.get? T.tensors []).getD fun _ => 0) []
  let one := (PyDict.get? T.tensors [true, false]).getD fun _ => 0
  let two := (PyDict.get? T.tensors [true, true, false, false]).getD fun _ => 0
  .interaction ⟨c, types [c], arrayFrom T.n 2 one (types ((allIndices T.n 2).map one)), arrayFrom T.n 4 two (types ((allIndices T.n 4).map two))⟩

/-- steps/operators.py:111-118 `reorder_fermionic_modes`; the operator is always loaded from a file. -/
noncomputable def reorderStep (types : List ℂ → Bool) (p : Results.Str) (ordering : List ℤ) (fs : FS) : Except FErr FS := do
  let x ← theInteraction fs (.file p)
  match x with
  | .interaction n c one two => do
    let T ← lift (reorderModes n c one two ordering)
    save fs "reordered-operator.json" (interactionArtefact types T)
  | _ => .error .attributeError

/-- zapata_utils/_utils.py:363-371 `get_diagonal_component` of interaction operators; polynomial tensors of other classes are `Model/PolyTensor.lean` `diagonalPoly`, and
everything else is refused. -/
def diagonalAny : Operand → Except Err (PolyTensor × PolyTensor)
  | .interaction n c one two => .ok (diagonalInteraction n c one two)
  | _ => .error .typeError

/-- steps/operators.py:64-79 `get_diagonal_component`. -/
noncomputable def diagonalStep (types : List ℂ → Bool) (x : Operand) (fs : FS) : Except FErr FS := do
  let x ← theInteraction fs x
  let DR ← lift (diagonalAny x)
  let fs1 ← save fs "diagonal-operator.json" (interactionArtefact types DR.1)
  save fs1 "remainder-operator.json" (interactionArtefact types DR.2)

/-- steps/operators.py:48-61 `get_fermion_number_operator`. -/
noncomputable def numberStep (types : List ℂ → Bool) (n : ℕ) (particles : Option ℤ) (fs : FS) : Except FErr FS := do
  let T ← lift (FTools.fermionNumberOperator n particles)
  save fs "number-operator.json" (interactionArtefact types T)

/-- steps/operators.py:172-184 `remove_inactive_orbitals`; `same` is Python's `is` on integers.  The number of core orbitals that is handed over is `None` unless it is
given, and `2 * None` is a `TypeError` (zapata_utils/_utils.py:636), after the conversion to a fermion operator. -/
noncomputable def inactiveStep (types : List ℂ → Bool) (same : ℕ → ℕ → Bool) (p : Results.Str) (nActive nCore : Option ℕ) (fs : FS) : Except FErr FS := do
  let x ← theInteraction fs (.file p)
  match x with
  | .interaction n c one two => do
    let T ← lift (match nCore with
      | some k => Inactive.removeInactive same n c one two nActive k
      | none => do
        let _ ← toFermion (interaction n c one two)
        .error .typeError)
    save fs "frozen-operator.json" (interactionArtefact types T)
  | _ => .error .attributeError

/-- steps/operators.py:187-197: the operator of `create_one_qubit_operator`. -/
noncomputable def oneQubitOperator (x y z c : ℝ) : Terms Letter :=
  add (add (add (smul [([(0, .X)], 1)] x) (smul [([(0, .Y)], 1)] y)) (smul [([(0, .Z)], 1)] z)) (smul [([], 1)] c)

/-- steps/operators.py:187-197 `create_one_qubit_operator`; the coefficients are real numbers. -/
noncomputable def oneQubitStep (x y z c : ℝ) (fs : FS) : Except FErr FS :=
  save fs "qubit_operator.json" (.qubitOp (fun _ => false) (oneQubitOperator x y z c))

/-- What the step for lists of operators is given: the name of a file or a list. -/
inductive OpsOperand
  | file (p : Results.Str)
  | list (os : List (Terms Letter))

/-- steps/operators.py:216-223: files are loaded. -/
noncomputable def theOperators (fs : FS) : OpsOperand → Except FErr (List (Terms Letter))
  | .file p => loadQubitOps fs (.str p)
  | .list os => .ok os

/-- steps/operators.py:212-231 `concatenate_qubit_operator_lists`. -/
noncomputable def concatStep (types : Terms Letter → Term Letter → Bool) (a b : OpsOperand) (fs : FS) : Except FErr FS := do
  let as ← theOperators fs a
  let bs ← theOperators fs b
  save fs "concatenated-qubit-operators.json" (.qubitOps ((as ++ bs).map fun g => (types g, g)))

end ZQ.OperatorEdit
