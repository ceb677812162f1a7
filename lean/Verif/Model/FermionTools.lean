import Verif.Model.SymOp
import Verif.Model.Fermion
import Verif.Model.ReverseJW
import Verif.Model.PolyTensor
import Mathlib.Analysis.SpecialFunctions.Pow.Real
import Mathlib.Data.Finset.Sort

/-!
# Commutators, particle number and norms

Model of `openfermion/utils/commutators.py`, `FermionOperator.is_two_body_number_conserving`, `special_operators.number_operator`,
`SymbolicOperator.induced_norm`, `QubitOperator.renormalize` and `operator_utils.is_identity`.
-/

namespace ZQ.FTools

open ZQ ZQ.Op

/-- Operators by type. Not modelled here: matrices, for which the functions are the matrix formulas themselves. -/
inductive Operand
  | qubit (o : Terms Letter)
  | ising (o : Terms Letter)
  | fermion (o : Terms Bool)

/-- commutators.py:37-44 `commutator` of operators of one class. -/
noncomputable def commutator {A : Type} [DecidableEq A] (S : OpClass A) (a b : Terms A) : Terms A := sub (mul S a b) (mul S b a)

/-- commutators.py:59-66 `anticommutator` of operators of one class. -/
noncomputable def anticommutator {A : Type} [DecidableEq A] (S : OpClass A) (a b : Terms A) : Terms A := add (mul S a b) (mul S b a)

/-- commutators.py:24-44 `commutator`. -/
noncomputable def commutatorOf : Operand → Operand → Except Err Operand
  | .qubit a, .qubit b => .ok (.qubit (commutator qubit a b))
  | .ising a, .ising b => .ok (.ising (commutator ising a b))
  | .fermion a, .fermion b => .ok (.fermion (commutator fermion a b))
  | _, _ => .error .typeError

/-- commutators.py:46-66 `anticommutator`. -/
noncomputable def anticommutatorOf : Operand → Operand → Except Err Operand
  | .qubit a, .qubit b => .ok (.qubit (anticommutator qubit a b))
  | .ising a, .ising b => .ok (.ising (anticommutator ising a b))
  | .fermion a, .fermion b => .ok (.fermion (anticommutator fermion a b))
  | _, _ => .error .typeError

/-- `op.terms[list(op.terms)[0]]`. -/
def firstCoeff (o : Terms Bool) : Except Err ℂ :=
  match o with
  | [] => .error .indexError
  | kv :: _ => .ok kv.2

/-- commutators.py:92-112: the commutator of two hopping operators from the sets of their indices. `none` is the early return of zero. -/
noncomputable def hoppingCommutator (op2 op3 : Terms Bool) (indices2 indices3 : Finset ℕ) : Except Err (Option (Terms Bool)) :=
  match (indices2 ∩ indices3).sort (· ≤ ·) with
  | [i] =>
    match (indices2.erase i).sort (· ≤ ·), (indices3.erase i).sort (· ≤ ·) with
    | [p], [q] => do
      let c2 ← firstCoeff op2
      let c3 ← firstCoeff op3
      .ok (some (add (ofTerm fermion [(p, true), (q, false)] (c2 * c3)) (ofTerm fermion [(q, true), (p, false)] (-c2 * c3))))
    | _, _ => .error .valueError
  | _ => .ok none

/-- commutators.py:69-116 `double_commutator` of fermion operators; `hopping` holds the two index sets when both operators are declared hopping operators. -/
noncomputable def doubleCommutator (op1 op2 op3 : Terms Bool) (hopping : Option (Finset ℕ × Finset ℕ)) : Except Err (Terms Bool) :=
  match hopping with
  | none => .ok (normalOrdered (commutator fermion op1 (normalOrdered (commutator fermion op2 op3))))
  | some (i2, i3) => do
    match ← hoppingCommutator op2 op3 i2 i3 with
    | none => .ok []
    | some c => .ok (normalOrdered (commutator fermion op1 c))

/-- fermion_operator.py:123-127: `particles` and `spin` of a term. -/
def particles (t : Term Bool) : ℤ := (t.map fun f => if f.2 then (-1 : ℤ) else 1).sum

/-- fermion_operator.py:123-127, `spin`. -/
def spin (t : Term Bool) : ℤ := (t.map fun f => (-1 : ℤ) ^ (f.1 + if f.2 then 1 else 0)).sum

/-- fermion_operator.py:118-131, one round of the loop. -/
def conservingTerm (checkSpin : Bool) (t : Term Bool) : Bool :=
  if ¬ (t.length = 0 ∨ t.length = 2 ∨ t.length = 4) then false
  else if particles t ≠ 0 then false
  else if spin t ≠ 0 ∧ checkSpin then false
  else true

/-- fermion_operator.py:106-132 `is_two_body_number_conserving`. -/
def isTwoBodyNumberConserving (o : Terms Bool) (checkSpin : Bool) : Bool := (PyDict.keys o).all (conservingTerm checkSpin)

/-- special_operators.py:21-53 `number_operator`; parity 1 is refused because boson operators are not available. -/
noncomputable def specialNumberOperator (n : ℕ) (mode : Option ℕ) (c : ℂ) (parity : ℤ) : Except Err (Terms Bool) :=
  if parity = -1 then
    match mode with
    | none => .ok (numberOperator n c)
    | some m => .ok (numberMode m c)
  else .error .valueError

/-- zapata_utils/_utils.py:344-360 `get_fermion_number_operator`. -/
noncomputable def fermionNumberOperator (n : ℕ) (particles : Option ℤ) : Except Err ZQ.PolyT.PolyTensor :=
  let operator := numberOperator n 1
  let operator := match particles with
    | none => operator
    | some k => add operator (ofTerm fermion [] (-1 * (k : ℂ)))
  ZQ.PolyT.getInteractionOperator operator none

/-- symbolic_operator.py:693-709 `induced_norm`. -/
noncomputable def inducedNorm {A : Type} (o : Terms A) (order : ℝ) : ℝ := ((o.map fun kv => ‖kv.2‖ ^ order).sum) ^ (1 / order)

/-- qubit_operator.py:110-116 `renormalize`; `numpy.isclose(norm, 0.0)` is `norm ≤ 1e-8`. -/
noncomputable def renormalize {A : Type} (o : Terms A) : Except Err (Terms A) :=
  if inducedNorm o 2 ≤ 1 / 10 ^ 8 then .error .zeroDivision else .ok (smul o (1 / inducedNorm o 2 : ℝ))

/-- operator_utils.py:176-188 `is_identity` of a qubit or fermion operator. -/
def isIdentity {A : Type} [DecidableEq A] (o : Terms A) : Bool := PyDict.keys o = [[]]

end ZQ.FTools
