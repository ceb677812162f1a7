import Verif.Model.PyDict
import Verif.Model.Matrices
import Mathlib.Analysis.Complex.Basic
import Mathlib.Data.List.Sort

/-!
# Symbolic operators

Model of `openfermion/ops/operators/symbolic_operator.py` and its subclasses.  Coefficients are complex numbers (floats
idealised; symbolic coefficients are not modelled).  An operator object is its `terms` dictionary; in-place operations return the new dictionary.
-/

namespace ZQ.Op

open ZQ

/-- A term: product of factors `(index, action)`. -/
abbrev Term (A : Type) := List (ℕ × A)

/-- `op.terms`. -/
abbrev Terms (A : Type) := PyDict (Term A) ℂ

/-- The class-specific part: `_simplify(term, coefficient)`. -/
structure OpClass (A : Type) where
  /-- `_simplify` -/
  simplify : Term A → ℂ → ℂ × Term A

/-- `EQ_TOLERANCE` of openfermion/config.py. -/
noncomputable def eqTol : ℝ := 1 / 10 ^ 8

/-- symbolic_operator.py:70-85 `_issmall` for numbers. -/
def IsSmall (z : ℂ) (tol : ℝ) : Prop := ‖z‖ < tol

noncomputable instance (z : ℂ) (tol : ℝ) : Decidable (IsSmall z tol) := inferInstanceAs (Decidable (‖z‖ < tol))

variable {A : Type} [DecidableEq A]

/-- `self.terms.get(term, 0.0)`. -/
noncomputable def coeff (o : Terms A) (t : Term A) : ℂ := (PyDict.get? o t).getD 0

/-- symbolic_operator.py:124-156 `__init__` on a validated sequence of factors. -/
def ofTerm (S : OpClass A) (t : Term A) (c : ℂ) : Terms A := [((S.simplify t c).2, (S.simplify t c).1)]

/-- symbolic_operator.py:371-374 `*=` with a scalar. -/
def smul (o : Terms A) (c : ℂ) : Terms A := o.map fun kv => (kv.1, kv.2 * c)

/-- symbolic_operator.py:394-398: add to the entry or create it. -/
noncomputable def accum (res : Terms A) (t : Term A) (c : ℂ) : Terms A :=
  PyDict.set res t (match PyDict.get? res t with | some v => v + c | none => c)

/-- symbolic_operator.py:379-398, the inner loop of `*=` for one left term. -/
noncomputable def mulRow (S : OpClass A) (l : Term A × ℂ) (b : Terms A) (res : Terms A) : Terms A :=
  b.foldl (fun res r => accum res (S.simplify (l.1 ++ r.1) (l.2 * r.2)).2 (S.simplify (l.1 ++ r.1) (l.2 * r.2)).1) res

/-- symbolic_operator.py:377-400 `*=` with an operator; `__mul__` (406-425) is the same on a copy. -/
noncomputable def mul (S : OpClass A) (a b : Terms A) : Terms A := a.foldl (fun res l => mulRow S l b res) []

/-- symbolic_operator.py:441-443, one step of `+=`. -/
noncomputable def addStep (a : Terms A) (kv : Term A × ℂ) : Terms A :=
  let s := coeff a kv.1 + kv.2
  if IsSmall s eqTol then PyDict.del (PyDict.set a kv.1 s) kv.1 else PyDict.set a kv.1 s

/-- symbolic_operator.py:427-450 `+=` with an operator that is a different object; `__add__` (452-462) is the same on a copy. -/
noncomputable def add (a b : Terms A) : Terms A := b.foldl addStep a

/-- symbolic_operator.py:487-489, one step of `-=`. -/
noncomputable def subStep (a : Terms A) (kv : Term A × ℂ) : Terms A :=
  let s := coeff a kv.1 - kv.2
  if IsSmall s eqTol then PyDict.del (PyDict.set a kv.1 s) kv.1 else PyDict.set a kv.1 s

/-- symbolic_operator.py:474-496 `-=` with an operator that is a different object; `__sub__` (498-508) is the same on a copy. -/
noncomputable def sub (a b : Terms A) : Terms A := b.foldl subStep a

/-- symbolic_operator.py:444-445: `op += scalar`. -/
noncomputable def addScalar (a : Terms A) (c : ℂ) : Terms A := PyDict.set a [] (coeff a [] + c)

/-- symbolic_operator.py:439-443 (`sign = 1`) and 486-490 (`sign = -1`) when both operands are the same object: the loop runs over the keys of
the dictionary it changes; CPython raises `RuntimeError` when the iterator is advanced after the size has changed. -/
noncomputable def inplaceSelfLoop (sign : ℂ) : List (Term A) → Terms A → Except Err (Terms A)
  | [], d => .ok d
  | t :: ts, d =>
    let s := coeff d t + sign * coeff d t
    if IsSmall s eqTol then .error .runtimeError else inplaceSelfLoop sign ts (PyDict.set d t s)

/-- `op += op` (same object). -/
noncomputable def iaddSelf (a : Terms A) : Except Err (Terms A) := inplaceSelfLoop 1 (PyDict.keys a) a

/-- `op -= op` (same object). -/
noncomputable def isubSelf (a : Terms A) : Except Err (Terms A) := inplaceSelfLoop (-1) (PyDict.keys a) a

/-- symbolic_operator.py:578-583 `__neg__`. -/
def neg (a : Terms A) : Terms A := smul a (-1)

/-- symbolic_operator.py:510-518 `__rsub__`: `x - op = -1 * op + x`. -/
noncomputable def rsub (a b : Terms A) : Terms A := add (neg a) b

/-- symbolic_operator.py:543-562 `__truediv__`: division by a scalar. -/
noncomputable def div (a : Terms A) (c : ℂ) : Except Err (Terms A) := if c = 0 then .error .zeroDivision else .ok (smul a (1 / c))

/-- symbolic_operator.py:585-612 `__pow__`; a negative or non-integer exponent raises `ValueError`. -/
noncomputable def pow (S : OpClass A) (a : Terms A) (n : ℕ) : Terms A :=
  (List.range n).foldl (fun acc _ => mul S acc a) (ofTerm S [] 1)

/-- symbolic_operator.py:629-658 `isclose`, one term present in both: the tolerance is multiplied and the terms compared. -/
noncomputable def iscloseLoop (a b : Terms A) : List (Term A) → ℝ → Option ℝ
  | [], tol => some tol
  | t :: ts, tol =>
    let tol := tol * max 1 (max ‖coeff a t‖ ‖coeff b t‖)
    if IsSmall (coeff a t - coeff b t) tol then iscloseLoop a b ts tol else none

/-- symbolic_operator.py:629-658 `isclose`; `common` is the iteration order of the set of common terms (unspecified in Python). -/
noncomputable def isclose (a b : Terms A) (common : List (Term A)) (tol : ℝ := eqTol) : Bool :=
  match iscloseLoop a b common tol with
  | none => false
  | some tol =>
    (a.all fun kv => decide (kv.1 ∈ PyDict.keys b ∨ IsSmall kv.2 tol)) &&
    (b.all fun kv => decide (kv.1 ∈ PyDict.keys a ∨ IsSmall kv.2 tol))

/-- symbolic_operator.py:681-689, cleaning of one numeric coefficient. -/
noncomputable def cleanCoeff (tol : ℝ) (c : ℂ) : ℂ :=
  let c := if |c.im| ≤ tol then (c.re : ℂ) else c
  if |c.re| ≤ tol then Complex.I * (c.im : ℂ) else c

/-- symbolic_operator.py:660-691 `compress` (numeric coefficients). -/
noncomputable def compress (a : Terms A) (tol : ℝ := eqTol) : Terms A :=
  (a.map fun kv => (kv.1, cleanCoeff tol kv.2)).filter fun kv => decide (tol < ‖kv.2‖)

/-- symbolic_operator.py:711-728 `many_body_order`: `max` of an empty sequence raises `ValueError`. -/
noncomputable def manyBodyOrder (a : Terms A) : Except Err ℕ :=
  if a = [] then .ok 0
  else match (a.filter fun kv => decide (¬ IsSmall kv.2 eqTol)).map (fun kv => kv.1.length) with
    | [] => .error .valueError
    | x :: xs => .ok (xs.foldl max x)

/-- symbolic_operator.py:731-736 `accumulate`. -/
noncomputable def accumulate (ops : List (Terms A)) : Terms A := ops.foldl add []

/-- symbolic_operator.py:738-745 `get_operators`. -/
def getOperators (S : OpClass A) (a : Terms A) : List (Terms A) := a.map fun kv => ofTerm S kv.1 kv.2

/-- symbolic_operator.py:762-767: successive `islice`s of one iterator; the `i`-th takes `len(range(i, n, k))` items. -/
noncomputable def groupsLoop (n k : ℕ) : List ℕ → List (Terms A) → List (Terms A)
  | [], _ => []
  | i :: is, ops => accumulate (ops.take ((n - i + k - 1) / k)) :: groupsLoop n k is (ops.drop ((n - i + k - 1) / k))

/-- symbolic_operator.py:747-767 `get_operator_groups`. -/
noncomputable def getOperatorGroups (S : OpClass A) (a : Terms A) (numGroups : ℤ) : List (Terms A) :=
  let k := min (if numGroups < 1 then 1 else numGroups.toNat) a.length
  groupsLoop a.length k (List.range k) (getOperators S a)

/-! ### Qubit operators -/

/-- Letters of Pauli strings; `I` occurs only inside `_simplify`. -/
inductive Letter | I | X | Y | Z
  deriving DecidableEq

/-- qubit_operator.py:21-38 `_PAULI_OPERATOR_PRODUCTS`. -/
def pauliProduct : Letter → Letter → ℂ × Letter
  | .I, b => (1, b)
  | .X, .I => (1, .X)
  | .Y, .I => (1, .Y)
  | .Z, .I => (1, .Z)
  | .X, .X => (1, .I)
  | .Y, .Y => (1, .I)
  | .Z, .Z => (1, .I)
  | .X, .Y => (Complex.I, .Z)
  | .X, .Z => (-Complex.I, .Y)
  | .Y, .X => (-Complex.I, .Z)
  | .Y, .Z => (Complex.I, .X)
  | .Z, .X => (Complex.I, .Y)
  | .Z, .Y => (-Complex.I, .X)

/-- qubit_operator.py:125-149, the loop of `_simplify` over the sorted factors: `left` is the factor being built, `acc` the finished ones. -/
def simplifyLoop : (ℕ × Letter) → Term Letter → ℂ → Term Letter → ℂ × Term Letter
  | left, [], c, acc => (c, if left.2 ≠ .I then acc ++ [left] else acc)
  | left, right :: rest, c, acc =>
    if left.1 = right.1 then
      simplifyLoop (left.1, (pauliProduct left.2 right.2).2) rest (c * (pauliProduct left.2 right.2).1) acc
    else
      simplifyLoop right rest c (if left.2 ≠ .I then acc ++ [left] else acc)

/-- `sorted(term, key=lambda factor: factor[0])`: stable sort by index. -/
def sortByIndex {A : Type} (t : Term A) : Term A := t.insertionSort (fun a b => a.1 ≤ b.1)

/-- qubit_operator.py:118-149 `QubitOperator._simplify`. -/
def qubitSimplify (t : Term Letter) (c : ℂ) : ℂ × Term Letter :=
  match sortByIndex t with
  | [] => (c, [])
  | f :: rest => simplifyLoop f rest c []

/-- `QubitOperator`. -/
def qubit : OpClass Letter := ⟨qubitSimplify⟩

/-- symbolic_operator.py:198-216 `_validate_factor` for qubit operators (indices are natural numbers here): the letter must be X, Y or Z. -/
def qubitOf (t : Term Letter) (c : ℂ) : Except Err (Terms Letter) :=
  if ∀ f ∈ t, f.2 ≠ .I then .ok (ofTerm qubit t c) else .error .valueError

/-! ### Ising operators -/

/-- ising_operator.py:58-64 `_simplify`. -/
def isingSimplify (t : Term Letter) (c : ℂ) : ℂ × Term Letter :=
  (c, ((((PyDict.counter (t.map Prod.fst)).filter fun kv => kv.2 % 2 = 1).map Prod.fst).insertionSort (· ≤ ·)).map fun i => (i, .Z))

/-- `IsingOperator`. -/
def ising : OpClass Letter := ⟨isingSimplify⟩

/-- symbolic_operator.py:198-216 `_validate_factor` for Ising operators: the letter must be Z. -/
def isingOf (t : Term Letter) (c : ℂ) : Except Err (Terms Letter) :=
  if ∀ f ∈ t, f.2 = .Z then .ok (ofTerm ising t c) else .error .valueError

/-! ### Fermion operators -/

/-- fermion_operator.py and symbolic_operator.py:218-222: `different_indices_commute` is false, the term is kept. The action is `true` for
creation (`1`). -/
def fermion : OpClass Bool := ⟨fun t c => (c, t)⟩

end ZQ.Op
