import Verif.Model.ReverseJW
import Verif.Model.Matrices
import Mathlib.Data.List.Sort
import Mathlib.LinearAlgebra.Matrix.Defs

/-!
# Polynomial tensors and interaction operators

Model of `openfermion/ops/representations/polynomial_tensor.py`, `interaction_operator.py`, `transforms/repconversions/conversions.py`,
`transforms/opconversions/conversions.py` and the conversions in `zapata_utils/_utils.py`.

A tensor of shape `(n,) * d` is a function of index lists; only lists of length `d` with entries below `n` are meaningful.  A key such as `(1, 0)` is
the list `[true, false]`.  The constant is a tensor with no index.  Simplification: all arrays of one object have the same dimension `n` (the code
reads it from the first array and checks nothing else); arrays hold exact complex numbers; arrays are values (in-place updates through shared arrays are
modelled in `Model/TensorHeap.lean`).
-/

namespace ZQ.PolyT

open ZQ ZQ.Op

abbrev Tensor := List ℕ → ℂ
abbrev Key := List Bool

/-- polynomial_tensor.py:99-126: an object with its `n_qubits` and `n_body_tensors`. -/
structure PolyTensor where
  n : ℕ
  tensors : PyDict Key Tensor

/-- `itertools.product(range(n), repeat=d)`.  External library. -/
def allIndices (n : ℕ) : ℕ → List (List ℕ)
  | 0 => [[]]
  | d + 1 => (List.range n).flatMap fun i => (allIndices n d).map (i :: ·)

/-- polynomial_tensor.py:128-147 `__init__`: the dimension is read from the first key that is not `()`; if there is none, `next` raises
`StopIteration` (modelled by `runtimeError`). -/
def make (n : ℕ) (d : PyDict Key Tensor) : Except Err PolyTensor :=
  if d.all (fun kv => decide (kv.1 = [])) then .error .runtimeError else .ok ⟨n, d⟩

/-- polynomial_tensor.py:149-152 `constant`. -/
noncomputable def constant (T : PolyTensor) : ℂ := ((PyDict.get? T.tensors []).map fun t => t []).getD 0

/-- polynomial_tensor.py:154-157, setter of `constant`. -/
def setConstant (T : PolyTensor) (c : ℂ) : PolyTensor := ⟨T.n, PyDict.set T.tensors [] fun _ => c⟩

/-- polynomial_tensor.py:171-185 `__getitem__`. -/
def getItem (T : PolyTensor) (args : Term Bool) : Except Err ℂ :=
  match PyDict.get? T.tensors (args.map Prod.snd) with
  | none => .error .keyError
  | some t => if (args.map Prod.fst).all (fun i => decide (i < T.n)) then .ok (t (args.map Prod.fst)) else .error .indexError

/-- `array[index] = value`. -/
def assign (t : Tensor) (idx : List ℕ) (c : ℂ) : Tensor := fun j => if j = idx then c else t j

/-- polynomial_tensor.py:187-198 `__setitem__`. -/
def setItem (T : PolyTensor) (args : Term Bool) (c : ℂ) : Except Err PolyTensor :=
  if args = [] then .ok (setConstant T c)
  else match PyDict.get? T.tensors (args.map Prod.snd) with
    | none => .error .keyError
    | some t =>
      if (args.map Prod.fst).all (fun i => decide (i < T.n)) then
        .ok ⟨T.n, PyDict.set T.tensors (args.map Prod.snd) (assign t (args.map Prod.fst) c)⟩
      else .error .indexError

/-- `numpy.amax(numpy.absolute(t))`; the maximum of an empty array raises `ValueError`. -/
noncomputable def amaxAbs (n d : ℕ) (t : Tensor) : Except Err ℝ :=
  match (allIndices n d).map fun i => ‖t i‖ with
  | [] => .error .valueError
  | x :: xs => .ok (xs.foldl max x)

/-- polynomial_tensor.py:209-217: the discrepancy of one key. -/
noncomputable def discrepancy (n : ℕ) (T U : PolyTensor) (key : Key) : Except Err ℝ :=
  match PyDict.get? T.tensors key, PyDict.get? U.tensors key with
  | some t, some u => amaxAbs n key.length fun i => t i - u i
  | some t, none => amaxAbs n key.length t
  | none, some u => amaxAbs n key.length u
  | none, none => .error .typeError

/-- polynomial_tensor.py:200-221 `__eq__`; `order` is the iteration order of the union of the two key sets. -/
noncomputable def eq (T U : PolyTensor) (order : List Key) : Except Err Bool :=
  if T.n ≠ U.n then .ok false
  else do
    let diff ← order.foldlM (fun (diff : ℝ) key => do
      let x ← discrepancy T.n T U key
      .ok (max diff x)) 0
    .ok (decide (diff < eqTol))

/-- polynomial_tensor.py:235-241, one turn of the loop of `__iadd__`. -/
def iaddStep (d : PyDict Key Tensor) (kv : Key × Tensor) : PyDict Key Tensor :=
  match PyDict.get? d kv.1 with
  | some t => PyDict.set d kv.1 fun i => t i + kv.2 i
  | none => PyDict.set d kv.1 kv.2

/-- polynomial_tensor.py:226-243 `__iadd__` with a tensor (`__add__`, 245-248, is the same on a copy). -/
def iadd (T U : PolyTensor) : Except Err PolyTensor :=
  if T.n ≠ U.n then .error .typeError else .ok ⟨T.n, U.tensors.foldl iaddStep T.tensors⟩

/-- polynomial_tensor.py:228-230: `+= number`. -/
noncomputable def iaddScalar (T : PolyTensor) (c : ℂ) : PolyTensor := setConstant T (constant T + c)

/-- polynomial_tensor.py:253-257 `with_function_applied_elementwise`. -/
def mapTensors (T : PolyTensor) (f : ℂ → ℂ) : PyDict Key Tensor := T.tensors.map fun kv => (kv.1, fun i => f (kv.2 i))

/-- polynomial_tensor.py:259-260 `__neg__`. -/
def neg (T : PolyTensor) : Except Err PolyTensor := make T.n (mapTensors T fun x => -x)

/-- polynomial_tensor.py:277-283, one turn of the loop of `__isub__`. -/
def isubStep (d : PyDict Key Tensor) (kv : Key × Tensor) : PyDict Key Tensor :=
  match PyDict.get? d kv.1 with
  | some t => PyDict.set d kv.1 fun i => t i - kv.2 i
  | none => PyDict.set d kv.1 kv.2

/-- polynomial_tensor.py:265-285 `__isub__` with a tensor (`__sub__`, 287-290, is the same on a copy). -/
def isub (T U : PolyTensor) : Except Err PolyTensor :=
  if T.n ≠ U.n then .error .typeError else .ok ⟨T.n, U.tensors.foldl isubStep T.tensors⟩

/-- polynomial_tensor.py:267-269: `-= number`. -/
noncomputable def isubScalar (T : PolyTensor) (c : ℂ) : PolyTensor := setConstant T (constant T - c)

/-- polynomial_tensor.py:295-298: `*= number`. -/
def imulScalar (T : PolyTensor) (c : ℂ) : PolyTensor := ⟨T.n, T.tensors.map fun kv => (kv.1, fun i => kv.2 i * c)⟩

/-- polynomial_tensor.py:303-314: the new array for one key. -/
def mulEntry (U : PolyTensor) (key : Key) (t : Tensor) : Tensor :=
  match PyDict.get? U.tensors key with
  | some u => fun i => t i * u i
  | none => fun _ => 0

/-- polynomial_tensor.py:300-314: `*= tensor`, element by element. -/
def imulTensor (T U : PolyTensor) : Except Err PolyTensor :=
  if T.n ≠ U.n then .error .typeError else .ok ⟨T.n, T.tensors.map fun kv => (kv.1, mulEntry U kv.1 kv.2)⟩

/-- polynomial_tensor.py:292-293 `__rsub__`: `number - tensor`. -/
noncomputable def rsubScalar (T : PolyTensor) (c : ℂ) : PolyTensor := iaddScalar (imulScalar T (-1)) c

/-- polynomial_tensor.py:330-337: `/= number` for a number different from zero (for zero, numpy arrays are filled with infinities and NaNs). -/
noncomputable def idivScalar (T : PolyTensor) (c : ℂ) : Except Err PolyTensor :=
  if c = 0 then .error .zeroDivision else .ok ⟨T.n, T.tensors.map fun kv => (kv.1, fun i => kv.2 i / c)⟩

/-- polynomial_tensor.py:347-355 `sort_key`: the digits of the key read as a decimal number. -/
def keyInt (k : Key) : ℕ := k.foldl (fun a b => 10 * a + b.toNat) 0

/-- Order of the keys in iteration: by length, then by `keyInt`. -/
def keyLe (a b : Key) : Bool := decide (a.length < b.length ∨ (a.length = b.length ∧ keyInt a ≤ keyInt b))

/-- polynomial_tensor.py:357-365, the loop of `__iter__`. -/
noncomputable def iter (T : PolyTensor) : List (Term Bool) :=
  ((PyDict.keys T.tensors).insertionSort fun a b => keyLe a b = true).flatMap fun key =>
    if key = [] then [[]]
    else match PyDict.get? T.tensors key with
      | none => []
      | some t => ((allIndices T.n key.length).filter fun i => decide (t i ≠ 0)).map fun i => i.zip key

/-- transforms/opconversions/conversions.py:53-57 `_polynomial_tensor_to_fermion_operator`. -/
noncomputable def toFermion (T : PolyTensor) : Except Err (Terms Bool) :=
  (iter T).foldlM (fun (acc : Terms Bool) term => do
    let c ← getItem T term
    .ok (add acc (ofTerm fermion term c))) []

/-- _utils.py:508-521, one turn of the loop of `get_polynomial_tensor`. -/
noncomputable def scatter (d : PyDict Key Tensor) (kv : Term Bool × ℂ) : PyDict Key Tensor :=
  if kv.1 = [] then PyDict.set d [] fun _ => kv.2
  else
    let key := kv.1.map Prod.snd
    let t := (PyDict.get? d key).getD fun _ => 0
    PyDict.set d key (assign t (kv.1.map Prod.fst) kv.2)

/-- _utils.py:482-523 `get_polynomial_tensor`. -/
noncomputable def getPolynomialTensor (o : Terms Bool) (nQubits : Option ℕ) : Except Err PolyTensor :=
  let n := nQubits.getD (countFermion o)
  if n < countFermion o then .error .valueError
  else make n ((normalOrdered o).foldl scatter [])

/-- interaction_operator.py:56-78 `InteractionOperator`. -/
def interaction (n : ℕ) (c : ℂ) (one two : Tensor) : PolyTensor :=
  ⟨n, [([], fun _ => c), ([true, false], one), ([true, true, false, false], two)]⟩

/-- The constant, the one-body and the two-body tensor. -/
structure Integrals where
  constant : ℂ
  one : Tensor
  two : Tensor

/-- repconversions/conversions.py:69-108, one turn of the loop; `InteractionOperatorError` is modelled by `runtimeError`. -/
noncomputable def interactionStep (s : Integrals) (kv : Term Bool × ℂ) : Except Err Integrals :=
  if ‖kv.2‖ < eqTol then .ok s
  else if kv.1.length = 0 then .ok { s with constant := kv.2 }
  else if kv.1.length = 2 then
    if kv.1.map Prod.snd = [true, false] then .ok { s with one := assign s.one (kv.1.map Prod.fst) kv.2 } else .error .runtimeError
  else if kv.1.length = 4 then
    if kv.1.map Prod.snd = [true, true, false, false] then .ok { s with two := assign s.two (kv.1.map Prod.fst) kv.2 } else .error .runtimeError
  else .error .runtimeError

/-- repconversions/conversions.py:34-112 `get_interaction_operator`. -/
noncomputable def getInteractionOperator (o : Terms Bool) (nQubits : Option ℕ) : Except Err PolyTensor :=
  let n := nQubits.getD (countFermion o)
  if n < countFermion o then .error .valueError
  else do
    let s ← (normalOrdered o).foldlM interactionStep ⟨0, fun _ => 0, fun _ => 0⟩
    .ok (interaction n s.constant s.one s.two)

/-- _utils.py:397-409: numbers of creation and annihilation operators per mode. -/
def counts (b : Bool) (key : Key) (idx : List ℕ) : PyDict ℕ ℕ := PyDict.counter (((idx.zip key).filter fun p => p.2 == b).map Prod.fst)

/-- _utils.py:411-421 `term_is_diagonal`. -/
def termIsDiagonal (key : Key) (idx : List ℕ) : Bool :=
  let cr := counts true key idx
  let an := counts false key idx
  (cr.all fun kv => decide (PyDict.get? an kv.1 = some kv.2)) && (an.all fun kv => decide (PyDict.get? cr kv.1 = some kv.2))

/-- _utils.py:373-433 `_get_diagonal_component_polynomial_tensor`.  The assignments for all index tuples are written as a function; entries of
`np.zeros` that are not assigned stay zero. -/
noncomputable def diagonalPoly (T : PolyTensor) : Except Err (PolyTensor × PolyTensor) := do
  let ks := T.tensors.filter fun kv => decide (kv.1 ≠ [])
  let d ← make T.n (([], fun _ => constant T) :: ks.map fun kv => (kv.1, fun i => if termIsDiagonal kv.1 i then kv.2 i else 0))
  let r ← make T.n (ks.map fun kv => (kv.1, fun i => if termIsDiagonal kv.1 i then 0 else kv.2 i))
  .ok (d, r)

/-- _utils.py:459-470, the body of the loops over `p` and `q` on the pair (diagonal, remainder) of two-body arrays. -/
def diagTwoStep (two : Tensor) (s : Tensor × Tensor) (i : List ℕ) : Tensor × Tensor :=
  let p := i.getD 0 0
  let q := i.getD 1 0
  let d := assign s.1 [p, q, p, q] (two [p, q, p, q])
  let d := assign d [p, q, q, p] (two [p, q, q, p])
  let r := assign s.2 [p, q, p, q] 0
  let r := assign r [p, q, q, p] 0
  (d, r)

/-- _utils.py:457-470, the loops over `p` and `q`. -/
def diagTwoLoop (n : ℕ) (two : Tensor) : Tensor × Tensor := (allIndices n 2).foldl (diagTwoStep two) (fun _ => 0, two)

/-- _utils.py:474-476, the loop over `p` on the pair of one-body arrays. -/
def diagOneLoop (n : ℕ) (one : Tensor) : Tensor × Tensor :=
  (List.range n).foldl (fun s p => (assign s.1 [p, p] (one [p, p]), assign s.2 [p, p] 0)) (fun _ => 0, one)

/-- _utils.py:436-478 `_get_diagonal_component_interaction_operator`. -/
def diagonalInteraction (n : ℕ) (c : ℂ) (one two : Tensor) : PolyTensor × PolyTensor :=
  (interaction n c (diagOneLoop n one).1 (diagTwoLoop n two).1, interaction n 0 (diagOneLoop n one).2 (diagTwoLoop n two).2)

end ZQ.PolyT
