import Verif.Model.ArraySerde

/-!
# Comparing results with `==`

Model of `ExpectationValues.__eq__` in `measurement.py` and of `ValueEstimate.__eq__` and `__ne__` in `utils.py`.  Comparing two dictionaries or
lists in Python takes an item to be equal to itself and otherwise asks for the truth value of `==`, so arrays are objects with an identity here.
Numbers are exact and there is no nan.
-/

namespace ZQ.ResultEq

open ZQ ZQ.ArraySerde

/-- The exceptions. -/
inductive EqErr
  | valueError | attributeError
deriving DecidableEq

/-- What depends on the version of numpy: whether the truth value of an empty array, and comparing arrays whose shapes do not go together, raise
`ValueError` or give `False` with a warning. -/
structure Numpy where
  emptyRaises : Bool
  mismatchRaises : Bool

/-- An array object: its identity and what it holds. -/
structure ArrObj where
  id : ℕ
  arr : NDArray

/-- A list of arrays: its identity and its items. -/
structure ListObj where
  id : ℕ
  items : List ArrObj

/-- measurement.py:122-130: an `ExpectationValues` object with its three attributes. -/
structure EVObj where
  values : ArrObj
  correlations : Option ListObj
  covariances : Option ListObj

/-- numpy's broadcasting of two shapes, given with the last axis first.  External library (numpy). -/
def broadcast : List ℕ → List ℕ → Option (List ℕ)
  | [], t => some t
  | s, [] => some s
  | a :: s, b :: t =>
    if a = b then (broadcast s t).map (a :: ·)
    else if a = 1 then (broadcast s t).map (b :: ·)
    else if b = 1 then (broadcast s t).map (a :: ·)
    else none

/-- The truth value of `a == b` for arrays: `==` compares entry by entry, and only an array with one entry has a truth value.  External library
(numpy). -/
noncomputable def arrTruth (np : Numpy) (a b : NDArray) : Except EqErr Bool :=
  open Classical in
  match broadcast a.shape.reverse b.shape.reverse with
  | none => if np.mismatchRaises then .error .valueError else .ok false
  | some s =>
    if s.prod = 0 then (if np.emptyRaises then .error .valueError else .ok false)
    else if s.prod = 1 then .ok (decide (a.data.head? = b.data.head?))
    else .error .valueError

/-- How Python compares two items of a dictionary or list (`PyObject_RichCompareBool`): an object is equal to itself. -/
noncomputable def arrEq (np : Numpy) (a b : ArrObj) : Except EqErr Bool :=
  if a.id = b.id then .ok true else arrTruth np a.arr b.arr

/-- The items of two lists of equal length, in order, up to the first that differ. -/
noncomputable def itemsEq (np : Numpy) : List ArrObj → List ArrObj → Except EqErr Bool
  | x :: xs, y :: ys => do
    let same ← arrEq np x y
    if same then itemsEq np xs ys else .ok false
  | _, _ => .ok true

/-- Two attributes that are `None` or a list; lists of different lengths differ. -/
noncomputable def optEq (np : Numpy) : Option ListObj → Option ListObj → Except EqErr Bool
  | none, none => .ok true
  | some a, some b =>
    if a.id = b.id then .ok true
    else if a.items.length ≠ b.items.length then .ok false
    else itemsEq np a.items b.items
  | _, _ => .ok false

/-- What stands on the right: expectation values, an object with other attributes, or a value without attributes such as a number. -/
inductive Operand
  | expectation (e : EVObj)
  | otherObject
  | noAttributes

/-- measurement.py:178-179 `ExpectationValues.__eq__`: the attributes are compared in the order in which they were set (measurement.py:128-130). -/
noncomputable def evEq (np : Numpy) (e : EVObj) : Operand → Except EqErr Bool
  | .noAttributes => .error .attributeError
  | .otherObject => .ok false
  | .expectation f => do
    let v ← arrEq np e.values f.values
    if v then do
      let c ← optEq np e.correlations f.correlations
      if c then optEq np e.covariances f.covariances else .ok false
    else .ok false

/-! ## Value estimates -/

/-- What a value estimate is compared with: a number, a value estimate, or something `float` does not compare with. -/
inductive VOperand
  | number (x : ℝ)
  | estimate (v : ValueEstimate)
  | other

/-- utils.py:267-271 `ValueEstimate.__eq__`; when it gives `NotImplemented` Python goes by identity, so the answer is `False`. -/
noncomputable def estEq (v : ValueEstimate) : VOperand → Bool
  | .number x => decide (v.value = x) && decide (v.precision = none)
  | .estimate w => valueEq v w
  | .other => false

/-- utils.py:273-274 `__ne__`. -/
noncomputable def estNe (v : ValueEstimate) (o : VOperand) : Bool := !(estEq v o)

/-- `x == v` for a number `x`: Python asks the value estimate, whose class is derived from `float`. -/
noncomputable def numEq (x : ℝ) (v : ValueEstimate) : Bool := estEq v (.number x)

/-- utils.py:276-281 `__str__`; `text` is the text of a float. -/
def estStr (text : ℝ → String) (v : ValueEstimate) : String :=
  match v.precision with
  | some p => text v.value ++ " ± " ++ text p
  | none => text v.value

end ZQ.ResultEq
