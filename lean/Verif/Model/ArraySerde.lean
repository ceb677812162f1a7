import Verif.Model.Matrices
import Mathlib.Data.Complex.Basic

/-!
# Arrays and values as dictionaries

Model of `convert_array_to_dict`, `convert_dict_to_array` and `ValueEstimate` in `utils.py`, of `ExpectationValues.to_dict` / `from_dict` in
`measurement.py`, and of the numpy functions they use.  JSON is the identity on nested lists of numbers.  Numbers are exact.
-/

namespace ZQ.ArraySerde

open ZQ

/-- Nested Python lists of numbers. -/
inductive Nested
  | num (x : ℝ)
  | arr (l : List Nested)

/-- A numpy array of numbers: its shape, its entries in row order, and whether its type is complex. -/
structure NDArray where
  shape : List ℕ
  data : List ℂ
  cplx : Bool

/-- The array has as many entries as its shape says, and real arrays have real entries. -/
def NDArray.Valid (a : NDArray) : Prop := a.data.length = a.shape.prod ∧ (a.cplx = false → ∀ z ∈ a.data, z.im = 0)

/-- `ndarray.tolist`.  External library (numpy). -/
def tolist : List ℕ → List ℝ → Nested
  | [], d => .num (d.headD 0)
  | n :: s, d => .arr ((List.range n).map fun i => tolist s ((d.drop (i * s.prod)).take s.prod))

/-- The shapes and entries of the items of a list must agree; the error of a ragged list is `ValueError`. -/
def stack (items : List (List ℕ × List ℝ)) : Except Err (List ℕ × List ℝ) :=
  match items with
  | [] => .ok ([0], [])
  | x :: xs => if xs.all (fun y => y.1 == x.1) then .ok ((xs.length + 1) :: x.1, (items.map Prod.snd).flatten) else .error .valueError

mutual
/-- `np.array` of nested lists.  External library (numpy). -/
def fromNested : Nested → Except Err (List ℕ × List ℝ)
  | .num x => .ok ([], [x])
  | .arr l => fromNestedList l >>= stack
/-- The items of a list. -/
def fromNestedList : List Nested → Except Err (List (List ℕ × List ℝ))
  | [] => .ok []
  | x :: xs => do
    let a ← fromNested x
    let as ← fromNestedList xs
    .ok (a :: as)
end

/-- Python truth value of a number or list. -/
noncomputable def truthy : Nested → Bool
  | .num x => decide (x ≠ 0)
  | .arr l => !l.isEmpty

/-- The dictionary with keys `real` and optionally `imag`. -/
structure ArrayDict where
  real : Nested
  imag : Option Nested

/-- utils.py:43-60 `convert_array_to_dict`. -/
def arrayToDict (a : NDArray) : ArrayDict :=
  if a.cplx then ⟨tolist a.shape (a.data.map Complex.re), some (tolist a.shape (a.data.map Complex.im))⟩
  else ⟨tolist a.shape (a.data.map Complex.re), none⟩

/-- `array + 1j * np.array(...)`.  Simplification: shapes must be equal (numpy would broadcast other shapes). -/
noncomputable def addImag (re im : List ℕ × List ℝ) : Except Err NDArray :=
  if re.1 = im.1 then .ok ⟨re.1, List.zipWith (fun x y : ℝ => (x : ℂ) + Complex.I * y) re.2 im.2, true⟩ else .error .valueError

/-- utils.py:25-40 `convert_dict_to_array`. -/
noncomputable def dictToArray (d : ArrayDict) : Except Err NDArray := do
  let re ← fromNested d.real
  match d.imag with
  | none => .ok ⟨re.1, re.2.map fun x : ℝ => (x : ℂ), false⟩
  | some j =>
    if truthy j then do
      let im ← fromNested j
      addImag re im
    else .ok ⟨re.1, re.2.map fun x : ℝ => (x : ℂ), false⟩

/-! ## Value estimates -/

/-- utils.py:239-258: a number with an optional precision. -/
structure ValueEstimate where
  value : ℝ
  precision : Option ℝ

/-- The dictionary of a value estimate; a missing key `precision` is `none`, a stored `None` is `some none`. -/
structure ValueDict where
  schema : String
  value : ℝ
  precision : Option (Option ℝ)

/-- utils.py:285-299 `to_dict` (numpy numbers are converted to Python numbers, here the same). -/
def valueToDict (v : ValueEstimate) : ValueDict := ⟨"zapata-v1-value_estimate", v.value, some v.precision⟩

/-- utils.py:301-309 `from_dict`. -/
def valueFromDict (d : ValueDict) : ValueEstimate :=
  match d.precision with
  | some p => ⟨d.value, p⟩
  | none => ⟨d.value, none⟩

/-- utils.py:267-271 `__eq__` between value estimates; a plain number has no precision. -/
noncomputable def valueEq (a b : ValueEstimate) : Bool := decide (a.value = b.value) && decide (a.precision = b.precision)

/-! ## Expectation values -/

/-- measurement.py:123-131. -/
structure ExpectationValues where
  values : NDArray
  correlations : Option (List NDArray)
  covariances : Option (List NDArray)

/-- measurement.py:133-155: the dictionary, with optional keys. -/
structure ExpectationDict where
  schema : String
  values : ArrayDict
  correlations : Option (List ArrayDict)
  covariances : Option (List ArrayDict)

/-- measurement.py:143-153: the key is written if the list is there and not empty. -/
def listToDict (l : Option (List NDArray)) : Option (List ArrayDict) :=
  match l with
  | some (x :: xs) => some ((x :: xs).map arrayToDict)
  | _ => none

/-- measurement.py:162-174: the key is read if it is there and not empty. -/
noncomputable def listFromDict (l : Option (List ArrayDict)) : Except Err (Option (List NDArray)) :=
  match l with
  | some (x :: xs) => do
    let as ← (x :: xs).mapM dictToArray
    .ok (some as)
  | _ => .ok none

/-- measurement.py:133-155 `to_dict`. -/
def expectationToDict (e : ExpectationValues) : ExpectationDict :=
  ⟨"zapata-v1-expectation_values", arrayToDict e.values, listToDict e.correlations, listToDict e.covariances⟩

/-- measurement.py:157-176 `from_dict`. -/
noncomputable def expectationFromDict (d : ExpectationDict) : Except Err ExpectationValues := do
  let v ← dictToArray d.values
  let c ← listFromDict d.correlations
  let s ← listFromDict d.covariances
  .ok ⟨v, c, s⟩

/-! ## Interaction operators -/

/-- ops/representations/interaction_operator.py:56-78: the constant (with its type) and the two arrays. -/
structure InteractionOp where
  constant : ℂ
  constantCplx : Bool
  one : NDArray
  two : NDArray

/-- zapata_utils/_io.py:20-34 and 344-357: the dictionary. -/
structure InteractionDict where
  schema : String
  constant : ArrayDict
  one : ArrayDict
  two : ArrayDict

/-- zapata_utils/_io.py:20-34 `convert_interaction_op_to_dict`. -/
def interactionToDict (o : InteractionOp) : InteractionDict :=
  ⟨"zapata-v1-interaction_op", arrayToDict ⟨[], [o.constant], o.constantCplx⟩, arrayToDict o.one, arrayToDict o.two⟩

/-- zapata_utils/_io.py:37-53 `convert_dict_to_interaction_op`; `tolist` of a zero-dimensional array is its entry. -/
noncomputable def interactionFromDict (d : InteractionDict) : Except Err InteractionOp := do
  let c ← dictToArray d.constant
  let o ← dictToArray d.one
  let t ← dictToArray d.two
  .ok ⟨c.data.headD 0, c.cplx, o, t⟩

end ZQ.ArraySerde
