import Verif.Model.Serde

/-!
# Equality of gates, custom definitions, operations and circuits

Model of the `__eq__` methods of `circuits/_gates.py` and `circuits/_circuit.py`.
-/

namespace ZQ.Equality

open Gates Circuits Serde

/-- `sympy.N(sympy.expand(a) - sympy.expand(b))` followed by the conversion of real and imaginary part to `float`,
circuits/_gates.py:437-442: a number, or `none` if the conversion raises `TypeError` because symbols are left.  External. -/
abbrev Diff := Expr → Expr → Option ℂ

/-- Comparison of two built-in matrix functions, a comparison of Python function objects.  External. -/
abbrev SameFn := (List ℂ → Mat ℂ) → (List ℂ → Mat ℂ) → Bool

/-- circuits/_gates.py:428-444 `_are_matrix_elements_equal`; `np.allclose(z, 0)` is `|z| ≤ 1e-8`. -/
noncomputable def elementsEqual (d : Diff) (a b : Expr) : Bool :=
  match d a b with
  | none => false
  | some z => decide (‖z‖ ≤ 1 / 10 ^ 8)

/-- `==` on matrix factories: function objects, or circuits/_gates.py:363-373 `CustomGateMatrixFactory.__eq__` (which does not look at the name
of the definition). -/
noncomputable def factoryEqual (same : SameFn) (d : Diff) : Factory → Factory → Bool
  | .builtin f, .builtin g => same f g
  | .custom a, .custom b => a.paramsOrdering == b.paramsOrdering && matricesEqual (elementsEqual d) a.matrix b.matrix
  | _, _ => false

/-- `==` on gates: circuits/_gates.py:217-232 `MatrixFactoryGate.__eq__`; for `ControlledGate` (lines 247-251) and `Dagger` (lines 302-305) the
generated dataclass comparison of all fields; objects of different classes are not equal. -/
noncomputable def gateEqual (same : SameFn) (d : Diff) : Gate → Gate → Bool
  | .factory b ps, .factory b' ps' =>
    (b.name == b'.name && factoryEqual same d b.factory b'.factory && b.numQubits == b'.numQubits && b.isHermitian == b'.isHermitian)
      && ps.length == ps'.length && (ps.zip ps').all fun p => elementsEqual d p.1 p.2
  | .ctrl g k, .ctrl g' k' => gateEqual same d g g' && k == k'
  | .dag g, .dag g' => gateEqual same d g g'
  | _, _ => false

/-- `==` on operations: circuits/_gates.py:103-113, generated dataclass comparison of gate and qubit indices. -/
noncomputable def opEqual (same : SameFn) (d : Diff) (a b : GateOp) : Bool := gateEqual same d a.gate b.gate && a.qubits == b.qubits

/-- `==` on Python lists: same length and equal items in order.  (Python takes the identity of two items for their equality; with a
reflexive item comparison that is the same.) -/
def listEqual {α : Type} (eq : α → α → Bool) : List α → List α → Bool
  | [], [] => true
  | a :: l, b :: m => eq a b && listEqual eq l m
  | _, _ => false

/-- circuits/_circuit.py:87-94 `Circuit.__eq__` for two circuits. -/
noncomputable def circuitEqual (same : SameFn) (d : Diff) (a b : Circuit) : Bool :=
  if a.n ≠ b.n then false else listEqual (opEqual same d) a.ops b.ops

end ZQ.Equality
