import Verif.Model.SymOp

/-!
# Zero, identity, constant term and division in place: openfermion/ops/operators/symbolic_operator.py
-/

namespace ZQ.OpLaws

open ZQ ZQ.Op

variable {A : Type} [DecidableEq A]

/-- symbolic_operator.py:316-324 `zero`: the constructor (124-128) makes no term when `term` is `None`. -/
def zero : Terms A := []

/-- symbolic_operator.py:326-334 `identity`. -/
def identity (S : OpClass A) : Terms A := ofTerm S [] 1

/-- symbolic_operator.py:307-310 `constant`. -/
noncomputable def constant (o : Terms A) : ℂ := (PyDict.get? o []).getD 0

/-- symbolic_operator.py:312-314 the setter of `constant`. -/
noncomputable def setConstant (o : Terms A) (value : ℂ) : Terms A := PyDict.set o [] value

/-- symbolic_operator.py:520-541 `__rmul__`, by a number: `self * multiplier`. -/
def rmul (multiplier : ℂ) (o : Terms A) : Terms A := smul o multiplier

/-- symbolic_operator.py:568-572 `__itruediv__`, by a number: `self *= 1.0 / divisor`. -/
noncomputable def itruediv (o : Terms A) (divisor : ℂ) : Except Err (Terms A) := if divisor = 0 then .error .zeroDivision else .ok (smul o (1 / divisor))

end ZQ.OpLaws
