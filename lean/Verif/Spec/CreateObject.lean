import Verif.Model.CreateObject

/-!
# What specifications describe
-/

namespace ZQ.CreateObject.Spec

open ZQ.CreateObject

variable {V : Type}

/-- `c` is the attribute `specs["function_name"]` of the module `specs["module_name"]`. -/
def Found (W : World V) (specs : PyDict String V) (c : V) : Prop :=
  ∃ m n module, PyDict.get? specs "module_name" = some m ∧ W.importModule m = .ok module ∧
    PyDict.get? specs "function_name" = some n ∧ W.getattr module n = .ok c

/-- The value given for parameter `k`: every key of the specifications but `module_name` and `function_name`, and every keyword. -/
def given (specs kwargs : PyDict String V) (k : String) : Option V :=
  if k = "module_name" ∨ k = "function_name" then PyDict.get? kwargs k
  else (PyDict.get? specs k).or (PyDict.get? kwargs k)

/-- A parameter is given both in the specifications and as a keyword. -/
def Twice (specs kwargs : PyDict String V) : Prop :=
  ∃ k, k ≠ "module_name" ∧ k ≠ "function_name" ∧ k ∈ PyDict.keys specs ∧ k ∈ PyDict.keys kwargs

/-- The parameters of `def f(a, b, c=1)`: no `*args`, no `**kwargs`, no `/` or `*`. -/
def Ordinary (ps : List (Param V)) : Prop := (∀ p ∈ ps, p.kind = .posOrKw) ∧ (ps.map Param.name).Nodup

/-- The value of the `i`-th parameter `p` when `args` and `kw` are passed to a function of which the parameters `pre` were given before. -/
def value (pre : String → Option V) (args : List V) (kw : PyDict String V) (i : ℕ) (p : Param V) : Option V :=
  (args[i]?).or ((PyDict.get? kw p.name).or ((pre p.name).or p.default))

/-- The call is allowed: not too many arguments, no unknown keyword, no parameter twice, none missing. -/
structure Accepts (ps : List (Param V)) (pre : String → Option V) (args : List V) (kw : PyDict String V) : Prop where
  count : args.length ≤ ps.length
  known : ∀ k ∈ PyDict.keys kw, k ∈ ps.map Param.name
  once : ∀ i p, ps[i]? = some p → i < args.length → PyDict.get? kw p.name = none ∧ pre p.name = none
  complete : ∀ i p, ps[i]? = some p → (value pre args kw i p).isSome

end ZQ.CreateObject.Spec
