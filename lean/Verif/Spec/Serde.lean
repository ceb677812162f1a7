import Verif.Model.Serde
import Verif.Spec.Circuit

/-!
# Specification vocabulary for circuit serialization
-/

namespace ZQ.Serde

open Gates Circuits

/-- What is assumed of sympy: a printable expression is parsed back to itself if each of its symbols is either listed or not a reserved name
(reserved: names sympy resolves to something else, such as `gamma`, `beta`, `S`, `I`). -/
structure Codec.Good (C : Codec) (printable : Expr → Prop) (reserved : String → Prop) : Prop where
  roundtrip : ∀ e names, printable e → (∀ s ∈ e.free, s ∈ names ∨ ¬ reserved s) → C.de (C.ser e) names = e
  /-- a reserved name that is not listed is not read as a symbol -/
  reserved_lost : ∀ s names, reserved s → s ∉ names → C.de (C.ser (.sym s)) names ≠ .sym s

/-- A custom definition as made by the API (matrix from a list of rows, checked shape) whose entries can be printed and use only parameter
names or unreserved names. -/
structure GoodDef (printable : Expr → Prop) (reserved : String → Prop) (d : CustomDef) : Prop where
  made : ∃ rows : List (List Expr), (∀ r ∈ rows, r.length = (rows.headD []).length) ∧ mkDef d.gateName (exprMatrix rows) d.paramsOrdering = .ok d
  entries : ∀ i < d.matrix.rows, ∀ j < d.matrix.cols, printable (d.matrix.e i j) ∧
    ∀ s ∈ (d.matrix.e i j).free, s ∈ d.paramsOrdering ∨ ¬ reserved s
  /-- the name does not clash with a module-level name of the built-in gates -/
  name_free : lookupGlobal d.gateName = none

/-- Gates the round trip theorem covers; `defs` are the definitions used directly by some operation of the circuit. -/
def Serializable (printable : Expr → Prop) (reserved : String → Prop) (defs : List CustomDef) : Gate → Prop
  | .factory b ps => (b ∈ fixedGates ∧ ps = []) ∨ (b ∈ parametricGates ∧ ps ≠ [] ∧ ∀ p ∈ ps, printable p) ∨
      ∃ d ∈ defs, b = baseOf d ∧ (∀ p ∈ ps, printable p) ∧
        (∀ p ∈ ps.head?, ∀ s ∈ p.free, s ∈ d.paramsOrdering ∨ ¬ reserved s) ∧ (∀ p ∈ ps.tail, ∀ s ∈ p.free, ¬ reserved s)
  | .ctrl g k => 1 ≤ k ∧ Serializable printable reserved defs g
  | .dag g => Serializable printable reserved defs g

end ZQ.Serde
