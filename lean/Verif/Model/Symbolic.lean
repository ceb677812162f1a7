import Verif.Model.Matrices
import Verif.Model.PyDict
import Mathlib.Analysis.SpecialFunctions.Pow.Complex

/-!
# Symbolic expressions: circuits/symbolic/expressions.py, translations.py, sympy_expressions.py

Numbers are complex numbers; floats are exact.
-/

namespace ZQ.Symbolic

open ZQ

/-- Sympy expressions, as trees of their `args`. External (sympy): what classes there are and their `args`. `other` stands for objects of all other classes (`pi`, `E`,
relations, matrices, ...). -/
inductive Sym
  | sym (name : String)
  | int (z : ℤ)
  | rat (q : ℚ)
  | float (r : ℝ)
  | imaginaryUnit
  | number (c : ℂ)
  | add (args : List Sym)
  | mul (args : List Sym)
  | pow (base exponent : Sym)
  | fn (name : String) (args : List Sym)
  | other (value : ℂ)

/-- expressions.py:11-27: native expressions. -/
inductive Native
  | sym (name : String)
  | num (c : ℂ)
  | call (name : String) (args : List Native)

/-- `expr == z` for an integer or float `z`: true for numbers of that value. External (sympy before version 1.13). -/
noncomputable def equalsNumber (e : Sym) (r : ℝ) : Bool :=
  match e with
  | .int z => decide ((z : ℝ) = r)
  | .rat q => decide ((q : ℝ) = r)
  | .float x => decide (x = r)
  | _ => false

/-- A product of the remaining factors as sympy builds it: a single factor is no product. External (sympy). -/
def mulOf : List Sym → Sym
  | [y] => y
  | ys => .mul ys

/-- sympy_expressions.py:79-80 `_negate_sympy_expr`, for a product whose first factor is −1: sympy multiplies the numeric factors, which leaves the remaining
factors. External (sympy). -/
def negateProduct (rest : List Sym) : Sym := mulOf rest

theorem sizeOf_mulOf (rest : List Sym) : sizeOf (mulOf rest) < 2 + sizeOf rest := by
  unfold mulOf
  split
  · simp; omega
  · simp

mutual
/-- sympy_expressions.py:27-122 `expression_from_sympy`: the dispatch on the class of the argument. -/
noncomputable def fromSympy : Sym → Except Err Native
  | .sym name => .ok (.sym name)                                  -- 52-54
  | .int z => .ok (.num z)                                         -- 57-59
  | .float r => .ok (.num r)                                       -- 62-64
  | .rat q => .ok (.num q)                                         -- 67-69
  | .imaginaryUnit => .ok (.num Complex.I)                         -- 72-76
  | .number c => .ok (.num c)                                      -- 47-49
  | .add [a, .mul []] => do                                        -- 33-36: `args[1].args[0]` of an empty product
    let _ := a
    .error .indexError
  | .add [a, .mul (h :: rest)] =>
    if equalsNumber h (-1) then do                                 -- 85-92
      let x ← fromSympy a
      let y ← fromSympy (negateProduct rest)
      .ok (.call "sub" [x, y])
    else do                                                        -- 93
      let x ← fromSympy a
      let y ← fromSympy (.mul (h :: rest))
      .ok (.call "add" [x, y])
  | .add args => do                                                -- 93
    let xs ← fromTuple args
    .ok (.call "add" xs)
  | .mul [a, .pow b e] =>
    if equalsNumber e (-1) then do                                 -- 98-105
      let x ← fromSympy a
      let y ← fromSympy b
      .ok (.call "div" [x, y])
    else do                                                        -- 107
      let x ← fromSympy a
      let y ← fromSympy (.pow b e)
      .ok (.call "mul" [x, y])
  | .mul args => do                                                -- 107
    let xs ← fromTuple args
    .ok (.call "mul" xs)
  | .pow b e =>
    if equalsNumber e (-1) then do                                 -- 112-113
      let x ← fromSympy b
      .ok (.call "div" [.num 1, x])
    else if equalsNumber e (1 / 2) then do                         -- 114-115
      let x ← fromSympy b
      .ok (.call "sqrt" [x])
    else do                                                        -- 116-117
      let x ← fromSympy b
      let y ← fromSympy e
      .ok (.call "pow" [x, y])
  | .fn name args => do                                            -- 120-122
    let xs ← fromTuple args
    .ok (.call name xs)
  | .other _ => .error .notImplemented                             -- 39-44
termination_by e => sizeOf e
decreasing_by
  all_goals simp
  all_goals first | omega | (have := sizeOf_mulOf rest; unfold negateProduct; omega)

/-- sympy_expressions.py:125-127 `expression_tuple_from_tuple_of_sympy_args`. -/
noncomputable def fromTuple : List Sym → Except Err (List Native)
  | [] => .ok []
  | a :: as => do
    let x ← fromSympy a
    let xs ← fromTuple as
    .ok (x :: xs)
termination_by as => sizeOf as
end

/-- expressions.py:30-40 `ExpressionDialect`; a function may raise an exception. -/
structure Dialect (X : Type) where
  symbolFactory : String → X
  numberFactory : ℂ → X
  knownFunctions : PyDict String (List X → Except Err X)

mutual
/-- translations.py:12-36 `translate_expression`. -/
def translate {X : Type} (D : Dialect X) : Native → Except Err X
  | .num c => .ok (D.numberFactory c)
  | .sym s => .ok (D.symbolFactory s)
  | .call name args =>
    match PyDict.get? D.knownFunctions name with
    | none => .error .valueError
    | some f => do
      let xs ← translateTuple D args
      f xs

/-- translations.py:39-40 `translate_tuple`. -/
def translateTuple {X : Type} (D : Dialect X) : List Native → Except Err (List X)
  | [] => .ok []
  | a :: as => do
    let x ← translate D a
    let xs ← translateTuple D as
    .ok (x :: xs)
end

/-- expressions.py:43-47 `reduction`: `reduce` of no arguments raises `TypeError`. -/
def reduction {X : Type} (op : X → X → X) : List X → Except Err X
  | [] => .error .typeError
  | x :: xs => .ok (xs.foldl op x)

/-- A Python function of exactly two arguments. -/
def binary {X : Type} (op : X → X → X) : List X → Except Err X
  | [x, y] => .ok (op x y)
  | _ => .error .typeError

/-- A Python function of exactly one argument. -/
def unary {X : Type} (op : X → X) : List X → Except Err X
  | [x] => .ok (op x)
  | _ => .error .typeError

/-- A value depending on the values of the symbols: what a sympy expression denotes. -/
abbrev Value := (String → ℂ) → ℂ

/-- sympy_expressions.py:133-148 `SYMPY_DIALECT`. The objects sympy builds are modelled by their values; that sympy's automatic simplifications keep the value is trusted.
The optional argument `evaluate` of `sympy.sqrt` is not modelled. -/
noncomputable def sympyDialect : Dialect Value where
  symbolFactory s := fun ρ => ρ s
  numberFactory c := fun _ => c
  knownFunctions := [
    ("add", reduction fun a b ρ => a ρ + b ρ),
    ("mul", reduction fun a b ρ => a ρ * b ρ),
    ("div", binary fun a b ρ => a ρ / b ρ),
    ("sub", binary fun a b ρ => a ρ - b ρ),
    ("pow", binary fun a b ρ => a ρ ^ b ρ),
    ("cos", unary fun a ρ => Complex.cos (a ρ)),
    ("sin", unary fun a ρ => Complex.sin (a ρ)),
    ("exp", unary fun a ρ => Complex.exp (a ρ)),
    ("sqrt", unary fun a ρ => a ρ ^ (1 / 2 : ℂ)),
    ("tan", unary fun a ρ => Complex.tan (a ρ))]

end ZQ.Symbolic
