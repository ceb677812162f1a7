import Verif.Model.Symbolic

/-!
# Specification: values of symbolic expressions

`F` interprets the named functions, `ρ` the symbols.
-/

namespace ZQ.Symbolic

mutual
/-- The value of a sympy expression. -/
noncomputable def Sym.eval (F : String → List ℂ → ℂ) (ρ : String → ℂ) : Sym → ℂ
  | .sym s => ρ s
  | .int z => z
  | .rat q => q
  | .float r => r
  | .imaginaryUnit => Complex.I
  | .number c => c
  | .add args => (Sym.evalList F ρ args).sum
  | .mul args => (Sym.evalList F ρ args).prod
  | .pow b e => Sym.eval F ρ b ^ Sym.eval F ρ e
  | .fn name args => F name (Sym.evalList F ρ args)
  | .other v => v

noncomputable def Sym.evalList (F : String → List ℂ → ℂ) (ρ : String → ℂ) : List Sym → List ℂ
  | [] => []
  | e :: es => Sym.eval F ρ e :: Sym.evalList F ρ es
end

/-- The names with a fixed meaning in native expressions. -/
def reserved : List String := ["add", "mul", "sub", "div", "pow", "sqrt"]

/-- The meaning of a function name in native expressions. -/
noncomputable def meaning (F : String → List ℂ → ℂ) (name : String) (args : List ℂ) : ℂ :=
  if name = "add" then args.sum
  else if name = "mul" then args.prod
  else if name = "sub" then args.getD 0 0 - args.getD 1 0
  else if name = "div" then args.getD 0 0 / args.getD 1 0
  else if name = "pow" then args.getD 0 0 ^ args.getD 1 0
  else if name = "sqrt" then args.getD 0 0 ^ (1 / 2 : ℂ)
  else F name args

mutual
/-- The value of a native expression. -/
noncomputable def Native.eval (F : String → List ℂ → ℂ) (ρ : String → ℂ) : Native → ℂ
  | .sym s => ρ s
  | .num c => c
  | .call name args => meaning F name (Native.evalList F ρ args)

noncomputable def Native.evalList (F : String → List ℂ → ℂ) (ρ : String → ℂ) : List Native → List ℂ
  | [] => []
  | e :: es => Native.eval F ρ e :: Native.evalList F ρ es
end

mutual
/-- All subexpressions. -/
def Sym.subterms : Sym → List Sym
  | .add args => .add args :: Sym.subtermsList args
  | .mul args => .mul args :: Sym.subtermsList args
  | .pow b e => .pow b e :: (Sym.subterms b ++ Sym.subterms e)
  | .fn name args => .fn name args :: Sym.subtermsList args
  | e => [e]

def Sym.subtermsList : List Sym → List Sym
  | [] => []
  | e :: es => Sym.subterms e ++ Sym.subtermsList es
end

mutual
/-- All subexpressions. -/
def Native.subterms : Native → List Native
  | .call name args => .call name args :: Native.subtermsList args
  | e => [e]

def Native.subtermsList : List Native → List Native
  | [] => []
  | e :: es => Native.subterms e ++ Native.subtermsList es
end

/-- Sympy builds sums and products of at least two arguments only. -/
def Proper : Sym → Prop
  | .add args => 2 ≤ args.length
  | .mul args => 2 ≤ args.length
  | _ => True

/-- No function has a name that is reserved in native expressions. -/
def Unreserved : Sym → Prop
  | .fn name _ => name ∉ reserved
  | _ => True

/-- The class of the expression is one of the supported ones. -/
def SupportedClass : Sym → Prop
  | .other _ => False
  | _ => True

end ZQ.Symbolic
