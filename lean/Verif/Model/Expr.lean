import Mathlib.Analysis.Complex.Trigonometric

/-!
# Symbolic gate parameters

Model of sympy expressions as used for gate parameters, and of `circuits/_operations.py`.
Simplification: expressions are plain trees, sympy's automatic evaluation (`x - x → 0`) is not modelled; it preserves the value of an
expression and can only shrink its set of free symbols.  A function node carries its meaning as a function on ℂ.
-/

namespace ZQ

/-- A parameter: Python number, sympy symbol, or compound sympy expression. -/
inductive Expr
  | num (c : ℂ)
  | sym (s : String)
  | un (f : ℂ → ℂ) (a : Expr)
  | bin (f : ℂ → ℂ → ℂ) (a b : Expr)

namespace Expr

/-- Value of an expression when symbol `s` has the value `ρ s`. -/
noncomputable def eval (ρ : String → ℂ) : Expr → ℂ
  | num c => c
  | sym s => ρ s
  | un f a => f (a.eval ρ)
  | bin f a b => f (a.eval ρ) (b.eval ρ)

/-- sympy `.free_symbols` (a set, here a list with possible repetitions). External. -/
def free : Expr → List String
  | num _ => []
  | sym s => [s]
  | un _ a => a.free
  | bin _ a b => a.free ++ b.free

/-- sympy: replace one symbol by an expression. External. -/
def subst1 (s : String) (v : Expr) : Expr → Expr
  | num c => num c
  | sym t => if t = s then v else sym t
  | un f a => un f (subst1 s v a)
  | bin f a b => bin f (subst1 s v a) (subst1 s v b)

/-- A Python dict from symbols to parameters, as its item list (keys distinct). -/
abbrev SymMap := List (String × Expr)

/-- sympy `expr.subs(dict)`: the items are sorted (for symbol keys: by name) and substituted one after another. External;
this is sympy's documented non-simultaneous behaviour. -/
def subs (m : SymMap) (e : Expr) : Expr :=
  (m.mergeSort (fun a b => a.1 ≤ b.1)).foldl (fun e kv => subst1 kv.1 kv.2 e) e

/-- Python `symbols_map.get(parameter, parameter)`. -/
def getD (m : SymMap) (s : String) : Expr := (m.lookup s).getD (sym s)

/-- circuits/_operations.py:60-83 `sub_symbols`: dispatch on the type of the parameter. -/
def subSymbols (m : SymMap) : Expr → Expr
  | num c => num c
  | sym s => getD m s
  | un f a => subs m (un f a)
  | bin f a b => subs m (bin f a b)

/-- circuits/_operations.py:86-93 `get_free_symbols`: the set of the free symbols of all expression parameters, sorted by name. -/
def getFreeSymbols (ps : List Expr) : List String :=
  ((ps.flatMap free).dedup).mergeSort (fun a b => a ≤ b)

end Expr

end ZQ
