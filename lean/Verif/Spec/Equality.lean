import Verif.Model.Equality
import Verif.Spec.Circuit

/-!
# Specification vocabulary for equality
-/

namespace ZQ.Equality

open Gates Circuits

/-- What is assumed of sympy: a numeric difference is the difference of the two values, whatever the values of the symbols; an expression minus
itself is zero; numbers are subtracted; swapping the operands changes the sign. -/
structure DiffOk (d : Diff) : Prop where
  sound : ∀ a b z, d a b = some z → ∀ ρ, a.eval ρ - b.eval ρ = z
  refl : ∀ a, d a a = some 0
  swap : ∀ a b, d b a = (d a b).map Neg.neg
  num : ∀ x y, d (.num x) (.num y) = some (x - y)

/-- What is assumed of the comparison of function objects: equal objects are the same function, and a function object equals itself. -/
structure SameOk (same : SameFn) : Prop where
  sound : ∀ f g, same f g = true → f = g
  refl : ∀ f, same f f = true
  swap : ∀ f g, same f g = same g f

/-- Two lists of parameters agree up to `1e-8` in every position, whatever the values of the symbols. -/
def ParamsNear (ps ps' : List Expr) : Prop :=
  List.Forall₂ (fun p p' : Expr => ∀ ρ, ‖p.eval ρ - p'.eval ρ‖ ≤ 1 / 10 ^ 8) ps ps'

/-- Every base gate a gate is built from is a built-in gate. -/
def Builtin (g : Gate) : Prop := g.AllBase fun b _ => b ∈ builtinGates

/-- Euclidean length of a state vector. -/
noncomputable def stateNorm {n : ℕ} (v : (Fin n → Bool) → ℂ) : ℝ := √(∑ x, ‖v x‖ ^ 2)

end ZQ.Equality
