import Verif.Spec.Operators
import Mathlib.Logic.Equiv.Basic
import Mathlib.Algebra.Group.End

/-!
# Specification: relabelling fermionic modes

Giving the modes other numbers permutes the basis states, up to signs.
-/

namespace ZQ.Op

/-- `U` gives mode `j` the number `π j`: it permutes the basis states accordingly, up to signs, and turns the ladder operators of mode `j` into those of
mode `π j`. -/
def Relabels (π : Equiv.Perm ℕ) (U : Module.End ℂ State) : Prop :=
  (∃ ε : (ℕ → Bool) → ℂ, (∀ s, ε s = 1 ∨ ε s = -1) ∧ ∀ ψ s, U ψ s = ε s * ψ (s ∘ π)) ∧
  ∀ j b, U * ladderAction (j, b) = ladderAction (π j, b) * U

/-- The integer `z` names orbital `k` of `n` orbitals; negative integers count from the end. -/
def Names (n : ℕ) (z : ℤ) (k : ℕ) : Prop := k < n ∧ (z = k ∨ z = k - n)

end ZQ.Op
