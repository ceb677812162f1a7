import Verif.Spec.Operators
import Verif.Spec.Elements

/-!
# Specification: idle modes
-/

namespace ZQ.Workflow

open ZQ.Op

/-- The operator does not involve qubit (mode) `j`: it commutes with the operator that flips the bit and with the one that gives it a sign. -/
def Idle (A : Module.End ℂ State) (j : ℕ) : Prop :=
  A * pauliAction (j, .X) = pauliAction (j, .X) * A ∧ A * pauliAction (j, .Z) = pauliAction (j, .Z) * A

/-- `m` is the number of modes up to the last one that is involved. -/
def Involved (A : Module.End ℂ State) (m : ℕ) : Prop := (∀ j, m ≤ j → Idle A j) ∧ ∀ j, j + 1 = m → ¬ Idle A j

end ZQ.Workflow
