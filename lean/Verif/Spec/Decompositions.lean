import Verif.Model.Generators
import Verif.Spec.Circuit

/-!
# Specification vocabulary for decompositions
-/

namespace ZQ.Circuits

/-- The operator of a sequence of operations on an `n`-qubit register: the product of their operators, the first operation rightmost. -/
noncomputable def opsOperator (n : ℕ) (ρ : String → ℂ) (ops : List GateOp) : Matrix (Fin n → Bool) (Fin n → Bool) ℂ :=
  (ops.reverse.map (GateOp.operator n ρ)).prod

/-- Equality up to one global phase. -/
def EqUpToPhase {n : ℕ} (A B : Matrix (Fin n → Bool) (Fin n → Bool) ℂ) : Prop := ∃ z : ℂ, ‖z‖ = 1 ∧ A = z • B

end ZQ.Circuits
