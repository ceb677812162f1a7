import Verif.Spec.PauliMatrix
import Verif.Spec.Adjoint

/-!
# Specification: matrix elements of operators on the first `n` qubits (or modes)
-/

namespace ZQ.Op

/-- A basis state of the first `n` qubits; all further qubits are 0. -/
def pad {n : ℕ} (x : Fin n → Bool) : ℕ → Bool := fun q => if h : q < n then x ⟨q, h⟩ else false

/-- The matrix of an operator on the first `n` qubits: the entry at `x, y` is `<x| A |y>`. -/
noncomputable def matrixOf (n : ℕ) (A : Module.End ℂ State) : Matrix (Fin n → Bool) (Fin n → Bool) ℂ :=
  fun x y => A (basisState (pad y)) (pad x)

end ZQ.Op
