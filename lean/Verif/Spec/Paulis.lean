import Mathlib.LinearAlgebra.Matrix.Notation
import Mathlib.Data.Complex.Basic
import Mathlib.Data.Matrix.Mul

/-!
# Specification: Pauli matrices and tensor products on one and two qubits
-/

namespace ZQ

open Complex

/-- Pauli X: exchanges the basis states. -/
def pauliX : Matrix Bool Bool ℂ := fun a b => if a = b then 0 else 1

/-- Pauli Y: `Y|0> = i|1>`, `Y|1> = -i|0>`. -/
def pauliY : Matrix Bool Bool ℂ := fun a b => if a = b then 0 else if a then I else -I

/-- Pauli Z: `Z|0> = |0>`, `Z|1> = -|1>`. -/
def pauliZ : Matrix Bool Bool ℂ := fun a b => if a = b then (if a then -1 else 1) else 0

/-- A one-qubit operator on a register of one qubit. -/
def onOne (A : Matrix Bool Bool ℂ) : Matrix (Fin 1 → Bool) (Fin 1 → Bool) ℂ := fun x y => A (x 0) (y 0)

/-- The tensor product `A ⊗ B` on a register of two qubits. -/
def onTwo (A B : Matrix Bool Bool ℂ) : Matrix (Fin 2 → Bool) (Fin 2 → Bool) ℂ := fun x y => A (x 0) (y 0) * B (x 1) (y 1)

end ZQ
