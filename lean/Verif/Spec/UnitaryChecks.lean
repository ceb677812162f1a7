import Mathlib.LinearAlgebra.UnitaryGroup
import Mathlib.Analysis.Complex.Norm

/-!
# Specification: equality of unitary matrices up to a phase
-/

namespace ZQ.UCheck

/-- The two matrices differ by a phase, up to `ε` in each entry. -/
def SamePhase {n : ℕ} (U V : Matrix (Fin n) (Fin n) ℂ) (ε : ℝ) : Prop := ∃ c : ℂ, ‖c‖ = 1 ∧ ∀ i j, ‖V i j - c * U i j‖ ≤ ε

/-- The matrix is the identity, up to `ε` in each entry. -/
def NearOne {n : ℕ} (U : Matrix (Fin n) (Fin n) ℂ) (ε : ℝ) : Prop := ∀ i j, ‖U i j - (1 : Matrix (Fin n) (Fin n) ℂ) i j‖ ≤ ε

end ZQ.UCheck
