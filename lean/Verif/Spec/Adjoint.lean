import Verif.Spec.Operators
import Mathlib.Analysis.Complex.Basic

/-! # Specification: basis states, matrix elements and adjoints -/

namespace ZQ.Op

open Classical in
/-- The basis state in which qubit (mode) `i` has value `s i`. -/
noncomputable def basisState (s : ℕ → Bool) : State := fun s' => if s' = s then 1 else 0

/-- `B` is the adjoint of `A`: the matrix of `B` is the conjugate transpose of the matrix of `A` (`(A (basisState s)) s'` is the element in row
`s'` and column `s`). -/
def IsAdjoint (A B : Module.End ℂ State) : Prop :=
  ∀ s s', B (basisState s') s = (starRingEnd ℂ) (A (basisState s) s')

/-- Every amplitude of the image depends on finitely many amplitudes of the argument, so that the operator is determined by its matrix. -/
def RowFinite (A : Module.End ℂ State) : Prop :=
  ∀ s, ∃ (S : Finset (ℕ → Bool)) (w : (ℕ → Bool) → ℂ), ∀ ψ : State, A ψ s = ∑ x ∈ S, w x * ψ x

end ZQ.Op
