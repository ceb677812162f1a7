import Verif.Model.CircuitSteps
import Verif.Spec.Circuit

/-! # Specification: random circuits and combined circuits -/

namespace ZQ.CircSteps

open ZQ ZQ.Gates ZQ.Circuits

variable {σ : Type}

/-- Choices are indices of the sequence, two choices without replacement differ, and uniform numbers are between the bounds. -/
structure Lawful (G : Gen σ) : Prop where
  choice : ∀ n st, 0 < n → (G.choice n st).1 < n
  pair : ∀ n st, 2 ≤ n → (G.pair n st).1.1 < n ∧ (G.pair n st).1.2 < n ∧ (G.pair n st).1.1 ≠ (G.pair n st).1.2
  uniform : ∀ a b st, a ≤ b → a ≤ (G.uniform a b st).1 ∧ (G.uniform a b st).1 ≤ b

/-- One of the gates a random circuit may contain, on distinct qubits below `n`; gates with a parameter have an angle between `-π` and `π`. -/
def Picked (n : ℕ) (op : GateOp) : Prop :=
  ∃ b ps, op.gate = .factory b ps ∧ op.qubits.length = b.numQubits ∧ op.qubits.Nodup ∧ (∀ q ∈ op.qubits, q < n) ∧
    ((b ∈ fixedGates ∧ b.name ∈ ["X", "Y", "Z", "H", "S", "T", "CNOT", "CZ", "SWAP"] ∧ ps = []) ∨
     (b ∈ parametricGates ∧ b.name ∈ ["RX", "RY", "RZ", "PHASE", "CPHASE"] ∧ ∃ θ : ℝ, -Real.pi ≤ θ ∧ θ ≤ Real.pi ∧ ps = [.num (θ : ℂ)]))

/-- The size of the smallest register that holds all qubits of the operations. -/
def needed (ops : List GateOp) : ℕ := (ops.map fun op => (op.qubits.map (· + 1)).foldr max 0).foldr max 0

end ZQ.CircSteps
