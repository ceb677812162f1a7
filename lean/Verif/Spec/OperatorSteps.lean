import Verif.Spec.Tapering
import Verif.Spec.PauliMatrix

/-! # Specification: steps that build operators -/

namespace ZQ.OpSteps

open ZQ ZQ.Op

/-- Occupation number state with exactly the modes `p` and `q` occupied. -/
def pair (p q : ℕ) : ℕ → Bool := fun k => decide (k = p ∨ k = q)

/-- The two configurations kept for the hydrogen molecule: bit 0 stands for modes 0 and 1 occupied, bit 1 for modes 2 and 3 occupied. -/
def config (b : Bool) : ℕ → Bool := if b then pair 2 3 else pair 0 1

/-- Number of the first `n` qubits that are 1. -/
def ones (n : ℕ) (s : ℕ → Bool) : ℕ := ((Finset.range n).filter fun q => s q = true).card

end ZQ.OpSteps
