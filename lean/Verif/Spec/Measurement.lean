import Mathlib.Data.Real.Basic
import Mathlib.Algebra.BigOperators.Group.List.Basic

/-! Specification of averages over measured bitstrings. -/

namespace ZQ.Meas

/-- Eigenvalue of `Z` on a bit: `+1` for 0, `-1` for 1. -/
def spin (b : ℕ) : ℝ := if b = 1 then -1 else 1

/-- Value of the product of `Z` operators on the listed qubits in the sample `s`. -/
def termSpin (qubits s : List ℕ) : ℝ := (qubits.map fun q => spin (s.getD q 0)).prod

/-- Average of `f` over the samples. -/
noncomputable def mean (f : List ℕ → ℝ) (samples : List (List ℕ)) : ℝ := (samples.map f).sum / samples.length

/-- The number of listed qubits that are in state 1 in the sample. -/
def onesOn (qubits s : List ℕ) : ℕ := (qubits.filter fun q => s.getD q 0 = 1).length

/-- The string of one-digit numbers. -/
def digitString (t : List ℕ) : List Char := t.map fun x => Char.ofNat (48 + x)

/-- Samples of the same number `n` of qubits, with bits 0 and 1. -/
def Bitstrings (n : ℕ) (samples : List (List ℕ)) : Prop :=
  ∀ s ∈ samples, s.length = n ∧ ∀ b ∈ s, b = 0 ∨ b = 1

end ZQ.Meas
