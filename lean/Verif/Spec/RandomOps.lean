import Verif.Model.RandomOps
import Verif.Spec.Operators

/-! # Specification: random numbers and the terms drawn with them -/

namespace ZQ.RandomOps

open ZQ ZQ.Op

variable {σ : Type}

/-- The numbers are in the ranges Python promises; `sample` gives `k` different numbers. -/
structure Lawful (R : Rand σ) : Prop where
  below : ∀ n st, 0 < n → (R.below n st).1 < n
  uniform : ∀ a b st, a ≤ b → a ≤ (R.uniform a b st).1 ∧ (R.uniform a b st).1 ≤ b
  sample : ∀ n k st, k ≤ n → (R.sample n k st).1.length = k ∧ (R.sample n k st).1.Nodup ∧ ∀ i ∈ (R.sample n k st).1, i < n

/-- The result of the `m`-th (from 0) of successive draws below `n`. -/
def draw (R : Rand σ) (n : ℕ) : ℕ → σ → ℕ
  | 0, st => (R.below n st).1
  | m + 1, st => draw R n m (R.below n st).2

/-- From every state, successive draws below `n` give every number below `n` sooner or later. -/
def Fair (R : Rand σ) : Prop := ∀ n st i, i < n → ∃ m, draw R n m st = i

/-- `o` is the sum of the Pauli strings in `drawn`: every coefficient is the number of times the string was drawn. -/
def SumOf (o : Terms Letter) (drawn : List (Term Letter)) : Prop :=
  WF o ∧ (∀ t, t ∈ PyDict.keys o ↔ t ∈ drawn) ∧ ∀ t, coeff o t = drawn.count t

/-- The vector of `2^n` complex numbers that is drawn. -/
def drawnVector (N : NpRand σ) (n : ℕ) (st : σ) : List ℂ :=
  ((N.rand (2 ^ n) st).1.zip (N.rand (2 ^ n) (N.rand (2 ^ n) st).2).1).map fun p => ⟨p.1, p.2⟩

end ZQ.RandomOps
