import Verif.Model.Matrices
import Mathlib.Data.Matrix.Mul

/-!
# Specification: matrices indexed by bit assignments

An `n`-qubit basis state is an assignment `Fin n → Bool`; qubit 0 is the most significant bit of the integer index.
-/

namespace ZQ

open scoped BigOperators

variable {K : Type}

/-- Integer index of a basis state, qubit 0 most significant. -/
def basisIndex {n : ℕ} (x : Fin n → Bool) : ℕ := ∑ q : Fin n, if x q then 2 ^ (n - 1 - (q : ℕ)) else 0

/-- The `2^n × 2^n` matrix `M`, indexed by basis states. -/
def Mat.onBits (M : Mat K) (n : ℕ) : Matrix (Fin n → Bool) (Fin n → Bool) K :=
  fun x y => M.e (basisIndex x) (basisIndex y)

/-- The operator acting as `A` on the qubits `qs 0, qs 1, ...` (in that order) and as the identity on all others:
its entry at `x, y` is the entry of `A` at the restrictions of `x` and `y` if `x` and `y` agree on all other qubits, and 0 otherwise. -/
def actOn {n k : ℕ} [Zero K] (qs : Fin k → Fin n) (A : Matrix (Fin k → Bool) (Fin k → Bool) K) :
    Matrix (Fin n → Bool) (Fin n → Bool) K :=
  fun x y => if ∀ q, (∀ i, qs i ≠ q) → x q = y q then A (x ∘ qs) (y ∘ qs) else 0

end ZQ
