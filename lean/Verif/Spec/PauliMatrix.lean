import Verif.Spec.Operators
import Verif.Spec.Qubits

/-!
# Specification: Pauli operators as matrices on a register of `n` qubits

A Pauli string is the tensor product of one letter per qubit; its matrix entry at two basis states is the product of the letters' entries.
-/

namespace ZQ.Op

open scoped BigOperators

/-- Tensor product of one 2 × 2 matrix per qubit. -/
def tensor {n : ℕ} (A : Fin n → Matrix Bool Bool ℂ) : Matrix (Fin n → Bool) (Fin n → Bool) ℂ :=
  fun x y => ∏ q, A q (x q) (y q)

/-- The letter of a Pauli string at a qubit, `I` where the string does not act. -/
def letterAt : Term Letter → ℕ → Letter
  | [], _ => .I
  | f :: t, q => if f.1 = q then f.2 else letterAt t q

/-- The matrix of a Pauli string on `n` qubits. -/
def pauliString (n : ℕ) (t : Term Letter) : Matrix (Fin n → Bool) (Fin n → Bool) ℂ :=
  tensor fun q => letterMatrix (letterAt t q)

/-- The matrix of a qubit operator on `n` qubits: the linear combination of its Pauli strings. -/
def opMatrix (n : ℕ) (o : Terms Letter) : Matrix (Fin n → Bool) (Fin n → Bool) ℂ :=
  (o.map fun kv => kv.2 • pauliString n kv.1).sum

/-- All qubits of the operator are below `n`. -/
def Below (n : ℕ) (o : Terms Letter) : Prop := ∀ kv ∈ o, ∀ f ∈ kv.1, f.1 < n

/-- Two Pauli strings can be measured together: they have the same letter wherever both act. -/
def CoMeasurable (s t : Term Letter) : Prop := ∀ q a b, (q, a) ∈ s → (q, b) ∈ t → a = b

end ZQ.Op
