import Verif.Model.Circuit
import Verif.Spec.Gates

/-!
# Specification vocabulary for circuits
-/

namespace ZQ.Circuits

open Gates

/-- An operation that makes sense on an `n`-qubit register: as many distinct qubits of the register as its gate needs (at least one). -/
def GateOp.Valid (n : ℕ) (op : GateOp) : Prop :=
  op.qubits ≠ [] ∧ op.qubits.Nodup ∧ (∀ q ∈ op.qubits, q < n) ∧ op.qubits.length = op.gate.numQubits ∧ op.gate.WF

/-- The operator of an operation on an `n`-qubit register: the gate's matrix on the operation's qubits, identity elsewhere. -/
noncomputable def GateOp.operator (n : ℕ) (ρ : String → ℂ) (op : GateOp) : Matrix (Fin n → Bool) (Fin n → Bool) ℂ :=
  if h : ∀ q ∈ op.qubits, q < n then
    actOn (fun i : Fin op.qubits.length => (⟨op.qubits[i], h _ (List.getElem_mem _)⟩ : Fin n))
      ((op.gate.matrix ρ).onBits op.qubits.length)
  else 0

/-- The state vector `v` indexed by basis states. -/
def _root_.ZQ.Vec.onBits {K : Type} (v : Vec K) (n : ℕ) : (Fin n → Bool) → K := fun x => v.e (basisIndex x)

/-- The invariant of circuits made by the constructor: a register of size 0 only occurs for the empty circuit. -/
def Circuit.Inv (c : Circuit) : Prop := c.n = 0 → c.ops = []

end ZQ.Circuits
