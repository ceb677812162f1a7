import Verif.Spec.Paulis
import Verif.Model.SymOp
import Mathlib.Algebra.Module.LinearMap.End
import Mathlib.Algebra.BigOperators.Group.List.Basic

/-!
# Specification: what operators do to states

States of a register with one qubit (or fermionic mode) per natural number are amplitude functions on bit assignments.  The action of a term is the
product of its factors' actions; the action of an operator is the linear combination of its terms' actions.
-/

namespace ZQ.Op

/-- Amplitudes of the basis states of an unbounded register. -/
abbrev State := (ℕ → Bool) → ℂ

/-- The one-qubit matrix `M` applied to qubit `q`. -/
def atQubit (M : Matrix Bool Bool ℂ) (q : ℕ) : Module.End ℂ State where
  toFun ψ := fun s => M (s q) false * ψ (Function.update s q false) + M (s q) true * ψ (Function.update s q true)
  map_add' ψ φ := by funext s; simp only [Pi.add_apply]; ring
  map_smul' c ψ := by funext s; simp only [Pi.smul_apply, smul_eq_mul, RingHom.id_apply]; ring

/-- The Pauli matrix of a letter. -/
def letterMatrix : Letter → Matrix Bool Bool ℂ
  | .I => 1
  | .X => pauliX
  | .Y => pauliY
  | .Z => pauliZ

/-- Action of one factor of a Pauli string. -/
def pauliAction (f : ℕ × Letter) : Module.End ℂ State := atQubit (letterMatrix f.2) f.1

/-- Number of occupied modes before `p`. -/
def occupiedBefore (s : ℕ → Bool) (p : ℕ) : ℕ := ((List.range p).filter (fun q => s q)).length

/-- Ladder operators on occupation-number states: `a_p` empties an occupied mode with sign `(-1)^(occupied modes before p)`, `a†_p` fills an
empty one with the same sign. The boolean says creation. -/
def ladderAction (f : ℕ × Bool) : Module.End ℂ State where
  toFun ψ := fun s => if s f.1 = f.2 then (-1) ^ occupiedBefore s f.1 * ψ (Function.update s f.1 (!f.2)) else 0
  map_add' ψ φ := by
    funext s; simp only [Pi.add_apply]; split <;> ring
  map_smul' c ψ := by
    funext s; simp only [Pi.smul_apply, smul_eq_mul, RingHom.id_apply]; split <;> ring

/-- Action of a term: the product of the factors' actions. -/
def termAction {A : Type} (ev : ℕ × A → Module.End ℂ State) (t : Term A) : Module.End ℂ State := (t.map ev).prod

/-- Action of an operator: the linear combination of its terms' actions. -/
def action {A : Type} (ev : ℕ × A → Module.End ℂ State) (o : Terms A) : Module.End ℂ State :=
  (o.map fun kv => kv.2 • termAction ev kv.1).sum

/-- The terms of an operator are pairwise different (a dictionary has no repeated key). -/
def WF {A : Type} (o : Terms A) : Prop := (PyDict.keys o).Nodup

/-- Canonical Pauli string: strictly increasing qubit indices, letters `X`, `Y`, `Z` only. -/
def Canonical (t : Term Letter) : Prop := (t.map Prod.fst).Pairwise (· < ·) ∧ ∀ f ∈ t, f.2 ≠ .I

/-- Every term of the operator is canonical, and no term is repeated. -/
def CanonicalOp (o : Terms Letter) : Prop := WF o ∧ ∀ t ∈ PyDict.keys o, Canonical t

end ZQ.Op
