import Verif.Model.PolyTensor
import Verif.Spec.Operators

/-!
# Specification: the operator of a polynomial tensor

A polynomial tensor stands for the sum of all products of ladder operators, one per index of each array, weighted by the array's entries.
-/

namespace ZQ.PolyT

open ZQ ZQ.Op

/-- The coefficient of a product of ladder operators; arrays that are not stored count as zero. -/
noncomputable def value (T : PolyTensor) (key : Key) (idx : List ℕ) : ℂ := ((PyDict.get? T.tensors key).map fun t => t idx).getD 0

/-- The index tuples of an array of dimension `n` with `d` indices. -/
def InRange (n d : ℕ) (idx : List ℕ) : Prop := idx.length = d ∧ ∀ i ∈ idx, i < n

/-- The operator of one array. -/
noncomputable def tensorAction (n : ℕ) (key : Key) (t : Tensor) : Module.End ℂ State :=
  ∑ idx : Fin key.length → Fin n, t (List.ofFn fun k => (idx k : ℕ)) • termAction ladderAction ((List.ofFn fun k => (idx k : ℕ)).zip key)

/-- The operator of a polynomial tensor. -/
noncomputable def polyAction (T : PolyTensor) : Module.End ℂ State := (T.tensors.map fun kv => tensorAction T.n kv.1 kv.2).sum

/-- A dictionary has no repeated key. -/
def Valid (T : PolyTensor) : Prop := (PyDict.keys T.tensors).Nodup

end ZQ.PolyT
