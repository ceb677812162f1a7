import Verif.Model.Tapering
import Verif.Model.PolyTensor

/-!
# Model: removing inactive orbitals

`remove_inactive_orbitals` of `openfermion/zapata_utils/_utils.py`.
-/

namespace ZQ.Inactive

open ZQ ZQ.Op ZQ.PolyT

/-- zapata_utils/_utils.py:634-650: the orbitals that are frozen empty. -/
def unoccupiedOf (n : ℕ) (nActive : Option ℕ) (nCore : ℕ) : List ℕ :=
  match nActive with
  | some a => List.range' (2 * nCore + 2 * a) (n - (2 * nCore + 2 * a))
  | none => []

/-- zapata_utils/_utils.py:611-655 `remove_inactive_orbitals` of the interaction operator with `n` orbitals, constant `c` and the given tensors; `same` is Python's `is` on
integers (`freeze_orbitals`).  The arguments are natural numbers. -/
noncomputable def removeInactive (same : ℕ → ℕ → Bool) (n : ℕ) (c : ℂ) (one two : Tensor) (nActive : Option ℕ := none) (nCore : ℕ := 0) : Except Err PolyTensor := do
  let fermionOp ← toFermion (interaction n c one two)
  let frozen := freezeOrbitals same fermionOp (List.range (2 * nCore)) (some (unoccupiedOf n nActive nCore))
  getInteractionOperator frozen none

end ZQ.Inactive
