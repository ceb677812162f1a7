import Verif.Spec.Adjoint
import Verif.Model.Tapering

/-!
# Specification: frozen modes
-/

namespace ZQ.Op

/-- Matrix element `⟨s'| o |s⟩` of a fermion operator between occupation number states. -/
noncomputable def element (o : Terms Bool) (s' s : ℕ → Bool) : ℂ := action ladderAction o (basisState s) s'

/-- The occupation of all modes, given the occupied frozen modes and the occupation `t` of the modes that are kept, `kept[0]`, `kept[1]`, ...; all other modes are empty. -/
def place (occupied kept : List ℕ) (t : ℕ → Bool) : ℕ → Bool :=
  fun k => if k ∈ occupied then true else if k ∈ kept then t (kept.idxOf k) else false

/-- Python's `is` on integers, as far as CPython fixes it: integers up to 256 are shared objects; the same object has the same value. -/
def IntIdentity (same : ℕ → ℕ → Bool) : Prop := (∀ a b, same a b = true → a = b) ∧ ∀ a, a ≤ 256 → same a a = true

end ZQ.Op
