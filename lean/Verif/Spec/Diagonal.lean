import Verif.Spec.Adjoint

/-! # Specification: diagonal operators -/

namespace ZQ.Op

/-- All matrix elements between different basis states vanish. -/
def IsDiagonal (A : Module.End ℂ State) : Prop := ∀ s s', s ≠ s' → A (basisState s) s' = 0

/-- All diagonal matrix elements vanish. -/
def ZeroDiagonal (A : Module.End ℂ State) : Prop := ∀ s, A (basisState s) s = 0

/-- Each mode is created as often as it is annihilated. -/
def Balanced (t : Term Bool) : Prop := ∀ p, t.count (p, true) = t.count (p, false)

end ZQ.Op
