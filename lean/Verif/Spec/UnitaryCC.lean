import Verif.Spec.FermionTools
import Verif.Spec.Adjoint

/-!
# Specification: excitation operators and total spin

Spatial orbital `p` has the modes `2 p` (up) and `2 p + 1` (down).
-/

namespace ZQ.UCC

open ZQ.Op ZQ.FTools

/-- `a†_p a_q`. -/
noncomputable def move (p q : ℕ) : Module.End ℂ State := ladderAction (p, true) * ladderAction (q, false)

/-- The singlet excitation from orbital `q` to orbital `p`: an electron of either spin is moved. -/
noncomputable def excite (p q : ℕ) : Module.End ℂ State := move (2 * p) (2 * q) + move (2 * p + 1) (2 * q + 1)

/-- The spin raising operator of `m` orbitals. -/
noncomputable def spinPlus (m : ℕ) : Module.End ℂ State := ∑ r ∈ Finset.range m, move (2 * r) (2 * r + 1)

/-- The spin lowering operator of `m` orbitals. -/
noncomputable def spinMinus (m : ℕ) : Module.End ℂ State := ∑ r ∈ Finset.range m, move (2 * r + 1) (2 * r)

/-- The z component of the spin of `m` orbitals. -/
noncomputable def spinZ (m : ℕ) : Module.End ℂ State := (1 / 2 : ℂ) • twiceSpin (2 * m)

/-- The square of the total spin of `m` orbitals. -/
noncomputable def spinSquared (m : ℕ) : Module.End ℂ State := spinMinus m * spinPlus m + spinZ m * (spinZ m + 1)

/-- The operator is anti-Hermitian: its adjoint is its negative. -/
def AntiHermitian (A : Module.End ℂ State) : Prop := IsAdjoint A (-A)

end ZQ.UCC
