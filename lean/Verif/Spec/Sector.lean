import Verif.Model.Sector
import Verif.Spec.Tapering
import Verif.Spec.FermionTools

/-! # Specification: symmetry sectors -/

namespace ZQ.Sector

open ZQ.Op

/-- The occupied modes of a determinant. -/
def occupied (d : Det) : Finset ℕ := (Finset.range d.length).filter fun i => d.getD i false = true

/-- The occupation number state of a determinant. -/
def occupation (d : Det) : ℕ → Bool := fun i => d.getD i false

/-- The determinants on the same modes with as many electrons as the reference (with `spin`: on the even modes and on the odd modes) that differ from
it by at most `level` excitations. -/
def InSector (ref : Det) (level : ℤ) (spin : Bool) (d : Det) : Prop :=
  d.length = ref.length ∧ (occupied d).card = (occupied ref).card ∧ ((occupied ref \ occupied d).card : ℤ) ≤ level ∧
    (spin = true → ((occupied d).filter fun i => i % 2 = 0).card = ((occupied ref).filter fun i => i % 2 = 0).card ∧
      ((occupied d).filter fun i => i % 2 = 1).card = ((occupied ref).filter fun i => i % 2 = 1).card)

/-- As many creation as annihilation operators on the modes satisfying `P`. -/
def Conserves (P : ℕ → Bool) (t : Term Bool) : Prop := FTools.countOps t true P = FTools.countOps t false P

/-- The basis of the sector: every determinant once, the reference first. -/
def IsSectorBasis (ref : Det) (level : ℤ) (spin : Bool) (basis : List Det) : Prop :=
  basis.Nodup ∧ (∀ d, d ∈ basis ↔ InSector ref level spin d) ∧ basis.head? = some ref

/-- The matrix of the operator in a basis of determinants. -/
def IsMatrixOf (o : Terms Bool) (basis : List Det) (M : Mat ℂ) : Prop :=
  M.rows = basis.length ∧ M.cols = basis.length ∧
    ∀ i j, i < basis.length → j < basis.length → M.e i j = element o (occupation (basis.getD i [])) (occupation (basis.getD j []))

end ZQ.Sector
