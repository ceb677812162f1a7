import Verif.Spec.Operators

/-!
# Specification: commutators, occupation numbers and hopping operators
-/

namespace ZQ.FTools

open ZQ.Op

/-- `A B - B A`. -/
noncomputable def bracket (M N : Module.End ℂ State) : Module.End ℂ State := M * N - N * M

/-- The diagonal operator that multiplies a basis state by the sum of the weights of its occupied modes below `n`. -/
noncomputable def occupation (n : ℕ) (w : ℕ → ℂ) : Module.End ℂ State where
  toFun ψ := fun s => (∑ i ∈ Finset.range n, if s i then w i else 0) * ψ s
  map_add' ψ φ := by funext s; simp only [Pi.add_apply]; ring
  map_smul' c ψ := by funext s; simp only [Pi.smul_apply, smul_eq_mul, RingHom.id_apply]; ring

/-- Twice the z component of the spin: even modes are up, odd modes are down. -/
noncomputable def twiceSpin (n : ℕ) : Module.End ℂ State := occupation n fun i => if i % 2 = 0 then 1 else -1

/-- `c (a†_i a_j + a†_j a_i)`. -/
def hoppingOp (i j : ℕ) (c : ℂ) : Terms Bool := [([(i, true), (j, false)], c), ([(j, true), (i, false)], c)]

/-- The number of creation (`b = true`) or annihilation operators on modes satisfying `P` in a product. -/
def countOps (t : Term Bool) (b : Bool) (P : ℕ → Bool) : ℕ := t.countP fun f => (f.2 == b) && P f.1

end ZQ.FTools
