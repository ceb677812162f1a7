import Verif.Model.TensorTools
import Verif.Spec.PolyTensor

/-!
# Specification: symmetry classes of indices and rotated ladder operators
-/

namespace ZQ.PolyT

open ZQ ZQ.Op

/-- Index tuples that the documentation of `unique_iter` puts into one symmetry class: `pqrs = qpsr` (the order of the two particles), `pqrs = srqp` (the adjoint)
and, for real coefficients, `pqrs = psrq`. -/
inductive SameClass (complexValued : Bool) : List ℕ → List ℕ → Prop
  | refl (i) : SameClass complexValued i i
  | symm {i j} : SameClass complexValued i j → SameClass complexValued j i
  | trans {i j k} : SameClass complexValued i j → SameClass complexValued j k → SameClass complexValued i k
  | exchange (p q r s) : SameClass complexValued [p, q, r, s] [q, p, s, r]
  | adjoint (p q r s) : SameClass complexValued [p, q, r, s] [s, r, q, p]
  | real (h : complexValued = false) (p q r s) : SameClass complexValued [p, q, r, s] [p, s, r, q]

/-- Arrays with the symmetry that the documentation assumes; the operator is self-adjoint. -/
structure Symmetric (complexValued : Bool) (one two : Tensor) : Prop where
  one : ∀ p q, one [q, p] = (starRingEnd ℂ) (one [p, q])
  exchange : ∀ p q r s, two [q, p, s, r] = two [p, q, r, s]
  adjoint : ∀ p q r s, two [s, r, q, p] = (starRingEnd ℂ) (two [p, q, r, s])
  real : complexValued = false → ∀ p q r s, two [p, s, r, q] = two [p, q, r, s]

/-- The symmetry of the two-electron integrals of real orbitals, `∫ φp(1) φq(2) φr(2) φs(1)`: the orbitals of one electron can be exchanged. -/
def RealOrbitals (g : Tensor) : Prop := (∀ p q r s, g [q, p, s, r] = g [p, q, r, s]) ∧ (∀ p q r s, g [s, q, r, p] = g [p, q, r, s]) ∧ ∀ i, (g i).im = 0

/-- What a selection keeps: products with at most (exactly) so many different modes, or with modes from (exactly) the given ones. -/
def Selection.Keeps (exact : Bool) (idx : List ℕ) : Selection → Prop
  | .count k => if exact then (idx.toFinset.card : ℤ) = k else (idx.toFinset.card : ℤ) ≤ k
  | .modes l => if exact then idx.toFinset = l.toFinset else idx.toFinset ⊆ l.toFinset

/-- The ladder operators of the rotated basis: `b†_a = Σ conj(R_ax) a†_x` and `b_a = Σ R_ax a_x`. -/
noncomputable def rotLadder (n : ℕ) (R : Rot) (f : ℕ × Bool) : Module.End ℂ State :=
  ∑ x ∈ Finset.range n, (if f.2 then (starRingEnd ℂ) (R f.1 x) else R f.1 x) • ladderAction (x, f.2)

/-- The operator of one array, with other operators in the place of the ladder operators. -/
noncomputable def tensorActionWith (ev : ℕ × Bool → Module.End ℂ State) (n : ℕ) (key : Key) (t : Tensor) : Module.End ℂ State :=
  ∑ idx : Fin key.length → Fin n, t (List.ofFn fun k => (idx k : ℕ)) • termAction ev ((List.ofFn fun k => (idx k : ℕ)).zip key)

/-- The operator of a polynomial tensor, with other operators in the place of the ladder operators. -/
noncomputable def polyActionWith (ev : ℕ × Bool → Module.End ℂ State) (T : PolyTensor) : Module.End ℂ State := (T.tensors.map fun kv => tensorActionWith ev T.n kv.1 kv.2).sum

/-- The product of two `n × n` matrices. -/
noncomputable def rotMul (n : ℕ) (R S : Rot) : Rot := fun a x => ∑ b ∈ Finset.range n, R a b * S b x

/-- Equality of two `n × n` matrices. -/
def RotEq (n : ℕ) (R S : Rot) : Prop := ∀ a < n, ∀ x < n, R a x = S a x

/-- The identity matrix. -/
noncomputable def rotOne : Rot := fun a x => if a = x then 1 else 0

/-- The conjugate transpose. -/
noncomputable def rotAdj (R : Rot) : Rot := fun a x => (starRingEnd ℂ) (R x a)

/-- The matrix that acts on the modes: the given one, or, for arrays over spin orbitals, the given one on both spins. -/
noncomputable def onModes (n m : ℕ) (R : Rot) : Rot := if n = 2 * m then kronEye R else R

end ZQ.PolyT
