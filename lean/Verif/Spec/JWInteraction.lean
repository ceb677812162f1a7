import Verif.Model.PolyTensor

/-!
# Specification: the Hermitian part of an interaction operator

Outside the diagonal every coefficient is averaged with the complex conjugate of the coefficient of the Hermitian conjugate product.
-/

namespace ZQ.JWInt

open ZQ.PolyT

/-- The arrays are those of a Hermitian operator: the coefficient of each product of ladder operators is the conjugate of the coefficient of the
conjugate product. -/
def Hermitian (n : ℕ) (one two : Tensor) : Prop :=
  (∀ p < n, ∀ q < n, one [p, q] = (starRingEnd ℂ) (one [q, p])) ∧
  (∀ p < n, ∀ q < n, ∀ r < n, ∀ s < n, two [p, q, r, s] = (starRingEnd ℂ) (two [s, r, q, p]))

/-- One-body array with Hermitian off-diagonal part. -/
noncomputable def hermOne (one : Tensor) : Tensor
  | [p, q] => if p = q then one [p, q] else 1 / 2 * (one [p, q] + (starRingEnd ℂ) (one [q, p]))
  | _ => 0

/-- Two-body array with Hermitian off-diagonal part; `a†_p a†_q a_r a_s` is diagonal when `{p, q} = {r, s}`. -/
noncomputable def hermTwo (two : Tensor) : Tensor
  | [p, q, r, s] =>
    if (p = r ∧ q = s) ∨ (p = s ∧ q = r) then two [p, q, r, s] else 1 / 2 * (two [p, q, r, s] + (starRingEnd ℂ) (two [s, r, q, p]))
  | _ => 0

end ZQ.JWInt
