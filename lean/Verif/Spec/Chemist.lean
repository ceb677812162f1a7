import Verif.Spec.Operators

/-! # Specification: products in chemist order -/

namespace ZQ.Chem

open ZQ.Op

/-- The empty product, `a†_p a_q` or `a†_p a_q a†_r a_s`. -/
def ChemistTerm (t : Term Bool) : Prop :=
  t = [] ∨ (∃ p q, t = [(p, true), (q, false)]) ∨ ∃ p q r s, t = [(p, true), (q, false), (r, true), (s, false)]

end ZQ.Chem
