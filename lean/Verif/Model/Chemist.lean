import Verif.Model.FermionTools

/-!
# Chemist ordering

Model of `chemist_ordered` in `openfermion/transforms/opconversions/term_reordering.py`.
-/

namespace ZQ.Chem

open ZQ ZQ.Op ZQ.FTools

/-- term_reordering.py:50-63: one turn of the loop over the terms of the normal ordered operator. -/
noncomputable def chemistStep (acc : Terms Bool) (kv : Term Bool × ℂ) : Except Err (Terms Bool) :=
  if kv.1.length = 2 ∨ kv.1.length = 0 then .ok (add acc (ofTerm fermion kv.1 kv.2))
  else
    match kv.1 with
    | a :: b :: c :: d :: _ =>
      let acc := if b.1 = c.1 then add acc (ofTerm fermion [a, d] kv.2) else acc
      .ok (add acc (ofTerm fermion [a, c, b, d] (-kv.2)))
    | _ => .error .indexError

/-- term_reordering.py:24-64 `chemist_ordered`. -/
noncomputable def chemistOrdered (o : Terms Bool) : Except Err (Terms Bool) :=
  if isTwoBodyNumberConserving o false then (normalOrdered o).foldlM chemistStep []
  else .error .typeError

end ZQ.Chem
