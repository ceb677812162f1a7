import Verif.Model.SymOp

/-!
# Operators of the multiband Hubbard model: openfermion/hamiltonians/general_hubbard.py
-/

namespace ZQ.GeneralHubbard

open ZQ ZQ.Op

/-- general_hubbard.py:31-35 `number_operator`. -/
noncomputable def numberOperator (i : ℕ) (c : ℂ := 1) (phs : Bool := false) : Terms Bool :=
  let op := ofTerm fermion [(i, true), (i, false)] c
  if phs then sub op (ofTerm fermion [] (1 / 2)) else op

/-- general_hubbard.py:38-41 `interaction_operator`. -/
noncomputable def interactionOperator (i j : ℕ) (c : ℂ := 1) (phs : Bool := false) : Terms Bool :=
  mul fermion (numberOperator i c phs) (numberOperator j 1 phs)

end ZQ.GeneralHubbard
