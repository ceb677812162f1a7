import Verif.Model.SymOp

/-!
# Operators as dictionaries

Model of the conversions of qubit and Ising operators to and from dictionaries in `openfermion/zapata_utils/_io.py`.  JSON is the identity on
these dictionaries.  Numbers are exact.
-/

namespace ZQ.OpSerde

open ZQ ZQ.Op

/-- One entry `{"qubit": …, "op": …}` of `pauli_ops`. -/
structure PauliOpDict where
  qubit : ℕ
  op : Letter

/-- One entry of `terms`: `pauli_ops` and the coefficient with keys `real` and optionally `imag`. -/
structure TermDict where
  pauliOps : List PauliOpDict
  real : ℝ
  imag : Option ℝ

/-- The dictionary of an operator. -/
structure OpDict where
  schema : String
  terms : List TermDict

/-- zapata_utils/_io.py:107-122: the dictionary of one term; `isComplex` says that the Python type of the coefficient is `complex`. -/
def termToDict (isComplex : Term Letter → Bool) (kv : Term Letter × ℂ) : TermDict :=
  if isComplex kv.1 then ⟨kv.1.map fun f => ⟨f.1, f.2⟩, kv.2.re, some kv.2.im⟩
  else ⟨kv.1.map fun f => ⟨f.1, f.2⟩, kv.2.re, none⟩

/-- zapata_utils/_io.py:95-124 `convert_qubitop_to_dict`. -/
def qubitopToDict (isComplex : Term Letter → Bool) (o : Terms Letter) : OpDict :=
  ⟨"zapata-v1-qubit_op", o.map (termToDict isComplex)⟩

/-- zapata_utils/_io.py:230-243 `convert_isingop_to_dict`. -/
def isingopToDict (isComplex : Term Letter → Bool) (o : Terms Letter) : OpDict :=
  ⟨"zapata-v1-ising_op", o.map (termToDict isComplex)⟩

/-- zapata_utils/_io.py:135-137: the coefficient; a missing or zero imaginary part is skipped. -/
noncomputable def dictCoefficient (d : TermDict) : ℂ :=
  match d.imag with
  | none => (d.real : ℂ)
  | some y => if y = 0 then (d.real : ℂ) else (d.real : ℂ) + Complex.I * (y : ℂ)

/-- zapata_utils/_io.py:132-134: the factors. -/
def dictTerm (d : TermDict) : Term Letter := d.pauliOps.map fun p => (p.qubit, p.op)

/-- zapata_utils/_io.py:131-138: one entry is read and added. -/
noncomputable def dictStep (constructor : Term Letter → ℂ → Except Err (Terms Letter)) (full : Terms Letter) (td : TermDict) : Except Err (Terms Letter) := do
  let o ← constructor (dictTerm td) (dictCoefficient td)
  .ok (add full o)

/-- zapata_utils/_io.py:127-140 `convert_dict_to_operator`; `constructor` builds the operator of one term, or raises. -/
noncomputable def dictToOperator (constructor : Term Letter → ℂ → Except Err (Terms Letter)) (d : OpDict) : Except Err (Terms Letter) :=
  d.terms.foldlM (dictStep constructor) []

/-- zapata_utils/_io.py:85-92 `convert_dict_to_qubitop`. -/
noncomputable def dictToQubitop (d : OpDict) : Except Err (Terms Letter) := dictToOperator qubitOf d

/-- zapata_utils/_io.py:246-255 `convert_dict_to_isingop`. -/
noncomputable def dictToIsingop (d : OpDict) : Except Err (Terms Letter) := dictToOperator isingOf d

/-- zapata_utils/_io.py:172-188 `save_qubit_operator_set`: the list under `qubit_operators`, each operator with its types. -/
def saveSet (ops : List ((Term Letter → Bool) × Terms Letter)) : List OpDict := ops.map fun p => qubitopToDict p.1 p.2

/-- zapata_utils/_io.py:191-209 `load_qubit_operator_set`. -/
noncomputable def loadSet (ds : List OpDict) : Except Err (List (Terms Letter)) := ds.mapM dictToQubitop

end ZQ.OpSerde
