import Verif.Model.Files
import Verif.Model.GroundState
import Verif.Model.JWInteraction
import Verif.Model.BravyiKitaev
import Verif.Model.Evaluate

/-!
# Model: chemistry workflows

The workflow steps `transform_interaction_operator` (`steps/transforms.py`), `jw_get_ground_state_at_particle_number`,
`get_ground_state_rdm_from_qubit_operator` and `evaluate_qubit_operator_list` (`steps/evaluation.py`), `group_comeasureable_terms_greedy`
(`steps/operators.py`), `expectation_values_from_rdms` and `expectation_values_from_rdms_for_qubitoperator_list` (`steps/measure.py`), which read and write files (`Model/Files.lean`).  What is in the files after an
exception is not modelled.  The Python types of coefficients (which decide whether an imaginary part is written) are a parameter, and so are the measured
time and the eigensolvers.
-/

namespace ZQ.Workflow

open ZQ ZQ.Op ZQ.PolyT ZQ.Files ZQ.ArraySerde ZQ.Sparse

/-- The place of an entry in the data of an array of shape `(n, ..., n)`. -/
def place (n : ℕ) (idx : List ℕ) : ℕ := idx.foldl (fun a i => a * n + i) 0

/-- The entries of an array of shape `(n, ..., n)`. -/
def entries (n : ℕ) (a : NDArray) : Tensor := fun idx => a.data.getD (place n idx) 0

/-- The array of shape `(n, ..., n)` with `d` places and the given entries. -/
def arrayFrom (n d : ℕ) (t : Tensor) (cplx : Bool) : NDArray := ⟨List.replicate d n, (allIndices n d).map t, cplx⟩

/-- What a step is given as an operator: the name of a file or an object. -/
inductive Operand
  | file (p : Results.Str)
  | interaction (n : ℕ) (c : ℂ) (one two : Tensor)
  | fermion (o : Terms Bool)
  | qubit (o : Terms Letter)

/-- polynomial_tensor.py:128-147 with interaction_operator.py:70-79: an interaction operator from arrays; the number of orbitals is read from the first
array. -/
def ofArrays (o : InteractionOp) : Operand :=
  .interaction (o.one.shape.headD 0) o.constant (entries (o.one.shape.headD 0) o.one) (entries (o.one.shape.headD 0) o.two)

/-- One of the save functions, inside a step. -/
noncomputable def save (fs : FS) (name : String) (a : Artefact) : Except FErr FS :=
  match saveTo fs (.str name.toList) a with
  | (fs', none) => .ok fs'
  | (_, some e) => .error e

/-- jordan_wigner.py:23-46 `jordan_wigner`: one function for each type. -/
noncomputable def jordanWignerAny : Operand → Except Err (Terms Letter)
  | .fermion o => .ok (jordanWigner o)
  | .interaction n c one two => JWInt.jwInteraction n c one two none
  | _ => .error .typeError

/-- transforms/opconversions/conversions.py:36-49 `get_fermion_operator`: only tensors are converted. -/
noncomputable def fermionAny : Operand → Except Err (Terms Bool)
  | .interaction n c one two => toFermion (interaction n c one two)
  | _ => .error .typeError

/-- steps/transforms.py:31-41: the transformations by their names. -/
noncomputable def transformed (name : String) (x : Operand) : Except Err (Terms Letter) :=
  if name = "Jordan-Wigner" then jordanWignerAny x
  else if name = "Bravyi-Kitaev" then do
    let f ← fermionAny x
    bravyiKitaev f none
  else .error .runtimeError

/-- steps/transforms.py:28-29: a file is loaded. -/
noncomputable def theInteraction (fs : FS) : Operand → Except FErr Operand
  | .file p => do
    let o ← loadInteraction fs (.str p)
    .ok (ofArrays o)
  | x => .ok x

/-- steps/transforms.py:17-46 `transform_interaction_operator`; `types` are the Python types of the coefficients (whether they are complex), `walltime` the
time measured. -/
noncomputable def transformStep (types : Terms Letter → Term Letter → Bool) (walltime : ℝ) (name : String) (x : Operand) (fs : FS) : Except FErr FS := do
  let x ← theInteraction fs x
  let q ← lift (transformed name x)
  let fs1 ← save fs "transformed-operator.json" (.qubitOp (types q) q)
  save fs1 "timing.json" (.timing walltime)

/-- steps/evaluation.py:125-126: a file is loaded; operators of other classes are not modelled (`TypeError`). -/
noncomputable def theQubit (fs : FS) : Operand → Except FErr (Terms Letter)
  | .file p => loadQubitOp fs (.str p)
  | .qubit o => .ok o
  | _ => .error (.py .typeError)

/-- steps/evaluation.py:112-136 `jw_get_ground_state_at_particle_number`. -/
noncomputable def groundStep (eigh eigsh : Mat ℂ → Ground.Eigen) (particles : ℤ) (x : Operand) (fs : FS) : Except FErr FS := do
  let o ← theQubit fs x
  let M ← lift (qubitOperatorSparse o none)
  let ea ← lift (Ground.groundStateAt eigh eigsh M particles)
  let _ ← makeWavefunction ⟨[ea.2.length], ea.2, true⟩
  let fs1 ← save fs "ground-state.json" (.wavefunction ea.2)
  save fs1 "value-estimate.json" (.value ⟨ea.1, none⟩)

/-- The arrays of reduced density matrices. -/
def rdmArtefact (R : PolyTensor) : Artefact :=
  .rdm (arrayFrom R.n 2 ((PyDict.get? R.tensors [true, false]).getD fun _ => 0) true)
    (arrayFrom R.n 4 ((PyDict.get? R.tensors [true, true, false, false]).getD fun _ => 0) true)

/-- steps/evaluation.py:98-109 `get_ground_state_rdm_from_qubit_operator`; the operator is always loaded from a file. -/
noncomputable def rdmStep (eigh eigsh : Mat ℂ → Ground.Eigen) (particles : ℤ) (p : Results.Str) (fs : FS) : Except FErr FS := do
  let o ← loadQubitOp fs (.str p)
  let R ← lift (Ground.groundStateRdm eigh eigsh o particles)
  save fs "rdms.json" (rdmArtefact R)

/-- zapata_utils/_io.py:308-320 `convert_dict_to_interaction_rdm`: the number of orbitals is read from the first array. -/
def ofRdmArrays (a : NDArray × NDArray) : PolyTensor :=
  Rdm.make (a.1.shape.headD 0) (entries (a.1.shape.headD 0) a.1) (entries (a.1.shape.headD 0) a.2)

/-- The array of a list of real numbers. -/
def realArray (vs : List ℝ) : NDArray := ⟨[vs.length], vs.map Complex.ofReal, false⟩

/-- steps/measure.py:293-301 `expectation_values_from_rdms`. -/
noncomputable def rdmValuesStep (rdm op : Results.Str) (sort : Bool) (fs : FS) : Except FErr FS := do
  let o ← loadQubitOp fs (.str op)
  let a ← loadRdm fs (.str rdm)
  let vs ← lift (Rdm.expectationValues (ofRdmArrays a) o sort)
  save fs "expectation_values.json" (.expectation ⟨realArray vs, none, none⟩)

/-- steps/measure.py:304-327 `expectation_values_from_rdms_for_qubitoperator_list`. -/
noncomputable def rdmListStep (rdm ops : Results.Str) (sort : Bool) (fs : FS) : Except FErr FS := do
  let os ← loadQubitOps fs (.str ops)
  let a ← loadRdm fs (.str rdm)
  let vs ← lift (Rdm.expectationValuesList (ofRdmArrays a) os sort)
  save fs "expectation_values.json" (.expectation ⟨realArray vs, none, none⟩)

/-- steps/operators.py:199-208 `group_comeasureable_terms_greedy`. -/
noncomputable def groupStep (types : Terms Letter → Term Letter → Bool) (x : Operand) (sort : Bool) (fs : FS) : Except FErr FS := do
  let o ← theQubit fs x
  save fs "grouped-operator.json" (.qubitOps ((groupGreedy o sort).map fun g => (types g, g)))

/-- steps/evaluation.py:139-149 `evaluate_qubit_operator_list` with two files. -/
noncomputable def evaluateListStep (ops values : Results.Str) (fs : FS) : Except FErr FS := do
  let os ← loadQubitOps fs (.str ops)
  let e ← loadExpectation fs (.str values)
  let v ← lift (Evaluate.evaluateQubitOperatorList os e.values.data)
  save fs "value-estimate.json" (.value ⟨v, none⟩)

end ZQ.Workflow
