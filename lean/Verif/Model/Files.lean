import Verif.Model.ResultSerde
import Verif.Model.OpSerde
import Verif.Model.Measurement
import Verif.Model.Wavefunction

/-!
# Files with JSON

Model of the functions that save objects to JSON files and load them: in `utils.py`, `serialization.py` (arrays), `measurement.py`, `circuits/layouts.py`
and `openfermion/zapata_utils/_io.py`. The file system maps paths to what the text of the file is as JSON. The values are those of `Model/ResultSerde.lean`;
writing JSON text and reading it back is the identity on plain values. Simplifications: files can be opened, writing is one step (no crash in the middle),
integers and floats are not told apart.
-/

namespace ZQ.Files

open ZQ ZQ.Results ZQ.ArraySerde

/-- The exceptions: those of Python's own functions, `OSError` and `AttributeError`. -/
inductive FErr
  | py (e : Err) | os | attributeError
  deriving DecidableEq

/-- The files that exist; `some none` is a file whose text is not JSON (an empty file). -/
abbrev FS := Str → Option (Option Data)

/-- What is given as a file: a `str`, another path (`bytes`, `os.PathLike`), or an open file with its text. -/
inductive Target
  | str (p : Str)
  | path (p : Str)
  | opened (text : Option Data)

/-- Errors of Python's own functions. -/
def lift {α : Type} (x : Except Err α) : Except FErr α :=
  match x with
  | .ok a => .ok a
  | .error e => .error (.py e)

/-! ## JSON -/

mutual
/-- `json.dumps`: the plain value that is written. A named tuple is a tuple, a value estimate is a float; arrays and distributions are a `TypeError`. -/
def dumps : Data → Except Err Data
  | .null => .ok .null
  | .bool b => .ok (.bool b)
  | .num x => .ok (.num x)
  | .str s => .ok (.str s)
  | .list l => (dumpsList l).map .list
  | .tup l => (dumpsList l).map .list
  | .dict items => (dumpsItems items).map .dict
  | .opt items => (dumpsItems items).map .dict
  | .entry c p v => (do
    let c' ← dumps c
    let p' ← dumps p
    let v' ← dumps v
    .ok (.list [c', p', v']))
  | .entryArt c p v a => (do
    let c' ← dumps c
    let p' ← dumps p
    let v' ← dumps v
    let a' ← dumps a
    .ok (.list [c', p', v', a']))
  | .estimate v => .ok (.num v.value)
  | .array _ => .error .typeError
  | .dist _ => .error .typeError
/-- The items of a list. -/
def dumpsList : List Data → Except Err (List Data)
  | [] => .ok []
  | x :: l => do
    let y ← dumps x
    let m ← dumpsList l
    .ok (y :: m)
/-- The items of a dictionary. -/
def dumpsItems : List (Str × Data) → Except Err (List (Str × Data))
  | [] => .ok []
  | (k, v) :: l => do
    let y ← dumps v
    let m ← dumpsItems l
    .ok ((k, y) :: m)
end

/-- `json.load`; `JSONDecodeError` is a `ValueError`. -/
def parse : Option Data → Except FErr Data
  | some d => .ok d
  | none => .error (.py .valueError)

/-- `open(path, "r")` and `json.load`. -/
def readFile (fs : FS) (p : Str) : Except FErr Data :=
  match fs p with
  | none => .error .os
  | some text => parse text

/-- utils.py:322-326 (and 355-359, 462-466; layouts.py:58-62, 89-93, 142-146; _io.py:63-67, 160-164, 266-270, 346-350; measurement.py:658-662): a `str` is
opened, anything else is handed to `json.load`, which needs a `read` method. -/
def readStr (fs : FS) : Target → Except FErr Data
  | .str p => readFile fs p
  | .path _ => .error .attributeError
  | .opened text => parse text

/-- serialization.py:125-135 `ensure_open` for reading, and `json.load`. -/
def readAny (fs : FS) : Target → Except FErr Data
  | .str p => readFile fs p
  | .path p => readFile fs p
  | .opened text => parse text

/-- utils.py:566-567: `open(filename, "r")` for any path. -/
def readPath (fs : FS) : Target → Except FErr Data
  | .str p => readFile fs p
  | .path p => readFile fs p
  | .opened _ => .error (.py .typeError)

/-- The file at one path is replaced. -/
def put (fs : FS) (path : Str) (c : Option Data) : FS := fun p => if p = path then some c else fs p

/-- `with open(path, "w") as f: f.write(json.dumps(value))`: the file is emptied before `json.dumps` runs. -/
def writeFile (fs : FS) (p : Str) (value : Data) : FS × Option FErr :=
  match dumps value with
  | .ok j => (put fs p (some j), none)
  | .error e => (put fs p none, some (.py e))

/-- `open(filename, "w")` for any path; an open file is a `TypeError`. -/
def write (fs : FS) (t : Target) (value : Data) : FS × Option FErr :=
  match t with
  | .str p => writeFile fs p value
  | .path p => writeFile fs p value
  | .opened _ => (fs, some (.py .typeError))

/-! ## The values that are written -/

/-- A text. -/
def txt (s : String) : Data := .str s.toList

/-- `data[key]`; a list is a `TypeError`. -/
def field (d : Data) (k : String) : Except Err Data :=
  match d with
  | .dict items => match PyDict.get? items k.toList with
    | some x => .ok x
    | none => .error .keyError
  | _ => .error .typeError

/-- `data.get(key)`. -/
def getField (d : Data) (k : String) : Except Err (Option Data) :=
  match d with
  | .dict items => .ok (PyDict.get? items k.toList)
  | _ => .error .typeError

/-- The items of a list. -/
def items (d : Data) : Except Err (List Data) :=
  match d with
  | .list l => .ok l
  | _ => .error .typeError

/-- utils.py:34-40: the array of the entries under `real` and `imag`; lists of anything but numbers are not modelled (`TypeError`). -/
noncomputable def arrayOf (r : Data) (j : Option Data) : Except Err NDArray :=
  match toNested r, j with
  | some re, none => dictToArray ⟨re, none⟩
  | some re, some j => match toNested j with
    | some im => dictToArray ⟨re, some im⟩
    | none => .error .typeError
  | none, _ => .error .typeError

/-- utils.py:25-40 `convert_dict_to_array` of a JSON dictionary. -/
noncomputable def parseArray (d : Data) : Except Err NDArray := do
  let r ← field d "real"
  let j ← getField d "imag"
  arrayOf r j

/-- utils.py:301-309 `ValueEstimate.from_dict`. -/
def parseEstimate (d : Data) : Except Err ValueEstimate := do
  let x ← field d "value"
  let p ← getField d "precision"
  match x, p with
  | .num v, none => .ok ⟨v, none⟩
  | .num v, some .null => .ok ⟨v, none⟩
  | .num v, some (.num p) => .ok ⟨v, some p⟩
  | _, _ => .error .typeError

/-- utils.py:331-342 `save_value_estimate` (the schema is set again to the same text). -/
def valueRecord (v : ValueEstimate) : Data :=
  .dict [("schema".toList, txt "zapata-v1-value_estimate"), ("value".toList, .num v.value),
    ("precision".toList, match v.precision with | none => .null | some p => .num p)]

/-- utils.py:364-377 `save_list`. -/
def listRecord (l : List Data) (name : Str) : Data :=
  .dict [("schema".toList, .str ("zapata-v1-".toList ++ name ++ "-list".toList)), ("list".toList, .list l)]

/-- utils.py:380-390 `save_generic_dict`. -/
def genericRecord (d : List (Str × Data)) : Data := .dict (d.foldl (fun acc kv => PyDict.set acc kv.1 kv.2) [("schema".toList, txt "zapata-v1-dict")])

/-- utils.py:518-529 `save_timing`. -/
def timingRecord (x : ℝ) : Data := .dict [("schema".toList, txt "zapata-v1-timing"), ("walltime".toList, .num x)]

/-- utils.py:532-551 `save_nmeas_estimate`. -/
def nmeasRecord (nmeas nterms : ℝ) (frame : Option NDArray) : Data :=
  .dict ([("schema".toList, txt "zapata-v1-hamiltonian_analysis"), ("K".toList, .num nmeas), ("nterms".toList, .num nterms)] ++
    match frame with | none => [] | some a => [("frame_meas".toList, arrayData a)])

/-- serialization.py:141-152 `save_array`. -/
def arrayRecord (a : NDArray) : Data := .dict [("schema".toList, txt "zapata-v1-array"), ("array".toList, arrayData a)]

/-- measurement.py:232-242: parities. -/
structure Parities where
  values : NDArray
  correlations : Option (List NDArray)

/-- An optional key holding a list of arrays; an empty list is not written. -/
def arraysField (k : String) (l : Option (List NDArray)) : List (Str × Data) :=
  match l with
  | some (a :: l) => [(k.toList, .list ((a :: l).map arrayData))]
  | _ => []

/-- measurement.py:236-242 and 256-267 `save_parities`. -/
def paritiesRecord (p : Parities) : Data :=
  .dict ([("values".toList, arrayData p.values)] ++ arraysField "correlations" p.correlations ++ [("schema".toList, txt "zapata-v1-parities")])

/-- measurement.py:133-155 and 37-50 `save_expectation_values`. -/
def expectationRecord (e : ExpectationValues) : Data :=
  .dict ([("schema".toList, txt "zapata-v1-expectation_values"), ("frames".toList, .list []), ("expectation_values".toList, arrayData e.values)] ++
    arraysField "correlations" e.correlations ++ arraysField "estimator_covariances" e.covariances)

/-- measurement.py:86-97 `save_wavefunction`, for numerical amplitudes (a complex vector). -/
def wavefunctionRecord (amps : List ℂ) : Data :=
  .dict [("schema".toList, txt "zapata-v1-wavefunction"), ("amplitudes".toList, arrayData ⟨[amps.length], amps, true⟩)]

/-- measurement.py:669-684 `Measurements.save`. -/
noncomputable def measurementsRecord (m : List (List ℕ)) : Data :=
  .dict [("schema".toList, txt "zapata-v1-measurements"), ("counts".toList, .dict ((Meas.getCounts m).map fun kv => (kv.1, .num kv.2))),
    ("bitstrings".toList, .list (m.map fun b => .list (b.map fun x : ℕ => .num x)))]

/-- circuits/layouts.py:27-28 and 36-46 `save_circuit_layers`; each group of qubits is a tuple. -/
def layersRecord (layers : List (List (List Data))) : Data :=
  .dict [("layers".toList, .list (layers.map fun l => .list (l.map .tup))), ("schema".toList, txt "zapata-v1-circuit_layers")]

/-- circuits/layouts.py:67-77 `save_circuit_ordering`. -/
def orderingRecord (ordering : List Data) : Data :=
  .dict [("ordering".toList, .list ordering), ("schema".toList, txt "zapata-v1-circuit_ordering")]

/-- circuits/layouts.py:111-112 and 120-130 `save_circuit_connectivity`. -/
def connectivityRecord (connections : List (List Data)) : Data :=
  .dict [("connectivity".toList, .list (connections.map .tup)), ("schema".toList, txt "zapata-v1-circuit_connectivity")]

/-- zapata_utils/_io.py:20-34 and 72-84 `save_interaction_operator`. -/
def interactionRecord (o : InteractionOp) : Data :=
  .dict [("schema".toList, txt "zapata-v1-interaction_op"), ("constant".toList, arrayData ⟨[], [o.constant], o.constantCplx⟩),
    ("one_body_tensor".toList, arrayData o.one), ("two_body_tensor".toList, arrayData o.two)]

/-- zapata_utils/_io.py:308-320 `convert_interaction_rdm_to_dict` and 355-363 `save_interaction_rdm`. -/
def rdmRecord (one two : NDArray) : Data :=
  .dict [("schema".toList, txt "zapata-v1-interaction_rdm"), ("one_body_tensor".toList, arrayData one), ("two_body_tensor".toList, arrayData two)]

/-- The letter of a Pauli matrix. -/
def letterText : Op.Letter → Data
  | .I => txt "I"
  | .X => txt "X"
  | .Y => txt "Y"
  | .Z => txt "Z"

/-- zapata_utils/_io.py:108-122: one term. -/
def termRecord (t : OpSerde.TermDict) : Data :=
  .dict [("pauli_ops".toList, .list (t.pauliOps.map fun p => .dict [("qubit".toList, .num p.qubit), ("op".toList, letterText p.op)])),
    ("coefficient".toList, .dict ([("real".toList, .num t.real)] ++ match t.imag with | none => [] | some y => [("imag".toList, .num y)]))]

/-- zapata_utils/_io.py:95-124: an operator. -/
def opRecord (d : OpSerde.OpDict) : Data := .dict [("schema".toList, .str d.schema.toList), ("terms".toList, .list (d.terms.map termRecord))]

/-- zapata_utils/_io.py:172-188 `save_qubit_operator_set`. -/
def opSetRecord (ds : List OpSerde.OpDict) : Data :=
  .dict [("schema".toList, txt "zapata-v1-circuit_set"), ("qubit_operators".toList, .list (ds.map opRecord))]

/-- What can be saved. Operators come with the Python types of their coefficients. -/
inductive Artefact
  | value (v : ValueEstimate)
  | list (l : List Data) (name : Str)
  | generic (d : List (Str × Data))
  | timing (x : ℝ)
  | nmeas (nmeas nterms : ℝ) (frame : Option NDArray)
  | array (a : NDArray)
  | parities (p : Parities)
  | expectation (e : ExpectationValues)
  | wavefunction (amps : List ℂ)
  | measurements (m : List (List ℕ))
  | layers (l : List (List (List Data)))
  | ordering (l : List Data)
  | connectivity (l : List (List Data))
  | interaction (o : InteractionOp)
  | rdm (one two : NDArray)
  | qubitOp (isComplex : Op.Term Op.Letter → Bool) (o : Op.Terms Op.Letter)
  | isingOp (isComplex : Op.Term Op.Letter → Bool) (o : Op.Terms Op.Letter)
  | qubitOps (os : List ((Op.Term Op.Letter → Bool) × Op.Terms Op.Letter))

/-- The value that the function for this kind of object writes. -/
noncomputable def record : Artefact → Data
  | .value v => valueRecord v
  | .list l name => listRecord l name
  | .generic d => genericRecord d
  | .timing x => timingRecord x
  | .nmeas k n f => nmeasRecord k n f
  | .array a => arrayRecord a
  | .parities p => paritiesRecord p
  | .expectation e => expectationRecord e
  | .wavefunction amps => wavefunctionRecord amps
  | .measurements m => measurementsRecord m
  | .layers l => layersRecord l
  | .ordering l => orderingRecord l
  | .connectivity l => connectivityRecord l
  | .interaction o => interactionRecord o
  | .rdm one two => rdmRecord one two
  | .qubitOp c o => opRecord (OpSerde.qubitopToDict c o)
  | .isingOp c o => opRecord (OpSerde.isingopToDict c o)
  | .qubitOps os => opSetRecord (OpSerde.saveSet os)

/-- The save functions. `save_array` also writes to open files (serialization.py:151, what they hold is not modelled). -/
noncomputable def saveTo (fs : FS) (t : Target) (a : Artefact) : FS × Option FErr :=
  match t, a with
  | .opened _, .array _ => (fs, none)
  | t, a => write fs t (record a)

/-! ## Loading -/

/-- utils.py:312-328 `load_value_estimate`. -/
def loadValue (fs : FS) (t : Target) : Except FErr ValueEstimate := do
  let d ← readStr fs t
  lift (parseEstimate d)

/-- utils.py:345-361 `load_list`. -/
def loadList (fs : FS) (t : Target) : Except FErr Data := do
  let d ← readStr fs t
  lift (field d "list")

/-- utils.py:554-573 `load_nmeas_estimate`. -/
noncomputable def loadNmeas (fs : FS) (t : Target) : Except FErr (Data × Data × NDArray) := do
  let d ← readPath fs t
  lift (do
    let f ← field d "frame_meas"
    let a ← parseArray f
    let k ← field d "K"
    let n ← field d "nterms"
    .ok (k, n, a))

/-- serialization.py:155-168 `load_array`. -/
noncomputable def loadArray (fs : FS) (t : Target) : Except FErr NDArray := do
  let d ← readAny fs t
  lift (do
    let a ← field d "array"
    parseArray a)

/-- measurement.py:246-252, 163-174: an absent or empty list of arrays is `None`. -/
noncomputable def arraysOf : Option Data → Except Err (Option (List NDArray))
  | none => .ok none
  | some (.list []) => .ok none
  | some (.list (y :: l)) => do
    let as ← (y :: l).mapM parseArray
    .ok (some as)
  | some _ => .error .typeError

/-- measurement.py:246-252, 163-174: an optional key holding a list of arrays. -/
noncomputable def parseArrays (d : Data) (k : String) : Except Err (Option (List NDArray)) := do
  let x ← getField d k
  arraysOf x

/-- measurement.py:245-253, 270-283 `load_parities`. -/
noncomputable def loadParities (fs : FS) (t : Target) : Except FErr Parities := do
  let d ← readAny fs t
  lift (do
    let x ← field d "values"
    let v ← parseArray x
    let c ← parseArrays d "correlations"
    .ok ⟨v, c⟩)

/-- measurement.py:157-176, 53-66 `load_expectation_values`. -/
noncomputable def loadExpectation (fs : FS) (t : Target) : Except FErr ExpectationValues := do
  let d ← readAny fs t
  lift (do
    let x ← field d "expectation_values"
    let v ← parseArray x
    let c ← parseArrays d "correlations"
    let s ← parseArrays d "estimator_covariances"
    .ok ⟨v, c, s⟩)

/-- measurement.py:82 `Wavefunction(array)`; its exceptions are `ValueError`s (wavefunction.py:51-62). -/
noncomputable def makeWavefunction (a : NDArray) : Except FErr (Wavefunction.Wf Empty) :=
  match Wavefunction.mk? (a.data.map .num) with
  | .ok w => .ok w
  | .error _ => .error (.py .valueError)

/-- measurement.py:69-83 `load_wavefunction`; only vectors are modelled. -/
noncomputable def loadWavefunction (fs : FS) (t : Target) : Except FErr (Wavefunction.Wf Empty) := do
  let d ← readAny fs t
  let a ← lift (do
    let x ← field d "amplitudes"
    parseArray x)
  makeWavefunction a

/-- measurement.py:651-667 `Measurements.load_from_file`: each bitstring becomes a tuple. -/
def loadMeasurements (fs : FS) (t : Target) : Except FErr (List (List Data)) := do
  let d ← readStr fs t
  lift (do
    let x ← field d "bitstrings"
    let l ← items x
    l.mapM items)

/-- circuits/layouts.py:31-33, 49-64 `load_circuit_layers`. -/
def loadLayers (fs : FS) (t : Target) : Except FErr (List (List (List Data))) := do
  let d ← readStr fs t
  lift (do
    let x ← field d "layers"
    let l ← items x
    l.mapM fun layer => do
      let gs ← items layer
      gs.mapM items)

/-- circuits/layouts.py:80-95 `load_circuit_ordering`. -/
def loadOrdering (fs : FS) (t : Target) : Except FErr Data := do
  let d ← readStr fs t
  lift (field d "ordering")

/-- circuits/layouts.py:115-117, 133-148 `load_circuit_connectivity`. -/
def loadConnectivity (fs : FS) (t : Target) : Except FErr (List (List Data)) := do
  let d ← readStr fs t
  lift (do
    let x ← field d "connectivity"
    let l ← items x
    l.mapM items)

/-- zapata_utils/_io.py:37-69 `load_interaction_operator`. -/
noncomputable def loadInteraction (fs : FS) (t : Target) : Except FErr InteractionOp := do
  let d ← readStr fs t
  lift (do
    let c ← (field d "constant") >>= parseArray
    let o ← (field d "one_body_tensor") >>= parseArray
    let w ← (field d "two_body_tensor") >>= parseArray
    .ok ⟨c.data.headD 0, c.cplx, o, w⟩)

/-- zapata_utils/_io.py:323-352 `load_interaction_rdm`. -/
noncomputable def loadRdm (fs : FS) (t : Target) : Except FErr (NDArray × NDArray) := do
  let d ← readStr fs t
  lift (do
    let o ← (field d "one_body_tensor") >>= parseArray
    let w ← (field d "two_body_tensor") >>= parseArray
    .ok (o, w))

/-- A qubit index; numbers that are not natural are not modelled (`TypeError`). -/
noncomputable def parseNat : Data → Except Err ℕ
  | .num x => if (⌊x⌋₊ : ℝ) = x then .ok ⌊x⌋₊ else .error .typeError
  | _ => .error .typeError

/-- A number. -/
def parseNum : Data → Except Err ℝ
  | .num x => .ok x
  | _ => .error .typeError

/-- A Pauli letter; the constructors raise `ValueError` for other letters. -/
def parseLetter : Data → Except Err Op.Letter
  | .str s => if s = "I".toList then .ok .I else if s = "X".toList then .ok .X else if s = "Y".toList then .ok .Y else if s = "Z".toList then .ok .Z
    else .error .valueError
  | _ => .error .typeError

/-- zapata_utils/_io.py:133-134: one factor. -/
noncomputable def parseFactor (d : Data) : Except Err OpSerde.PauliOpDict := do
  let q ← (field d "qubit") >>= parseNat
  let l ← (field d "op") >>= parseLetter
  .ok ⟨q, l⟩

/-- zapata_utils/_io.py:136: an optional number. -/
def parseOptNum : Option Data → Except Err (Option ℝ)
  | none => .ok none
  | some y => (parseNum y).map some

/-- zapata_utils/_io.py:131-137: one term. -/
noncomputable def parseTerm (d : Data) : Except Err OpSerde.TermDict := do
  let ps ← (field d "pauli_ops") >>= items
  let fs ← ps.mapM parseFactor
  let c ← field d "coefficient"
  let re ← (field c "real") >>= parseNum
  let im ← (getField c "imag") >>= parseOptNum
  .ok ⟨fs, re, im⟩

/-- zapata_utils/_io.py:127-138: the terms of an operator. The schema is not read. -/
noncomputable def parseOp (d : Data) : Except Err OpSerde.OpDict := do
  let l ← (field d "terms") >>= items
  let ts ← l.mapM parseTerm
  .ok ⟨"", ts⟩

/-- zapata_utils/_io.py:152-166 `load_qubit_operator`. -/
noncomputable def loadQubitOp (fs : FS) (t : Target) : Except FErr (Op.Terms Op.Letter) := do
  let d ← readStr fs t
  lift (parseOp d >>= OpSerde.dictToQubitop)

/-- zapata_utils/_io.py:256-272 `load_ising_operator`. -/
noncomputable def loadIsingOp (fs : FS) (t : Target) : Except FErr (Op.Terms Op.Letter) := do
  let d ← readStr fs t
  lift (parseOp d >>= OpSerde.dictToIsingop)

/-- zapata_utils/_io.py:191-209 `load_qubit_operator_set`. -/
noncomputable def loadQubitOps (fs : FS) (t : Target) : Except FErr (List (Op.Terms Op.Letter)) := do
  let d ← readStr fs t
  lift (do
    let l ← (field d "qubit_operators") >>= items
    l.mapM fun x => parseOp x >>= OpSerde.dictToQubitop)

/-! ## Parameter grid evaluations -/

/-- zapata_utils/_io.py:298-301: one entry is changed in place; the value must have a method `to_dict`. -/
def gridEntry (e : List (Str × Data)) : Except FErr (List (Str × Data)) :=
  match PyDict.get? e "value".toList with
  | none => .error (.py .keyError)
  | some (.estimate v) => .ok (PyDict.set e "value".toList (valueRecord v))
  | some _ => .error .attributeError

/-- zapata_utils/_io.py:298-301: the loop; the entries afterwards, and the exception if there is one.
The entries are taken to be distinct objects: a dictionary that occurs twice in the list would already have been changed the second time. -/
def gridLoop : List (List (Str × Data)) → List (List (Str × Data)) × Option FErr
  | [] => ([], none)
  | e :: es =>
    match gridEntry e with
    | .error err => (e :: es, some err)
    | .ok e' => (e' :: (gridLoop es).1, (gridLoop es).2)

/-- zapata_utils/_io.py:287-305 `save_parameter_grid_evaluation`: the files and the caller's list afterwards, and the exception if there is one. -/
def saveGrid (fs : FS) (t : Target) (grid : List (List (Str × Data))) : FS × List (List (Str × Data)) × Option FErr :=
  match gridLoop grid with
  | (g, some e) => (fs, g, some e)
  | (g, none) =>
    let r := write fs t (.dict [("schema".toList, txt "zapata-v1-parameter_grid_evaluation"), ("values_set".toList, .list (g.map .dict))])
    (r.1, g, r.2)

/-- A call of a save function. -/
abbrev Request := Target × Artefact

/-- The files after a sequence of calls; exceptions are caught by the caller. -/
noncomputable def run (fs : FS) (rs : List Request) : FS := rs.foldl (fun fs r => (saveTo fs r.1 r.2).1) fs

end ZQ.Files
