import Verif.Model.ArraySerde
import Verif.Model.Distribution

/-!
# Optimization results as JSON

Model of `serialization.py`: the encoder and decoder used by `save_optimization_results` and `load_optimization_results`.  JSON itself (writing
text and reading it back) is the identity on the plain values `null`, `bool`, `num`, `str`, `list` and `dict`.  Numbers are exact reals, keys of
dictionaries are strings, strings are lists of characters.
-/

namespace ZQ.Results

open ArraySerde Dist

/-- A Python string. -/
abbrev Str := List Char

/-- Python values that occur in optimization results; the first six kinds but `tup` are what JSON has.  `opt` is `OptimizeResult`, `entry` and
`entryArt` are `HistoryEntry` and `HistoryEntryWithArtifacts` (history/recorder.py:42-57), `dist` is `MeasurementOutcomeDistribution`. -/
inductive Data
  | null
  | bool (b : Bool)
  | num (x : ℝ)
  | str (s : Str)
  | list (l : List Data)
  | tup (l : List Data)
  | dict (items : List (Str × Data))
  | opt (items : List (Str × Data))
  | entry (call params value : Data)
  | entryArt (call params value artifacts : Data)
  | estimate (v : ValueEstimate)
  | array (a : NDArray)
  | dist (d : DDict)

/-- Dictionary keys used by the encoder and decoder. -/
def kReal : Str := ['r', 'e', 'a', 'l']
/-- See `kReal`. -/
def kImag : Str := ['i', 'm', 'a', 'g']
/-- See `kReal`. -/
def kCall : Str := ['c', 'a', 'l', 'l', '_', 'n', 'u', 'm', 'b', 'e', 'r']
/-- See `kReal`. -/
def kParams : Str := ['p', 'a', 'r', 'a', 'm', 's']
/-- See `kReal`. -/
def kValue : Str := ['v', 'a', 'l', 'u', 'e']
/-- See `kReal`. -/
def kArtifacts : Str := ['a', 'r', 't', 'i', 'f', 'a', 'c', 't', 's']
/-- See `kReal`. -/
def kSchema : Str := ['s', 'c', 'h', 'e', 'm', 'a']
/-- See `kReal`. -/
def kPrecision : Str := ['p', 'r', 'e', 'c', 'i', 's', 'i', 'o', 'n']

/-- utils.py:20, 288: `"zapata-v1-value_estimate"`. -/
def valueSchema : Str := ['z', 'a', 'p', 'a', 't', 'a', '-', 'v', '1', '-', 'v', 'a', 'l', 'u', 'e', '_', 'e', 's', 't', 'i', 'm', 'a', 't', 'e']
/-- serialization.py:45, 83, 115: `"zapata-v1-optimization_result"`. -/
def optSchema : Str := ['z', 'a', 'p', 'a', 't', 'a', '-', 'v', '1', '-', 'o', 'p', 't', 'i', 'm', 'i', 'z', 'a', 't', 'i', 'o', 'n', '_', 'r', 'e', 's',
  'u', 'l', 't']

/-! ## Encoding -/

mutual
/-- Nested lists of numbers as a value. -/
def nestedData : Nested → Data
  | .num x => .num x
  | .arr l => .list (nestedDataList l)
/-- The items of a list. -/
def nestedDataList : List Nested → List Data
  | [] => []
  | n :: l => nestedData n :: nestedDataList l
end

/-- utils.py:43-60 `convert_array_to_dict` as a dictionary. -/
def arrayData (a : NDArray) : Data :=
  match (arrayToDict a).imag with
  | none => .dict [(kReal, nestedData (arrayToDict a).real)]
  | some j => .dict [(kReal, nestedData (arrayToDict a).real), (kImag, nestedData j)]

/-- utils.py:284-299 `ValueEstimate.to_dict` as a dictionary. -/
def estimateData (v : ValueEstimate) : Data :=
  .dict [(kSchema, .str valueSchema), (kValue, .num v.value), (kPrecision, match v.precision with | none => .null | some p => .num p)]

/-- The text of a string key. -/
def keyText : Key → Str
  | .str s => s
  | _ => []

/-- serialization.py:53-56 and `change_tuple_dict_keys_to_comma_separated_integers`. -/
def distData (d : DDict) : Data := .dict ((save d).map fun kv => (keyText kv.1, .num kv.2))

mutual
/-- serialization.py:35-57 `preprocess` followed by the encoding of arrays by `OrquestraEncoder.default` (lines 60-76): the plain value that is
written.  `_asdict` of a named tuple is the dictionary of its fields. -/
def encode : Data → Data
  | .null => .null
  | .bool b => .bool b
  | .num x => .num x
  | .str s => .str s
  | .list l => .list (encodeList l)
  | .tup l => .list (encodeList l)
  | .dict items => .dict (encodeItems items)
  | .opt items => .dict (PyDict.set (encodeItems items) kSchema (.str optSchema))
  | .entry c p v => .dict [(kCall, encode c), (kParams, encode p), (kValue, encode v)]
  | .entryArt c p v a => .dict [(kCall, encode c), (kParams, encode p), (kValue, encode v), (kArtifacts, encode a)]
  | .estimate v => estimateData v
  | .array a => arrayData a
  | .dist d => distData d
/-- The items of a list. -/
def encodeList : List Data → List Data
  | [] => []
  | x :: l => encode x :: encodeList l
/-- The items of a dictionary. -/
def encodeItems : List (Str × Data) → List (Str × Data)
  | [] => []
  | (k, v) :: l => (k, encode v) :: encodeItems l
end

/-! ## Decoding -/

mutual
/-- A value as nested lists of numbers, if it is one. -/
def toNested : Data → Option Nested
  | .num x => some (.num x)
  | .list l => (toNestedList l).map .arr
  | _ => none
/-- The items of a list. -/
def toNestedList : List Data → Option (List Nested)
  | [] => some []
  | x :: l => match toNested x, toNestedList l with
    | some n, some m => some (n :: m)
    | _, _ => none
end

/-- `np.array(value)`; arrays of anything but numbers are not modelled (`TypeError`). -/
def asArray (x : Data) : Except Err (List ℕ × List ℝ) :=
  match toNested x with
  | some n => fromNested n
  | none => .error .typeError

/-- serialization.py:31-32: `isinstance(value, Number)`, with the number.  Booleans and value estimates are numbers too. -/
def number : Data → Option ℝ
  | .num x => some x
  | .bool b => some (if b then 1 else 0)
  | .estimate v => some v.value
  | _ => none

/-- serialization.py:96-100. -/
noncomputable def arrayHook (r : Data) (j : Option Data) : Except Err Data := do
  let re ← asArray r
  match j with
  | none => .ok (.array ⟨re.1, re.2.map fun x : ℝ => (x : ℂ), false⟩)
  | some j => do
    let im ← asArray j
    let a ← addImag re im
    .ok (.array a)

/-- serialization.py:101-103: the named tuple called with the items as keyword arguments; missing or unexpected ones are a `TypeError`. -/
def entryHook (items : List (Str × Data)) : Except Err Data :=
  if kArtifacts ∉ PyDict.keys items then
    match PyDict.get? items kCall, PyDict.get? items kParams, PyDict.get? items kValue with
    | some c, some p, some v => if items.length = 3 then .ok (.entry c p v) else .error .typeError
    | _, _, _ => .error .typeError
  else
    match PyDict.get? items kCall, PyDict.get? items kParams, PyDict.get? items kValue, PyDict.get? items kArtifacts with
    | some c, some p, some v, some a => if items.length = 4 then .ok (.entryArt c p v a) else .error .typeError
    | _, _, _, _ => .error .typeError

/-- utils.py:301-309 `ValueEstimate.from_dict`; values and precisions that are not numbers are not modelled (`TypeError`). -/
def estimateHook (items : List (Str × Data)) : Except Err Data :=
  match PyDict.get? items kValue with
  | none => .error .keyError
  | some x => match number x with
    | none => .error .typeError
    | some v => match PyDict.get? items kPrecision with
      | none => .ok (.estimate ⟨v, none⟩)
      | some .null => .ok (.estimate ⟨v, none⟩)
      | some (.num p) => .ok (.estimate ⟨v, some p⟩)
      | some _ => .error .typeError

/-- serialization.py:82-85, 108-111.  A schema that cannot be looked up (a list, dictionary or array) is a `TypeError`. -/
def schemaHook (items : List (Str × Data)) : Except Err Data :=
  match PyDict.get? items kSchema with
  | some (.str s) =>
    if s = valueSchema then estimateHook (PyDict.del items kSchema)
    else if s = optSchema then .ok (.opt (PyDict.del items kSchema))
    else .ok (.dict items)
  | some (.list _) => .error .typeError
  | some (.dict _) => .error .typeError
  | some (.opt _) => .error .typeError
  | some (.array _) => .error .typeError
  | _ => .ok (.dict items)

open Classical in
/-- serialization.py:90-111 `OrquestraDecoder.object_hook`. -/
noncomputable def hook (items : List (Str × Data)) : Except Err Data :=
  match PyDict.get? items kReal with
  | some r => arrayHook r (PyDict.get? items kImag)
  | none =>
    if kCall ∈ PyDict.keys items ∧ kValue ∈ PyDict.keys items then entryHook items
    else match items.mapM (fun kv => (number kv.2).map fun x => (Key.str kv.1, x)) with
      | some nums => do
        let d ← preprocess nums
        if IsDistribution d then do
          let d ← make nums false
          .ok (.dist d)
        else schemaHook items
      | none => schemaHook items

mutual
/-- `json.load(..., cls=OrquestraDecoder)`: the hook is applied to every dictionary, innermost first. -/
noncomputable def decode : Data → Except Err Data
  | .list l => do
    let l' ← decodeList l
    .ok (.list l')
  | .dict items => do
    let items' ← decodeItems items
    hook items'
  | x => .ok x
/-- The items of a list. -/
noncomputable def decodeList : List Data → Except Err (List Data)
  | [] => .ok []
  | x :: l => do
    let y ← decode x
    let m ← decodeList l
    .ok (y :: m)
/-- The items of a dictionary. -/
noncomputable def decodeItems : List (Str × Data) → Except Err (List (Str × Data))
  | [] => .ok []
  | (k, v) :: l => do
    let y ← decode v
    let m ← decodeItems l
    .ok ((k, y) :: m)
end

/-- serialization.py:114-117 `save_optimization_results`: the value that is written, and the dictionary of the caller afterwards. -/
def saveResults (items : List (Str × Data)) : Data × List (Str × Data) :=
  (encode (.dict (PyDict.set items kSchema (.str optSchema))), PyDict.set items kSchema (.str optSchema))

/-- serialization.py:120-122 `load_optimization_results`. -/
noncomputable def loadResults (written : Data) : Except Err Data := decode written

end ZQ.Results
