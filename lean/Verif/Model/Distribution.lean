import Verif.Model.Bits
import Verif.Model.Matrices
import Verif.Model.PyDict
import Mathlib.Analysis.SpecialFunctions.Log.Basic

/-!
# Measurement outcome distributions

Model of `distribution/_measurement_outcome_distribution.py`, `clipped_negative_log_likelihood.py`,
`jensen_shannon_divergence.py` and `mmd.py`.  Probabilities are exact real numbers.
-/

namespace ZQ.Dist

/-- A key of the input dictionary: a Python string, a tuple of ints, or an object of another type. -/
inductive Key
  | str (s : List Char)
  | tup (t : List ℤ)
  | other
  deriving DecidableEq

/-- A dictionary from outcome tuples to probabilities. -/
abbrev DDict := PyDict (List ℤ) ℝ

/-- Python `int(s)` on a string.  External builtin; only an optional minus sign followed by ASCII digits is
modelled, everything else is a `ValueError` (Python also accepts blanks, `+` and `_`). -/
def pyIntDigits : List Char → Option ℕ
  | [] => none
  | s => (s.mapM Bits.charInt).map fun ds => ds.foldl (fun acc d => 10 * acc + d) 0

/-- See `pyIntDigits`. -/
def pyInt : List Char → Option ℤ
  | '-' :: s => (pyIntDigits s).map fun n => -(n : ℤ)
  | s => (pyIntDigits s).map fun n => (n : ℤ)

/-- Python `s.split(",")`. External builtin. -/
def splitComma : List Char → List (List Char)
  | [] => [[]]
  | c :: s =>
    if c = ',' then [] :: splitComma s
    else match splitComma s with
      | [] => [[c]]
      | w :: ws => (c :: w) :: ws

/-- _measurement_outcome_distribution.py:90-101, conversion of one key. -/
def preprocessKey : Key → Except Err (List ℤ)
  | .str s =>
    match (if ',' ∉ s then s.map (fun c => [c]) else splitComma s).mapM pyInt with
    | some t => .ok t
    | none => .error .valueError
  | .tup t => .ok t
  | .other => .error .runtimeError

/-- _measurement_outcome_distribution.py:81-103 `preprocess_distibution_dict`. -/
def preprocess (d : List (Key × ℝ)) : Except Err DDict := do
  let items ← d.mapM fun kv => (preprocessKey kv.1).map fun t => (t, kv.2)
  return PyDict.ofItems items

/-- _measurement_outcome_distribution.py:106-115 `_is_non_negative`. -/
def IsNonNegative (d : DDict) : Prop := ∀ kv ∈ d, 0 ≤ kv.2

/-- _measurement_outcome_distribution.py:118-128 `_is_key_length_fixed` (of a non-empty dictionary). -/
def IsKeyLengthFixed (d : DDict) : Prop := ∀ kv ∈ d, kv.1.length = ((PyDict.keys d).headD []).length

/-- _measurement_outcome_distribution.py:131-145 `_are_keys_non_negative_integer_tuples` (entries are ints). -/
def AreKeysNonNegative (d : DDict) : Prop := ∀ kv ∈ d, ∀ s ∈ kv.1, 0 ≤ s

/-- _measurement_outcome_distribution.py:148-170 `is_measurement_outcome_distribution`. -/
def IsDistribution (d : DDict) : Prop :=
  d ≠ [] ∧ IsNonNegative d ∧ IsKeyLengthFixed d ∧ AreKeysNonNegative d

/-- `sum(input_dict.values())`. -/
noncomputable def norm (d : DDict) : ℝ := (PyDict.values d).sum

/-- Python `math.isclose(a, b)` with the default tolerances. External builtin. -/
def IsClose (a b : ℝ) : Prop := |a - b| ≤ max (1 / 10 ^ 9 * max |a| |b|) 0

/-- _measurement_outcome_distribution.py:173-186 `is_normalized`. -/
def IsNormalized (d : DDict) : Prop := IsClose (norm d) 1

/-- Python `sys.float_info.min`. -/
noncomputable def floatMin : ℝ := 1 / 2 ^ 1022

open Classical in
/-- _measurement_outcome_distribution.py:189-221 `normalize_measurement_outcome_distribution`. -/
noncomputable def normalize (d : DDict) : Except Err DDict :=
  let n := norm d
  if n = 0 then .error .valueError
  else if 0 < n ∧ n < floatMin then .error .valueError
  else if n = 1 then .ok d
  else .ok (d.map fun kv => (kv.1, kv.2 * (1 / n)))

open Classical in
/-- _measurement_outcome_distribution.py:42-62, `__init__` after preprocessing of the keys. -/
noncomputable def ofTuples (d : DDict) (norm : Bool := true) : Except Err DDict :=
  if IsDistribution d then
    if IsNormalized d then .ok d
    else if norm then normalize d
    else .ok d
  else .error .runtimeError

/-- _measurement_outcome_distribution.py:31-62 `MeasurementOutcomeDistribution.__init__`; the object is its
`distribution_dict`. -/
noncomputable def make (d : List (Key × ℝ)) (norm : Bool := true) : Except Err DDict := do
  ofTuples (← preprocess d) norm

/-- _measurement_outcome_distribution.py:68-78 `get_number_of_subsystems`. -/
def numberOfSubsystems (d : DDict) : Except Err ℕ :=
  match PyDict.keys d with
  | [] => .error .indexError
  | k :: _ => .ok k.length

/-- Python `str(n)` of an int. -/
def intStr : ℤ → List Char
  | .ofNat n => Bits.pyStr n
  | .negSucc n => '-' :: Bits.pyStr (n + 1)

/-- Python `",".join(parts)`. -/
def joinComma : List (List Char) → List Char
  | [] => []
  | [w] => w
  | w :: ws => w ++ ',' :: joinComma ws

/-- _measurement_outcome_distribution.py:224-228 `change_tuple_dict_keys_to_comma_separated_integers`, on one key. -/
def commaKey : Key → Key
  | .tup t => .str (joinComma (t.map intStr))
  | k => k

/-- _measurement_outcome_distribution.py:224-228, on a dictionary (a dict comprehension). -/
def commaKeys (d : List (Key × ℝ)) : PyDict Key ℝ := PyDict.ofItems (d.map fun kv => (commaKey kv.1, kv.2))

/-- _measurement_outcome_distribution.py:231-254 `save_measurement_outcome_distribution`: the dictionary written to the file under
`"measurement_outcome_distribution"`.  JSON keeps string-keyed dictionaries of floats unchanged (external). -/
def save (d : DDict) : PyDict Key ℝ := commaKeys (d.map fun kv => (.tup kv.1, kv.2))

/-- _measurement_outcome_distribution.py:285-307 `load_measurement_outcome_distribution` of a saved file (which has no
`"bitstring_distribution"` entry). -/
noncomputable def load (d : PyDict Key ℝ) : Except Err DDict := make d

/-- _measurement_outcome_distribution.py:257-282 `save_measurement_outcome_distributions`. -/
def saveAll (ds : List DDict) : List (PyDict Key ℝ) := ds.map save

/-- _measurement_outcome_distribution.py:310-341 `load_measurement_outcome_distributions` of a saved file. -/
noncomputable def loadAll (ds : List (PyDict Key ℝ)) : Except Err (List DDict) := ds.mapM load

/-- Python `itertools.product([0, 1], repeat=n)`. External library. -/
def product01 : ℕ → List (List ℤ)
  | 0 => [[]]
  | n + 1 => (product01 n).map (0 :: ·) ++ (product01 n).map (1 :: ·)

/-- _measurement_outcome_distribution.py:344-365 `create_bitstring_distribution_from_probability_distribution`;
`int(np.log2(n))` is the exact floor of the binary logarithm. -/
noncomputable def ofProbabilities (p : List ℝ) : Except Err DDict :=
  if p.length = 0 then .error .valueError  -- int(-inf) raises
  else make (((product01 (Nat.log2 p.length)).zip p).map fun kv => (.tup kv.1, kv.2))

open Classical in
/-- _measurement_outcome_distribution.py:368-420 `evaluate_distribution_distance`, for two distribution objects. -/
noncomputable def evaluateDistance (target measured : DDict) (f : DDict → DDict → Except Err ℝ) : Except Err ℝ := do
  let a ← numberOfSubsystems target
  let b ← numberOfSubsystems measured
  if a ≠ b then .error .runtimeError
  else if (IsNormalized target) ≠ (IsNormalized measured) then .error .runtimeError
  else f target measured

/-- `set(target_keys).union(measured_keys)` as a list; the iteration order of a set is unspecified, this is one of
them (the sums over it do not depend on the order, see the theorems). -/
def allKeys (t m : DDict) : List (List ℤ) := PyDict.keys t ++ (PyDict.keys m).filter (fun k => k ∉ PyDict.keys t)

/-- `d.get(key, 0)`. -/
noncomputable def prob (d : DDict) (k : List ℤ) : ℝ := (PyDict.get? d k).getD 0

/-- Python `math.log`; a `ValueError` for arguments that are not positive. External builtin. -/
noncomputable def pyLog (x : ℝ) : Except Err ℝ :=
  open Classical in if 0 < x then .ok (Real.log x) else .error .valueError

/-- clipped_negative_log_likelihood.py:36-46, the loop over `keys` (the iteration order `keys` of the set of all
keys is a parameter). -/
noncomputable def nllLoop (t m : DDict) (eps : ℝ) : List (List ℤ) → ℝ → Except Err ℝ
  | [], value => .ok value
  | k :: ks, value => do
    let l ← pyLog (max eps (prob m k))
    nllLoop t m eps ks (value + prob t k * l)

/-- clipped_negative_log_likelihood.py:11-48 `compute_clipped_negative_log_likelihood`; `keys` is the iteration
order of the set `all_keys`. -/
noncomputable def clippedNLL (keys : List (List ℤ)) (t m : DDict) (eps : ℝ) : Except Err ℝ := do
  return -(← nllLoop t m eps keys 0)

/-- jensen_shannon_divergence.py:12-46 `compute_jensen_shannon_divergence`. -/
noncomputable def jensenShannon (keys₁ keys₂ : List (List ℤ)) (t m : DDict) (eps : ℝ) : Except Err ℝ := do
  let a ← clippedNLL keys₁ t m eps
  let b ← clippedNLL keys₂ m t eps
  return a / 2 + b / 2

/-- mmd.py:128-130, `int("".join(map(str, item)), 2)`: a `ValueError` unless there is at least one character and all are
binary digits. -/
def keyToInt (k : List ℤ) : Except Err ℕ :=
  let s := (k.map intStr).flatten
  if s = [] then .error .valueError
  else if ∀ c ∈ s, c = '0' ∨ c = '1' then
    .ok (Bits.pyInt2 (s.map fun c => if c = '1' then 1 else 0))
  else .error .valueError

/-- mmd.py:36-56 `compute_rbf_kernel`, one entry. -/
noncomputable def rbf (sigma : ℝ) (x y : ℕ) : ℝ :=
  Real.exp (-(1 / (2 * sigma)) * |(x : ℝ) - (y : ℝ)| ^ 2)

/-- mmd.py:59-88 `compute_multi_rbf_kernel`, one entry (for a non-empty list of bandwidths). -/
noncomputable def multiRbf (sigmas : List ℝ) (x y : ℕ) : ℝ :=
  (sigmas.map fun s => rbf s x y).sum / (sigmas.length : ℝ)

/-- The `sigma` argument of `compute_mmd`: a number or a sequence of numbers (mmd.py:131). -/
inductive Sigma
  | one (s : ℝ)
  | many (l : List ℝ)

open Classical in
/-- mmd.py:131-134 with the errors of mmd.py:48-54, 79-86: the kernel function. Division by `len(sigmas) = 0` makes numpy return `nan`; it is modelled
as an error. A numpy bandwidth array containing 0 would give `inf` instead of raising; only Python numbers are modelled. -/
noncomputable def kernel : Sigma → Except Err (ℕ → ℕ → ℝ)
  | .one s => if s = 0 then .error .zeroDivision else .ok (rbf s)
  | .many l => if l = [] ∨ 0 ∈ l then .error .zeroDivision else .ok (multiRbf l)

/-- mmd.py:91-137 `compute_mmd`; `keys` is the iteration order of the set `all_keys`. -/
noncomputable def mmd (keys : List (List ℤ)) (t m : DDict) (sigma : Sigma) : Except Err ℝ := do
  let basis ← keys.mapM keyToInt
  let k ← kernel sigma
  let diff := keys.map fun key => prob t key - prob m key
  let pts := basis.zip diff
  return (pts.map fun p => p.2 * (pts.map fun q => k p.1 q.1 * q.2).sum).sum

end ZQ.Dist
