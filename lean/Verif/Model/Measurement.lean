import Verif.Model.Distribution
import Mathlib.Analysis.SpecialFunctions.Sqrt
import Mathlib.Algebra.Order.Floor.Ring

/-!
# Measurements, parities and expectation values

Model of `measurement.py` and of the sampling helper of `utils.py`.  Coefficients and averages are exact real numbers.  A bitstring
sample is the list of its bits (`Tuple[int, ...]`).  An Ising operator is the dictionary `IsingOperator.terms` with every term reduced to the
list of its qubit indices (every factor is `Z`).
-/

namespace ZQ.Meas

/-- `IsingOperator.terms`, a term `((q1,"Z"),(q2,"Z"),..)` being written `[q1, q2, ..]`. -/
abbrev Ising := PyDict (List ℕ) ℝ

/-- measurement.py:686-694 `Measurements.get_counts`. -/
def getCounts (m : List (List ℕ)) : PyDict (List Char) ℕ := PyDict.counter (Bits.tuplesToBitstrings m)

/-- measurement.py:696-710 `Measurements.add_counts`; `[x] * k` is empty for `k <= 0`.  An invalid character raises `ValueError` (the samples already
appended before the exception are not modelled). -/
def addCounts (m : List (List ℕ)) : PyDict (List Char) ℤ → Except Err (List (List ℕ))
  | [] => .ok m
  | (s, k) :: c =>
    match s.mapM Bits.charInt with
    | none => .error .valueError
    | some t => addCounts (m ++ List.replicate k.toNat t) c

/-- measurement.py:576-586 `Measurements.from_counts`. -/
def fromCounts (c : PyDict (List Char) ℤ) : Except Err (List (List ℕ)) := addCounts [] c

/-- measurement.py:712-725 `Measurements.get_distribution`. -/
noncomputable def getDistribution (m : List (List ℕ)) : Except Err Dist.DDict :=
  Dist.make ((getCounts m).map fun kv => (.str kv.1, (kv.2 : ℝ) / (m.length : ℝ)))

/-- measurement.py:415-424 `convert_bitstring_to_int`: `int("".join(str(bit) for bit in bitstring[::-1]), 2)`; a
`ValueError` for digits other than 0 and 1 and for the empty string. -/
def convertBitstringToInt (b : List ℕ) : Except Err ℕ :=
  let s := (b.reverse.map Bits.pyStr).flatten
  if s = [] then .error .valueError
  else if ∀ c ∈ s, c = '0' ∨ c = '1' then .ok (Bits.pyInt2 (s.map fun c => if c = '1' then 1 else 0))
  else .error .valueError

/-- measurement.py:427-444 `check_parity` on a tuple; `none` models the `IndexError`. -/
def checkParityLoop (b : List ℕ) : List ℕ → Bool → Option Bool
  | [], result => some result
  | q :: qs, result =>
    match b[q]? with
    | none => none
    | some x => checkParityLoop b qs (if x = 1 then !result else result)

/-- measurement.py:427-444 `check_parity`. -/
def checkParity (b : List ℕ) (marked : List ℕ) : Option Bool := checkParityLoop b marked true

/-- measurement.py:427-444 `check_parity` on a string: `bitstring[qubit_index] == "1"`. -/
def checkParityStrLoop (b : List Char) : List ℕ → Bool → Option Bool
  | [], result => some result
  | q :: qs, result =>
    match b[q]? with
    | none => none
    | some x => checkParityStrLoop b qs (if x = '1' then !result else result)

/-- measurement.py:427-444 `check_parity` on a string. -/
def checkParityStr (b : List Char) (marked : List ℕ) : Option Bool := checkParityStrLoop b marked true

/-- measurement.py:469-471, one row of `check_parity_of_vector`. -/
def parityRow (marked row : List ℕ) : Except Err ℕ :=
  match marked.mapM fun q => row[q]? with
  | none => .error .indexError
  | some bits => .ok ((bits.sum + 1) % 2)

/-- measurement.py:447-471 `check_parity_of_vector`; rows are the bitstrings.  numpy raises `IndexError` when a marked qubit is out of range
or when there is no row (the array is then one-dimensional). -/
def checkParityOfVector (rows : List (List ℕ)) (marked : List ℕ) : Except Err (List ℕ) :=
  if marked = [] then .ok (List.replicate rows.length 1)
  else if rows = [] then .error .indexError
  else rows.mapM (parityRow marked)

/-- numpy `a.reshape(-1, n)` of a one-dimensional array for `n >= 1`. External; the caller has checked divisibility. -/
def chunks (n : ℕ) (l : List ℕ) : List (List ℕ) :=
  (List.range (l.length / n)).map fun i => (l.drop (i * n)).take n

/-- measurement.py:474-479 `_convert_bitstrings_to_vector`: concatenate, subtract `ord("0")`, reshape to the width of the first string.
`IndexError` without strings, `ValueError` if the total length is not a multiple of the width or the width is 0. -/
def bitstringsToVector (bs : List (List Char)) : Except Err (List (List ℕ)) :=
  match bs with
  | [] => .error .indexError
  | b :: _ =>
    let n := b.length
    let all := bs.flatten.map fun c => c.toNat - 48
    if n = 0 then .error .valueError
    else if all.length % n ≠ 0 then .error .valueError
    else .ok (chunks n all)

/-- measurement.py:482-512 `get_expectation_value_from_frequencies`.  A zero total makes numpy return nan/inf; it is modelled as
`zeroDivision`. -/
noncomputable def expectationFromFrequencies (marked : List ℕ) (f : PyDict (List Char) ℕ) : Except Err ℝ := do
  let rows ← bitstringsToVector (PyDict.keys f)
  let par ← checkParityOfVector rows marked
  let total := (PyDict.values f).sum
  if total = 0 then .error .zeroDivision
  else return ((PyDict.values f).zipWith (fun (c p : ℕ) => (c : ℝ) * ((p : ℝ) * 2 - 1) / (total : ℝ)) par).sum

/-- Python `set(a).symmetric_difference(set(b))`, in some order. External builtin. -/
def symDiff (a b : List ℕ) : List ℕ := a.dedup.filter (· ∉ b) ++ b.dedup.filter (· ∉ a)

/-- measurement.py:99-131 `ExpectationValues`: `values`, `correlations`, `estimator_covariances`, the last two being lists of square
matrices, here lists of rows; `none` is Python's `None`. -/
structure ExpectationValues where
  values : List ℝ
  correlations : Option (List (List (List ℝ)))
  covariances : Option (List (List (List ℝ)))

/-- measurement.py:763-781, entry `(i, j)` of the correlation matrix with `j < i` or `i = j`. -/
noncomputable def correlationEntry (op : Ising) (f : PyDict (List Char) ℕ) (i j : ℕ) : Except Err ℝ :=
  match op[i]?, op[j]? with
  | some a, some b =>
    if i = j then .ok (a.2 ^ 2)
    else (expectationFromFrequencies (symDiff a.1 b.1) f).map fun e => a.2 * b.2 * e
  | _, _ => .error .indexError

/-- measurement.py:727-796 `Measurements.get_expectation_values`.  Rows are computed with the lower triangle copied to the upper one (line 780).  A zero
denominator makes numpy return nan/inf; it is modelled as `zeroDivision` when there is at least one term. -/
noncomputable def getExpectationValues (m : List (List ℕ)) (op : Ising) (bessel : Bool) : Except Err ExpectationValues := do
  let f := getCounts m
  let values ← op.mapM fun tc => (expectationFromFrequencies tc.1 f).map fun e => tc.2 * e
  let n := op.length
  let corr ← (List.range n).mapM fun i => (List.range n).mapM fun j =>
    correlationEntry op f (max i j) (min i j)
  let denominator : ℝ := if bessel then (m.length : ℝ) - 1 else m.length
  if n ≠ 0 ∧ denominator = 0 then .error .zeroDivision
  else
    let cov := corr.zipWith (fun (row : List ℝ) (vi : ℝ) =>
      row.zipWith (fun (c vj : ℝ) => (c - vi * vj) / denominator) values) values
    return ⟨values, some [corr], some [cov]⟩

/-- One term's parity counts, measurement.py:353-360: `(parity * counts).sum()` and `((1 - parity) * counts).sum()`. -/
def parityCounts (par : List ℕ) (counts : List ℕ) : ℕ × ℕ :=
  ((par.zipWith (· * ·) counts).sum, (par.zipWith (fun p c => (1 - p) * c) counts).sum)

/-- measurement.py:363-386, one pair of terms: counts of samples with equal and with different parities. -/
def pairCounts (p1 p2 counts : List ℕ) : ℕ × ℕ :=
  let diff := p1.zipWith (fun a b : ℕ => (Int.natAbs ((a : ℤ) - (b : ℤ)))) p2
  ((diff.zipWith (fun d c => (1 - d) * c) counts).sum, (diff.zipWith (· * ·) counts).sum)

/-- measurement.py:209-231 `Parities`: values, and the single correlation frame. -/
structure Parities where
  values : List (ℕ × ℕ)
  correlations : List (List (ℕ × ℕ))

/-- measurement.py:328-388 `get_parities_from_measurements`. -/
def getParities (m : List (List ℕ)) (terms : List (List ℕ)) : Except Err Parities := do
  let freq := PyDict.counter m
  let rows := PyDict.keys freq
  let counts := PyDict.values freq
  let pars ← terms.mapM fun t => checkParityOfVector rows t
  return ⟨pars.map fun p => parityCounts p counts,
    pars.map fun p1 => pars.map fun p2 => pairCounts p1 p2 counts⟩

open Classical in
/-- measurement.py:299-320, value and squared precision of one term of `get_expectation_values_from_parities`. -/
noncomputable def fromParity (n0 n1 : ℕ) : Except Err (ℝ × ℝ) :=
  let n := n0 + n1
  if n = 0 then .error .valueError
  else
    let p : ℝ := (n0 : ℝ) / n
    let value := 2 * p - 1
    let precision := if 100 ≤ n ∧ 1 / 10 ≤ p ∧ p ≤ 9 / 10 then 2 * Real.sqrt (p * (1 - p)) / Real.sqrt n
      else 1 / Real.sqrt n
    .ok (value, precision ^ 2)

/-- measurement.py:286-325 `get_expectation_values_from_parities`. -/
noncomputable def fromParities (values : List (ℕ × ℕ)) : Except Err ExpectationValues := do
  let vs ← values.mapM fun v => fromParity v.1 v.2
  return ⟨vs.map Prod.fst, none, some (vs.map fun v => [[v.2]])⟩

/-- measurement.py:799-828 `concatenate_expectation_values`: an empty list counts as absent (Python truthiness). -/
def concatStep (acc e : ExpectationValues) : ExpectationValues :=
  let add (a b : Option (List (List (List ℝ)))) : Option (List (List (List ℝ))) :=
    match b with
    | none => a
    | some [] => a
    | some (x :: xs) => some ((match a with | none => [] | some l => l) ++ x :: xs)
  ⟨acc.values ++ e.values, add acc.correlations e.correlations, add acc.covariances e.covariances⟩

/-- measurement.py:799-828 `concatenate_expectation_values`. -/
def concatenate (es : List ExpectationValues) : ExpectationValues := es.foldl concatStep ⟨[], none, none⟩

/-! ### Sampling -/

/-- Python `round(x)` of a float: nearest integer, halves to the even neighbour. External builtin. -/
noncomputable def pyRound (x : ℝ) : ℤ :=
  open Classical in
  if Int.fract x < 1 / 2 then ⌊x⌋
  else if 1 / 2 < Int.fract x then ⌊x⌋ + 1
  else if Even ⌊x⌋ then ⌊x⌋ else ⌊x⌋ + 1

/-- An outcome tuple. -/
abbrev Outcome := List ℤ

/-- The random generator behind `np.random.choice(keys, n, p=values)`: call number, table, number of draws ↦ the draws, or the exception
numpy raises. -/
abbrev Chooser := ℕ → Dist.DDict → ℕ → Except Err (List Outcome)

/-- utils.py:167-202 `sample_from_probability_distribution` (the argument is a dict). -/
def sampleFrom (choose : Chooser) (call : ℕ) (d : Dist.DDict) (n : ℕ) : Except Err (PyDict Outcome ℕ) :=
  (choose call d n).map PyDict.counter

/-- Python `Counter + Counter`: add counts, keep the positive ones. External library. -/
def counterAdd (a b : PyDict Outcome ℕ) : PyDict Outcome ℕ :=
  ((a.map fun kv => (kv.1, kv.2 + (PyDict.get? b kv.1).getD 0)) ++
    b.filter (fun kv => kv.1 ∉ PyDict.keys a)).filter (fun kv => 0 < kv.2)

/-- measurement.py:546-549: the first key (in iteration order) of which more copies are to be removed than there are. -/
def firstExcess (correct counts : PyDict Outcome ℕ) : Option (Outcome × ℕ) :=
  correct.find? fun kv => (PyDict.get? counts kv.1).getD 0 < kv.2

/-- measurement.py:543-561, the `while` loop of `_check_sample_elimination`; `fuel` bounds the iterations (`runtimeError` when it runs out; the
theorems show that this never happens). -/
noncomputable def eliminationLoop (choose : Chooser) (counts : PyDict Outcome ℕ) :
    ℕ → ℕ → PyDict Outcome ℕ → Dist.DDict → Except Err (PyDict Outcome ℕ)
  | 0, _, _, _ => .error .runtimeError
  | fuel + 1, call, correct, dist =>
    match firstExcess correct counts with
    | none => .ok correct
    | some (sample, n) => do
      let have_ := (PyDict.get? counts sample).getD 0
      let correct := PyDict.set correct sample have_
      let dist ← Dist.ofTuples (PyDict.set dist sample 0) true
      let new ← sampleFrom choose call dist (n - have_)
      eliminationLoop choose counts fuel (call + 1) (counterAdd correct new) dist

/-- measurement.py:515-561 `_check_sample_elimination`. -/
noncomputable def checkSampleElimination (choose : Chooser) (call : ℕ) (samples : PyDict Outcome ℕ)
    (bitstrings : List Outcome) (leftover : Dist.DDict) : Except Err (PyDict Outcome ℕ) := do
  let dist ← Dist.ofTuples leftover true
  eliminationLoop choose (PyDict.counter bitstrings) (leftover.length + 1) call samples dist

/-- Python `list.remove(x)` repeated: `ValueError` if absent. External builtin. -/
def removeOne (l : List Outcome) (x : Outcome) : Except Err (List Outcome) :=
  if x ∈ l then .ok (l.erase x) else .error .valueError

/-- measurement.py:638-646: remove each sample as many times as counted. -/
def removeAll (l : List Outcome) (samples : PyDict Outcome ℕ) : Except Err (List Outcome) :=
  (samples.flatMap fun kv => List.replicate kv.2 kv.1).foldlM removeOne l

/-- measurement.py:588-648 `get_measurements_representing_distribution`, on the dictionary of an outcome distribution object. -/
noncomputable def representing (choose : Chooser) (d : Dist.DDict) (n : ℕ) : Except Err (List Outcome) := do
  let bitstrings := d.flatMap fun kv => List.replicate (pyRound (kv.2 * (n : ℝ))).toNat kv.1
  if bitstrings.length = n then return bitstrings
  else
    let leftover ← Dist.ofTuples (d.map fun kv => (kv.1, (1 : ℝ) / 2 - |1 / 2 - Int.fract (kv.2 * (n : ℝ))|)) true
    let samples ← sampleFrom choose 0 leftover (((n : ℤ) - (bitstrings.length : ℤ)).natAbs)
    if bitstrings.length < n then
      return bitstrings ++ samples.flatMap fun kv => List.replicate kv.2 kv.1
    else
      let samples ← checkSampleElimination choose 1 samples bitstrings leftover
      removeAll bitstrings samples

end ZQ.Meas
