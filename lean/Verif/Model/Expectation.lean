import Verif.Model.Backend
import Verif.Model.Sparse
import Verif.Model.Reorder
import Verif.Model.Distribution
import Verif.Model.CostFunction
import Mathlib.Data.Nat.Size

/-!
# Exact expectation values

Model of `openfermion/linalg/sparse_tools.py` 317-325, 390-437, `get_expectation_value` (`openfermion/zapata_utils/_utils.py`) and the exact methods of
`QuantumSimulator` (`interfaces/backend.py`).  Amplitudes and matrix entries are complex numbers.
-/

namespace ZQ.Expect

open ZQ ZQ.Op ZQ.Sparse ZQ.Backend ZQ.Circuits

variable {W : Type}

/-- `numpy.dot(a, b)` of two one-dimensional arrays; different lengths raise `ValueError`. External (numpy). -/
noncomputable def dot (a b : List ℂ) : Except Err ℂ :=
  if a.length ≠ b.length then .error .valueError else .ok (List.zipWith (· * ·) a b).sum

/-- `operator * state` for a sparse matrix and a one-dimensional array; other dimensions raise `ValueError`. External (scipy). -/
noncomputable def matVec (M : Mat ℂ) (v : List ℂ) : Except Err (List ℂ) :=
  if M.cols ≠ v.length then .error .valueError
  else .ok ((List.range M.rows).map fun i => ((List.range M.cols).map fun j => M.e i j * v.getD j 0).sum)

/-- sparse_tools.py:435-437 `inner_product`. -/
noncomputable def innerProduct (a b : List ℂ) : Except Err ℂ := dot (a.map star) b

/-- sparse_tools.py:390-432 `expectation` for a one-dimensional state. -/
noncomputable def expectation (M : Mat ℂ) (state : List ℂ) : Except Err ℂ := do
  let v ← matVec M state
  dot (state.map star) v

/-- sparse_tools.py:412-420 `expectation` for a density matrix: the sum of the diagonal of the product. -/
noncomputable def expectationDensity (M D : Mat ℂ) : Except Err ℂ :=
  if D.cols ≠ M.rows then .error .valueError
  else .ok ((List.range (min D.rows M.cols)).map fun i => ((List.range D.cols).map fun k => D.e i k * M.e k i).sum).sum

/-- sparse_tools.py:320-324: the loop body; scipy's addition of matrices of different shapes raises `ValueError`. -/
noncomputable def densityStep (D : Mat ℂ) (sp : List ℂ × ℂ) : Except Err (Mat ℂ) :=
  if D.rows ≠ sp.1.length ∨ D.cols ≠ sp.1.length then .error .valueError
  else .ok ⟨D.rows, D.cols, fun i j => D.e i j + sp.2 * sp.1.getD i 0 * star (sp.1.getD j 0)⟩

/-- sparse_tools.py:317-325 `get_density_matrix`; an empty list of states raises `IndexError`. -/
noncomputable def getDensityMatrix (states : List (List ℂ)) (probabilities : List ℂ) : Except Err (Mat ℂ) :=
  match states with
  | [] => .error .indexError
  | s :: _ => (states.zip probabilities).foldlM densityStep ⟨s.length, s.length, fun _ _ => 0⟩

/-- The amplitudes of a wavefunction without symbols. -/
def amplitudes (w : Wavefunction.Wf Empty) : List ℂ := w.amps.map fun a => match a with | .num z => z | .sym s => nomatch s

/-- _utils.py:298-324 `get_expectation_value`; `int.bit_length` is `Nat.size`. -/
noncomputable def getExpectationValue (o : Terms Letter) (amps : List ℂ) (reverse : Bool) : Except Err ℂ := do
  let n := Nat.size amps.length - 1
  let o ← if reverse then reverseQubitOrder o (some n) else .ok o
  let M ← qubitOperatorSparse o (some n)
  expectation M amps

/-- _utils.py:327-341 `change_operator_type` to `QubitOperator`. -/
noncomputable def toQubit (o : Terms Letter) : Except Err (Terms Letter) :=
  o.foldlM (fun acc kv => (qubitOf kv.1 kv.2).map (Op.add acc)) []

/-- backend.py:231-234: the values of the operator's terms; iterating over an operator makes one operator per term
(symbolic_operator.py:621-627). -/
noncomputable def termValues (o : Terms Letter) (amps : List ℂ) : Except Err (List ℂ) :=
  o.mapM fun kv => do
    let t ← qubitOf kv.1 kv.2
    getExpectationValue t amps false

/-- backend.py:229-236 after the wavefunction has been computed. -/
noncomputable def exactOf (isIsing : Bool) (o : Terms Letter) (amps : List ℂ) : Except Err Meas.ExpectationValues := do
  let o ← if isIsing then toQubit o else .ok o
  let vs ← termValues o amps
  .ok (Cost.toReal ⟨vs, true, none, none⟩)

/-- backend.py:218-238 `QuantumSimulator.get_exact_expectation_values`; `isIsing` says that the operator is an `IsingOperator` and not a
`QubitOperator`. -/
noncomputable def getExactExpectationValues (sim : Simulator W) (ρ : String → ℂ) (c : Circuit) (isIsing : Bool) (o : Terms Letter) (st : St W) :
    Except Err Meas.ExpectationValues × St W :=
  match getWavefunction sim ρ c none st with
  | (.error e, st) => (.error e, st)
  | (.ok w, st) => (exactOf isIsing o (amplitudes w), st)

/-- backend.py:251-255 `QuantumSimulator.get_measurement_outcome_distribution` with `n_samples=None`. -/
noncomputable def exactDistribution (sim : Simulator W) (ρ : String → ℂ) (c : Circuit) (st : St W) : Except Err Dist.DDict × St W :=
  match getWavefunction sim ρ c none st with
  | (.error e, st) => (.error e, st)
  | (.ok w, st) =>
    match Wavefunction.getProbabilities w with
    | none => (.error .typeError, st)
    | some p => (Dist.ofProbabilities p, st)

/-- The state after preparing `get_exact_expectation_values` for one task after another (_estimation.py:364-380 `calculate_exact_expectation_values`). -/
noncomputable def exactMethod (sim : Simulator W) (ρ : String → ℂ) (isIsing : Bool) : History.Target (St W) Err (List Est.Task) (List Cost.Values)
  | st, [] => (.ok [], st)
  | st, t :: ts =>
    match getExactExpectationValues sim ρ t.circuit isIsing t.operator st with
    | (.error e, st) => (.error e, st)
    | (.ok v, st) =>
      match exactMethod sim ρ isIsing st ts with
      | (.error e, st) => (.error e, st)
      | (.ok vs, st) => (.ok (⟨v.values.map fun x : ℝ => (x : ℂ), false, v.correlations, v.covariances⟩ :: vs), st)

end ZQ.Expect
