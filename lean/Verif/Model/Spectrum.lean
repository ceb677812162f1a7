import Verif.Model.Sparse
import Verif.Model.PolyTensor
import Mathlib.Data.List.Sort

/-!
# Model: matrices and spectra of operators

`get_sparse_operator`, `eigenspectrum` and `sparse_eigenspectrum` of `openfermion/linalg/sparse_tools.py` and `is_hermitian` of sparse matrices
(`openfermion/utils/operator_utils.py`).  The eigenvalue routines of numpy are parameters.
-/

namespace ZQ.Spectrum

open ZQ ZQ.Op ZQ.Sparse ZQ.PolyT

/-- The types of operators that `get_sparse_operator` distinguishes. -/
inductive AnyOp where
  | tensor (T : PolyTensor)
  | fermion (o : Terms Bool)
  | qubit (o : Terms Letter)
  | other

/-- sparse_tools.py:440-467 `get_sparse_operator`. -/
noncomputable def getSparseOperator : AnyOp → Option ℕ → Except Err (Mat ℂ)
  | .tensor T, _ => do jordanWignerSparse (← toFermion T) none
  | .fermion o, nQubits => jordanWignerSparse o nQubits
  | .qubit o, nQubits => qubitOperatorSparse o nQubits
  | .other, _ => .error .typeError

/-- operator_utils.py:108-111: `discrepancy`, for a square matrix. -/
noncomputable def discrepancy (M : Mat ℂ) : ℝ :=
  match (cscData ⟨M.rows, M.cols, fun i j => M.e i j - star (M.e j i)⟩).map fun z => ‖z‖ with
  | [] => 0
  | x :: xs => xs.foldl max x

open Classical in
/-- operator_utils.py:106-112 `is_hermitian` of a sparse matrix. -/
noncomputable def isHermitianSparse (M : Mat ℂ) : Bool := decide (discrepancy M < 1 / 10 ^ 8)

/-- The order in which `numpy.sort` sorts complex numbers: by the real part, then by the imaginary part. -/
def LexLe (a b : ℂ) : Prop := a.re < b.re ∨ a.re = b.re ∧ a.im ≤ b.im

open Classical in
/-- sparse_tools.py:376-387 `sparse_eigenspectrum`; `eigvalsh` and `eigvals` are numpy's. -/
noncomputable def sparseEigenspectrum (eigvalsh : Mat ℂ → List ℝ) (eigvals : Mat ℂ → List ℂ) (M : Mat ℂ) : List ℂ :=
  (if isHermitianSparse M then (eigvalsh M).map Complex.ofReal else eigvals M).insertionSort LexLe

/-- sparse_tools.py:353-373 `eigenspectrum`. -/
noncomputable def eigenspectrum (eigvalsh : Mat ℂ → List ℝ) (eigvals : Mat ℂ → List ℂ) (op : AnyOp) (nQubits : Option ℕ) : Except Err (List ℂ) := do
  .ok (sparseEigenspectrum eigvalsh eigvals (← getSparseOperator op nQubits))

end ZQ.Spectrum
