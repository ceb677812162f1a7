import Verif.Model.GroundState
import Verif.Model.Spectrum

/-!
# Model: the lowest eigenvalue of a sparse matrix

`get_ground_state` of `openfermion/linalg/sparse_tools.py`.  The eigensolver of scipy is a parameter.
-/

namespace ZQ.Ground

open ZQ ZQ.Op ZQ.Sparse

open Classical in
/-- `numpy.argsort` of a list of numbers.  External (numpy); which of several equal numbers comes first is not specified by numpy, here it is the first. -/
noncomputable def argsort (vals : List ℝ) : List ℕ := (List.range vals.length).insertionSort fun i j => vals.getD i 0 ≤ vals.getD j 0

/-- sparse_tools.py:326-350 `get_ground_state`; `eigsh` is `scipy.sparse.linalg.eigsh(..., k=1, v0=initial_guess, which="SA", maxiter=1e7)`, which may raise an exception. Without
eigenvalues `values[0]` raises an `IndexError`, and so does a column that is not there. -/
noncomputable def getGroundState (eigsh : Mat ℂ → Option (List ℂ) → Except Err Eigen) (M : Mat ℂ) (guess : Option (List ℂ)) : Except Err (ℝ × List ℂ) := do
  let E ← eigsh M guess
  match argsort E.vals with
  | [] => .error .indexError
  | i :: _ => if i < E.vecs.cols then .ok (E.vals.getD i 0, (List.range E.vecs.rows).map fun r => E.vecs.e r i) else .error .indexError

end ZQ.Ground
