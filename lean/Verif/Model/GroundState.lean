import Verif.Model.Expectation
import Verif.Model.Rdm

/-!
# Model: ground states and their reduced density matrices

`jw_get_ground_state_at_particle_number` and `get_sparse_operator` of `openfermion/linalg/sparse_tools.py` and `get_ground_state_rdm_from_qubit_op` of
`openfermion/zapata_utils/_utils.py`.  The eigensolvers of numpy and scipy are parameters.
-/

namespace ZQ.Ground

open ZQ ZQ.Op ZQ.Sparse ZQ.Expect ZQ.PolyT ZQ.Rdm

/-- What an eigensolver returns: the eigenvalues and the matrix whose columns are the eigenvectors. -/
structure Eigen where
  vals : List ℝ
  vecs : Mat ℂ

/-- sparse_tools.py:310-312: `expanded_state = zeros(2 ** n)`, `expanded_state[indices] = eigvecs[:, 0]`. -/
noncomputable def expandState (n : ℕ) (sel : List ℕ) (V : Mat ℂ) : List ℂ :=
  sel.zipIdx.foldl (fun l ia => l.set ia.1 (V.e ia.2 0)) (List.replicate (2 ^ n) 0)

/-- sparse_tools.py:274-314 `jw_get_ground_state_at_particle_number`; `eigh` is `numpy.linalg.eigh` of the dense matrix and `eigsh` is
`scipy.sparse.linalg.eigsh(..., k=1, which="SA")`. The matrix has at least one row. Without eigenvectors `eigvecs[:, 0]` raises `IndexError`; as many amplitudes as
indices are needed (`ValueError`). -/
noncomputable def groundStateAt (eigh eigsh : Mat ℂ → Eigen) (M : Mat ℂ) (particles : ℤ) : Except Err (ℝ × List ℂ) := do
  let n := Nat.log2 M.rows
  let R ← jwNumberRestrict M particles n
  let E := if (R.rows : ℤ) - 1 ≤ 1 then eigh R else eigsh R
  if E.vecs.cols = 0 then .error .indexError
  else do
    let sel ← jwNumberIndices particles n
    if sel.length ≠ E.vecs.rows then .error .valueError
    else match E.vals with
      | [] => .error .indexError
      | e :: _ => .ok (e, expandState n sel E.vecs)

/-- `v @ M` for a one-dimensional array and a matrix. External (numpy). -/
noncomputable def vecMat (v : List ℂ) (M : Mat ℂ) : Except Err (List ℂ) :=
  if v.length ≠ M.rows then .error .valueError
  else .ok ((List.range M.cols).map fun j => ((List.range M.rows).map fun i => v.getD i 0 * M.e i j).sum)

/-- _utils.py:585-587, 601-603: `np.conjugate(wf) @ matrix @ wf`. -/
noncomputable def sandwich (wf : List ℂ) (M : Mat ℂ) : Except Err ℂ := do
  dot (← vecMat (wf.map star) M) wf

/-- _utils.py:580-587, 597-603: the expectation value of one product of ladder operators; the string handed to `FermionOperator` is the term it denotes (C79). -/
noncomputable def entryOf (wf : List ℂ) (n : ℕ) (t : Term Bool) : Except Err ℂ := do
  sandwich wf (← jordanWignerSparse (ofTerm fermion t 1) (some n))

/-- _utils.py:577-590: `one_body_tensor_list`, and its `reshape(n_qubits, n_qubits)`. -/
noncomputable def oneBody (wf : List ℂ) (n : ℕ) : Except Err Tensor := do
  let l ← ((List.range n).flatMap fun i => (List.range n).map fun j => (i, j)).mapM fun ij => entryOf wf n [(ij.1, true), (ij.2, false)]
  .ok fun x => match x with
    | [i, j] => l.getD (i * n + j) 0
    | _ => 0

/-- _utils.py:593-596: the indices of the four nested loops. -/
def quads (n : ℕ) : List (ℕ × ℕ × ℕ × ℕ) :=
  (List.range n).flatMap fun p => (List.range (p + 1)).flatMap fun q => (List.range n).flatMap fun r => (List.range (r + 1)).map fun s => (p, q, r, s)

/-- _utils.py:604-607: the four assignments. -/
def assignFour (T : Tensor) (x : ℕ × ℕ × ℕ × ℕ) (v : ℂ) : Tensor :=
  assign (assign (assign (assign T [x.1, x.2.1, x.2.2.1, x.2.2.2] v) [x.2.1, x.1, x.2.2.1, x.2.2.2] (-v)) [x.2.1, x.1, x.2.2.2, x.2.2.1] v)
    [x.1, x.2.1, x.2.2.2, x.2.2.1] (-v)

/-- _utils.py:592-607: `two_body_tensor`. -/
noncomputable def twoBody (wf : List ℂ) (n : ℕ) : Except Err Tensor :=
  (quads n).foldlM (fun T x => do
    .ok (assignFour T x (← entryOf wf n [(x.1, true), (x.2.1, true), (x.2.2.1, false), (x.2.2.2, false)]))) fun _ => 0

/-- _utils.py:557-609 `get_ground_state_rdm_from_qubit_op`. -/
noncomputable def groundStateRdm (eigh eigsh : Mat ℂ → Eigen) (o : Terms Letter) (particles : ℤ) : Except Err PolyTensor := do
  let M ← qubitOperatorSparse o none
  let (_, wf) ← groundStateAt eigh eigsh M particles
  let n := countQubit o
  let one ← oneBody wf n
  let two ← twoBody wf n
  .ok (make n one two)

end ZQ.Ground
