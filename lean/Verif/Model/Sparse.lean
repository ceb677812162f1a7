import Verif.Model.ReverseJW

/-!
# Sparse matrices of operators

Model of `openfermion/linalg/sparse_tools.py`, lines 29-305.  A scipy sparse matrix is modelled by its shape and entries
(`Mat ℂ`); what is stored is the list of its nonzero entries, in column order for `csc_matrix`.  (No matrix below stores an explicit zero: the
Kronecker and matrix products of matrices with at most one nonzero entry per row and column never cancel, and scipy's sums drop zeros.)
-/

namespace ZQ.Sparse

open ZQ ZQ.Op

/-- `csc.tocoo().data`: the nonzero entries, column by column. External (scipy). -/
noncomputable def cscData (M : Mat ℂ) : List ℂ :=
  (List.range M.cols).flatMap fun c => ((List.range M.rows).filter fun r => decide (M.e r c ≠ 0)).map fun r => M.e r c

/-- `csc.nonzero()`: the positions of the nonzero entries as (row, column), sorted by rows ("C-style order"). External (scipy). -/
noncomputable def cscNonzero (M : Mat ℂ) : List (ℕ × ℕ) :=
  (List.range M.rows).flatMap fun r => ((List.range M.cols).filter fun c => decide (M.e r c ≠ 0)).map fun c => (r, c)

/-- `csc.tocoo().nonzero()`: the positions of the nonzero entries as (row, column), in storage order. External (scipy). -/
noncomputable def cooNonzero (M : Mat ℂ) : List (ℕ × ℕ) :=
  (List.range M.cols).flatMap fun c => ((List.range M.rows).filter fun r => decide (M.e r c ≠ 0)).map fun r => (r, c)

/-- `coo_matrix((values, (rows, columns)), shape=(n, n)).tocsc()`, then `eliminate_zeros()`: values at the same place add up; arrays of
different lengths or places outside the shape raise `ValueError`. External (scipy). -/
noncomputable def ofTriplets (n : ℕ) (values : List ℂ) (rows columns : List ℕ) : Except Err (Mat ℂ) :=
  if values.length ≠ rows.length ∨ rows.length ≠ columns.length then .error .valueError
  else if ¬ ((∀ r ∈ rows, r < n) ∧ ∀ c ∈ columns, c < n) then .error .valueError
  else .ok ⟨n, n, fun i j => (((values.zip (rows.zip columns)).filter fun v => decide (v.2 = (i, j))).map Prod.fst).sum⟩

/-- sparse_tools.py:30-33, 36-41 `identity_csc`, `pauli_x_csc`, `pauli_y_csc`, `pauli_z_csc`, `pauli_matrix_map`. -/
noncomputable def pauliMat : Letter → Mat ℂ
  | .I => Mat.ofRows [[1, 0], [0, 1]]
  | .X => Mat.ofRows [[0, 1], [1, 0]]
  | .Y => Mat.ofRows [[0, -Complex.I], [Complex.I, 0]]
  | .Z => Mat.ofRows [[1, 0], [0, -1]]

/-- sparse_tools.py:34-35 `q_raise_csc` (`raise = true`) and `q_lower_csc`. -/
noncomputable def ladderMat (raise : Bool) : Mat ℂ :=
  ⟨2, 2, fun i j => if raise then ((pauliMat .X).e i j - Complex.I * (pauliMat .Y).e i j) / 2
    else ((pauliMat .X).e i j + Complex.I * (pauliMat .Y).e i j) / 2⟩

/-- A number as an argument of `scipy.sparse.kron`: a 1 × 1 matrix. -/
def scalar (c : ℂ) : Mat ℂ := ⟨1, 1, fun _ _ => c⟩

/-- sparse_tools.py:44-51 `wrapped_kronecker`, `kronecker_operators`: `reduce` from the left (of an empty list: `TypeError`). -/
noncomputable def kroneckerOperators : List (Mat ℂ) → Except Err (Mat ℂ)
  | [] => .error .typeError
  | m :: ms => .ok (ms.foldl Mat.kron m)

/-- sparse_tools.py:171-183: the factors of one term; `acc` is `sparse_operators` and `tf` is `tensor_factor`. -/
noncomputable def factorLoop : Term Letter → ℕ → List (Mat ℂ) → List (Mat ℂ) × ℕ
  | [], tf, acc => (acc, tf)
  | f :: rest, tf, acc =>
    factorLoop rest (f.1 + 1) ((if f.1 > tf then acc ++ [Mat.eye (2 ^ (f.1 - tf))] else acc) ++ [pauliMat f.2])

/-- sparse_tools.py:168-193: the matrix of one term. -/
noncomputable def termMatrix (n : ℕ) (t : Term Letter) (c : ℂ) : Except Err (Mat ℂ) :=
  let ops := (factorLoop t 0 [scalar c]).1
  let tf := (factorLoop t 0 [scalar c]).2
  kroneckerOperators (if tf < n ∨ t = [] then ops ++ [Mat.eye (2 ^ (n - tf))] else ops)

/-- sparse_tools.py:143-206 `qubit_operator_sparse`.  `(column, row) = sparse_matrix.nonzero()`: the second component is used as the row. -/
noncomputable def qubitOperatorSparse (o : Terms Letter) (nQubits : Option ℕ) : Except Err (Mat ℂ) :=
  let n := nQubits.getD (countQubit o)
  if n < countQubit o then .error .valueError
  else do
    let ms ← o.mapM fun kv => termMatrix n kv.1 kv.2
    ofTriplets (2 ^ n) (ms.flatMap cscData) (ms.flatMap fun m => (cscNonzero m).map Prod.snd) (ms.flatMap fun m => (cscNonzero m).map Prod.fst)

/-- sparse_tools.py:54-79 `jordan_wigner_ladder_sparse`. -/
noncomputable def ladderSparse (n p : ℕ) (raise : Bool) : Except Err (Mat ℂ) :=
  kroneckerOperators (List.replicate p (pauliMat .Z) ++ [ladderMat raise] ++ [Mat.eye (2 ^ (n - p - 1))])

/-- sparse_tools.py:114-122: the product of the ladder matrices of one term; a mode outside the list `jw_operators` raises `IndexError`. -/
noncomputable def ladderLoop (n : ℕ) : Term Bool → Mat ℂ → Except Err (Mat ℂ)
  | [], m => .ok m
  | f :: rest, m =>
    if f.1 < n then do
      let l ← ladderSparse n f.1 f.2
      ladderLoop n rest (m.mul l)
    else .error .indexError

/-- sparse_tools.py:82-140 `jordan_wigner_sparse`; terms with coefficient 0 contribute nothing. -/
noncomputable def jordanWignerSparse (o : Terms Bool) (nQubits : Option ℕ) : Except Err (Mat ℂ) := do
  let n := nQubits.getD (countFermion o)
  let ms ← o.mapM fun kv => (ladderLoop n kv.1 (Mat.smul kv.2 (Mat.eye (2 ^ n)))).map fun m => (kv.2, m)
  let ms := (ms.filter fun cm => decide (cm.1 ≠ 0)).map Prod.snd
  ofTriplets (2 ^ n) (ms.flatMap cscData) (ms.flatMap fun m => (cooNonzero m).map Prod.fst) (ms.flatMap fun m => (cooNonzero m).map Prod.snd)

/-- sparse_tools.py:209-224 `jw_configuration_state`.  `2 ** (negative)` is a float, and indexing with a float raises `IndexError`, as does an
index outside the array. -/
noncomputable def jwConfigurationState (occupied : List ℕ) (n : ℕ) : Except Err (Vec ℂ) :=
  if ¬ ∀ i ∈ occupied, i < n then .error .indexError
  else
    let oneIndex := (occupied.map fun i => 2 ^ (n - 1 - i)).sum
    if oneIndex < 2 ^ n then .ok ⟨2 ^ n, fun i => if i = oneIndex then 1 else 0⟩ else .error .indexError

/-- sparse_tools.py:227-230 `jw_hartree_fock_state`. -/
noncomputable def jwHartreeFockState (nElectrons nOrbitals : ℕ) : Except Err (Vec ℂ) :=
  jwConfigurationState (List.range nElectrons) nOrbitals

/-- `itertools.combinations(l, k)` in its order. External. -/
def combinations {α : Type} : List α → ℕ → List (List α)
  | _, 0 => [[]]
  | [], _ + 1 => []
  | a :: l, k + 1 => (combinations l k).map (a :: ·) ++ combinations l (k + 1)

/-- sparse_tools.py:233-252 `jw_number_indices`; `combinations` of a negative length raises `ValueError`. -/
def jwNumberIndices (nElectrons : ℤ) (n : ℕ) : Except Err (List ℕ) :=
  if nElectrons < 0 then .error .valueError
  else .ok ((combinations (List.range n) nElectrons.toNat).map fun occ => (occ.map fun i => 2 ^ i).sum)

/-- sparse_tools.py:255-272 `jw_number_restrict_operator` with the number of qubits given; an index outside the matrix raises `IndexError`. -/
def jwNumberRestrict (M : Mat ℂ) (nElectrons : ℤ) (n : ℕ) : Except Err (Mat ℂ) := do
  let sel ← jwNumberIndices nElectrons n
  if ∀ i ∈ sel, i < M.rows ∧ i < M.cols then .ok ⟨sel.length, sel.length, fun a b => M.e (sel.getD a 0) (sel.getD b 0)⟩
  else .error .indexError

end ZQ.Sparse
