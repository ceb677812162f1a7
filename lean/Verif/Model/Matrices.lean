import Verif.Model.Bits
import Mathlib.Algebra.BigOperators.Group.Finset.Basic
import Mathlib.Algebra.Star.Basic

/-!
# Matrices and lifting

Numpy / sympy matrices are modelled as entry functions on natural indices together with their shape.
Then: model of `circuits/_unitary_tools.py`.
-/

namespace ZQ

/-- Exceptions raised by modelled functions. -/
inductive Err
  | valueError | typeError | indexError | keyError | notImplemented | runtimeError | assertionError
  | zeroDivision
  deriving DecidableEq, Repr

/-- A dense matrix (numpy array of ndim 2 / sympy Matrix): shape and entries.  Entries outside the shape are
meaningless. -/
structure Mat (K : Type) where
  rows : ℕ
  cols : ℕ
  e : ℕ → ℕ → K

/-- A dense 1-D vector (numpy array of ndim 1, sympy column vector). -/
structure Vec (K : Type) where
  dim : ℕ
  e : ℕ → K

namespace Mat

variable {K : Type}

/-- `sympy.Matrix([[..],[..]])` / `np.array` of a list of rows. External. -/
def ofRows [Zero K] (rows : List (List K)) : Mat K :=
  ⟨rows.length, (rows.headD []).length, fun i j => (rows.getD i []).getD j 0⟩

/-- `np.eye(n)` / `sympy.eye(n)`. External. -/
def eye [Zero K] [One K] (n : ℕ) : Mat K := ⟨n, n, fun i j => if i = j then 1 else 0⟩

/-- `A @ B` (shapes are checked by the caller). External. -/
def mul [AddCommMonoid K] [Mul K] (A B : Mat K) : Mat K :=
  ⟨A.rows, B.cols, fun i j => ∑ k ∈ Finset.range A.cols, A.e i k * B.e k j⟩

/-- `.transpose()`. External. -/
def transpose (A : Mat K) : Mat K := ⟨A.cols, A.rows, fun i j => A.e j i⟩

/-- `.adjoint()`: conjugate transpose. External. -/
def adjoint [Star K] (A : Mat K) : Mat K := ⟨A.cols, A.rows, fun i j => star (A.e j i)⟩

/-- `np.kron(A, B)` / `sympy.kronecker_product`. External. -/
def kron [Mul K] (A B : Mat K) : Mat K :=
  ⟨A.rows * B.rows, A.cols * B.cols, fun i j =>
    A.e (i / B.rows) (j / B.cols) * B.e (i % B.rows) (j % B.cols)⟩

/-- `sympy.Matrix.diag(A, B)`: block diagonal. External. -/
def diag [Zero K] (A B : Mat K) : Mat K :=
  ⟨A.rows + B.rows, A.cols + B.cols, fun i j =>
    if i < A.rows ∧ j < A.cols then A.e i j
    else if A.rows ≤ i ∧ A.cols ≤ j then B.e (i - A.rows) (j - A.cols) else 0⟩

/-- `c * A` and `A / d` (with `c = 1/d`). External. -/
def smul [Mul K] (c : K) (A : Mat K) : Mat K := ⟨A.rows, A.cols, fun i j => c * A.e i j⟩

/-- `A @ v`. External. -/
def mulVec [AddCommMonoid K] [Mul K] (A : Mat K) (v : Vec K) : Vec K :=
  ⟨A.rows, fun i => ∑ k ∈ Finset.range A.cols, A.e i k * v.e k⟩

end Mat

namespace Vec

variable {K : Type}

/-- `np.kron(u, v)` of 1-D arrays. External. -/
def kron [Mul K] (u v : Vec K) : Vec K := ⟨u.dim * v.dim, fun i => u.e (i / v.dim) * v.e (i % v.dim)⟩

/-- `basis[bit]` in circuits/_unitary_tools.py:32,38: `[1,0]` for bit 0, `[0,1]` for bit 1 (any other index would
be out of range; bits are 0/1 by construction). -/
def basis [Zero K] [One K] (bit : ℕ) : Vec K := ⟨2, fun i => if i = bit then 1 else 0⟩

end Vec

namespace UnitaryTools

open Bits

variable {K : Type}

/-- circuits/_unitary_tools.py:30-39 `_bitstring_to_*_dense_vector`: `reduce(np.kron, (basis[bit] ...))`. Empty
input: `reduce` of an empty sequence is a `TypeError`. -/
def denseVector [Mul K] [Zero K] [One K] : List ℕ → Except Err (Vec K)
  | [] => .error .typeError
  | b :: bs => .ok (bs.foldl (fun v b => v.kron (Vec.basis b)) (Vec.basis b))

/-- circuits/_unitary_tools.py:65-67: column `i` of the permutation matrix, i.e. the dense vector of the permuted bitstring
of `i`. -/
def permColumn [Mul K] [Zero K] [One K] (order : List ℕ) (i : ℕ) : Except Err (Vec K) :=
  match permute (basisBitstring i order.length) order with
  | none => .error .indexError
  | some outputState => denseVector outputState

/-- circuits/_unitary_tools.py:42-68 `_permutation_matrix`.  The column loop fills column `i` with the dense vector of the permuted
bitstring of `i`. -/
def permutationMatrix [Mul K] [Zero K] [One K] (order : List ℕ) : Except Err (Mat K) :=
  let numQubits := order.length
  if order.mergeSort (· ≤ ·) ≠ List.range numQubits then .error .valueError
  else do
    let columns ← (List.range (2 ^ numQubits)).mapM (permColumn (K := K) order)
    return ⟨2 ^ numQubits, 2 ^ numQubits, fun r i => match columns[i]? with
      | some v => v.e r
      | none => 0⟩

/-- circuits/_unitary_tools.py:71-76 `_permutation_making_qubits_adjacent`. -/
def permutationMakingQubitsAdjacent (qubits : List ℕ) (numQubits : ℕ) : List ℕ :=
  qubits ++ (List.range numQubits).filter fun i => !qubits.contains i

/-- circuits/_unitary_tools.py:79-132 `_lift_matrix` (the numpy variant of lines 135-150; the sympy variant, lines 153-164,
performs the same operations).  `min` of an empty tuple is a `ValueError`; `@` on mismatching shapes is a
`ValueError`; a qubit outside the register makes `eye(2 ** negative)` a `TypeError`. -/
def liftMatrix [AddCommMonoid K] [Mul K] [One K] (matrix : Mat K) (qubits : List ℕ) (numQubits : ℕ) :
    Except Err (Mat K) :=
  match qubits.min?, qubits.max? with
  | some smallest, some largest => do
    let shifted := qubits.map fun index => index - smallest
    let innerPermutation := permutationMakingQubitsAdjacent shifted (largest - smallest + 1)
    let perm ← permutationMatrix (K := K) innerPermutation
    if largest + 1 < smallest + qubits.length then .error .typeError
    else
      let innerGate := Mat.kron matrix (Mat.eye (2 ^ (largest + 1 - smallest - qubits.length)))
      if innerGate.rows ≠ perm.rows ∨ innerGate.cols ≠ perm.rows then .error .valueError
      else
        let inner := Mat.mul (Mat.mul perm.transpose innerGate) perm
        if numQubits < largest + 1 then .error .typeError
        else .ok (Mat.kron (Mat.kron (Mat.eye (2 ^ smallest)) inner)
          (Mat.eye (2 ^ (numQubits - largest - 1))))
  | _, _ => .error .valueError

end UnitaryTools

end ZQ
