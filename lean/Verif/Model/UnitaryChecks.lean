import Verif.Model.Matrices
import Mathlib.Analysis.Complex.Norm

/-!
# Model: checks of unitary matrices

`zquantum/core/utils.py`: `is_identity`, `is_unitary`, `compare_unitary`.  Floating point numbers are replaced by exact complex numbers.
-/

namespace ZQ.UCheck

/-- A two-dimensional numpy array: its shape and its entries (only those inside the shape are ever used). -/
structure Arr where
  rows : ℕ
  cols : ℕ
  entry : ℕ → ℕ → ℂ

/-- `u.T.conj()`. -/
noncomputable def Arr.conjT (u : Arr) : Arr := ⟨u.cols, u.rows, fun i j => (starRingEnd ℂ) (u.entry j i)⟩

/-- `np.dot(u, v)`: the inner dimensions must agree. -/
noncomputable def Arr.dot (u v : Arr) : Except Err Arr :=
  if u.cols ≠ v.rows then .error .valueError
  else .ok ⟨u.rows, v.cols, fun i j => ∑ k ∈ Finset.range u.cols, u.entry i k * v.entry k j⟩

/-- `c * u`. -/
noncomputable def Arr.scale (c : ℂ) (u : Arr) : Arr := ⟨u.rows, u.cols, fun i j => c * u.entry i j⟩

/-- The relative tolerance `rtol` that `np.allclose` uses when none is given. -/
noncomputable def rtol : ℝ := 1 / 10 ^ 5

open Classical in
/-- utils.py:109-123 `is_identity`: `np.allclose(u, np.eye(n), atol=tol)` compares each entry with tolerance `tol + rtol * |expected|`.  The plain `Exception`
is `runtimeError` here. -/
noncomputable def isIdentity (u : Arr) (tol : ℝ) : Except Err Bool :=
  if u.rows ≠ u.cols then .error .runtimeError
  else .ok (decide (∀ i < u.rows, ∀ j < u.rows, ‖u.entry i j - (if i = j then 1 else 0)‖ ≤ tol + rtol * ‖(if i = j then 1 else 0 : ℂ)‖))

/-- utils.py:126-141 `is_unitary`. -/
noncomputable def isUnitary (u : Arr) (tol : ℝ) : Except Err Bool :=
  if u.rows ≠ u.cols then .error .runtimeError
  else do isIdentity (← u.conjT.dot u) tol

open Classical in
/-- utils.py:144-164 `compare_unitary`.  `item((0, 0))` of an empty array raises an `IndexError`; `0 ** -1` raises a `ZeroDivisionError`, since `item`
returns a Python number. -/
noncomputable def compareUnitary (u1 u2 : Arr) (tol : ℝ) : Except Err Bool := do
  if !(← isUnitary u1 tol) then .error .runtimeError
  else if !(← isUnitary u2 tol) then .error .runtimeError
  else
    let test ← u1.conjT.dot u2
    if test.rows = 0 ∨ test.cols = 0 then .error .indexError
    else if test.entry 0 0 = 0 then .error .zeroDivision
    else isIdentity (Arr.scale (test.entry 0 0)⁻¹ test) tol

end ZQ.UCheck
