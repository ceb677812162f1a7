import Verif.Model.Matrices
import Verif.Model.Recorder
import Mathlib.Data.Real.Basic

/-!
# Example functions: history/example_functions.py

Parameters are lists of real numbers, or integers for the functions that take one integer. Indexing past the end is an `IndexError`.
-/

namespace ZQ.Examples

open ZQ ZQ.History

/-- `params[i]`. -/
def item (params : List ℝ) (i : ℕ) : Except Err ℝ :=
  match params[i]? with
  | some x => .ok x
  | none => .error .indexError

/-- example_functions.py:20-29 `sum_of_squares`. -/
noncomputable def sumOfSquares (params : List ℝ) : ℝ := params.foldl (fun acc x => acc + x ^ 2) 0

/-- example_functions.py:33-36 `function_1`. -/
noncomputable def function1 (params : List ℝ) : Except Err ℝ := do
  let x ← item params 0
  let y ← item params 1
  .ok (x ^ 2 - x * y)

/-- example_functions.py:35 the gradient of `function_1`. -/
noncomputable def gradient1 (params : List ℝ) : Except Err (List ℝ) := do
  let x ← item params 0
  let y ← item params 1
  .ok [2 * x - y, -x]

/-- example_functions.py:55-64 `Function2.__call__`. -/
noncomputable def function2 (multiplier : ℝ) (params : List ℝ) : Except Err ℝ := do
  let x ← item params 0
  let y ← item params 1
  let z ← item params 2
  .ok (multiplier * (x - x * y + z ^ 2))

/-- example_functions.py:66-75 `Function2.gradient`. -/
noncomputable def gradient2 (multiplier : ℝ) (params : List ℝ) : Except Err (List ℝ) := do
  let y ← item params 1
  let x ← item params 0
  let z ← item params 2
  .ok ([1 - y, -x, 2 * z].map fun g => multiplier * g)

/-- `bin(n)`: a sign, `0b` and the binary digits. -/
def bin (n : ℤ) : List Char := (if n < 0 then ['-'] else []) ++ ['0', 'b'] ++ Nat.toDigits 2 n.natAbs

/-- example_functions.py:78-96 `function_3`: the value, and what is stored when there is a `store_artifact`. -/
def function3 (params : ℤ) : ℤ × List (Store (List Char)) := (2 * params, [⟨"bitstring", (bin params).drop 2, false⟩])

/-- example_functions.py:99-108 `function_4`. -/
def function4 (params : ℤ) : ℤ × List (Store (List Char)) := (2 * params, [⟨"bitstring", (bin params).drop 2, decide (params % 2 = 0)⟩])

/-- example_functions.py:126-137 `Function5.__call__`, with a `store_artifact`. -/
noncomputable def function5 (alpha : ℝ) (params : List ℝ) : Except Err (ℝ × List (Store ℝ)) := do
  let x ← item params 0
  let stores ← if 0 < x then do
      let y ← item params 1
      .ok [⟨"something", x + y, false⟩]
    else .ok []
  let y ← item params 1
  let z ← item params 2
  .ok (alpha * x * y * z, stores)

/-- example_functions.py:139-150 `Function5.gradient`. -/
noncomputable def gradient5 (alpha : ℝ) (params : List ℝ) : Except Err (List ℝ) := do
  let y ← item params 1
  let z ← item params 2
  let x ← item params 0
  .ok ([y * z, x * z, x * y].map fun g => alpha * g)

end ZQ.Examples
