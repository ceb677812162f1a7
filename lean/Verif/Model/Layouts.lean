import Verif.Model.Matrices

/-!
# Circuit layouts

Model of `circuits/layouts.py`.  Qubits are natural numbers, dimensions are natural numbers.
-/

namespace ZQ.Layouts

/-- Python `range(start, stop, step)` for a positive step. External builtin. -/
def pyRange (start stop step : ℕ) : List ℕ :=
  (List.range ((stop - start + (step - 1)) / step)).map fun i => start + step * i

/-- circuits/layouts.py:12-33, 98-117: `CircuitConnectivity` (list of connections) and `CircuitLayers` (list of layers). -/
structure Layout where
  connectivity : List (ℕ × ℕ)
  layers : List (List (ℕ × ℕ))

/-- circuits/layouts.py:251-268 `_build_circuit_layers_and_connectivity_nearest_neighbors`. For `n_qubits <= 0` both ranges are empty
(natural subtraction gives the same). -/
def nearestNeighbors (n : ℕ) : Layout :=
  let evenLayer := (pyRange 0 (n - 1) 2).map fun index => (index, index + 1)
  let oddLayer := (pyRange 1 (n - 1) 2).map fun index => (index, index + 1)
  ⟨[] ++ evenLayer ++ oddLayer, [evenLayer, oddLayer]⟩

/-- A two-dimensional numpy array of numbers. Only entries inside its shape matter. -/
abbrev Grid := ℕ → ℕ → ℤ

/-- `pattern[r, p] = v`. -/
def Grid.set (g : Grid) (r p : ℕ) (v : ℤ) : Grid := fun r' p' => if r' = r ∧ p' = p then v else g r' p'

/-- State of the inner loop of circuits/layouts.py:194-215. -/
structure RowState where
  rowUp : List (ℕ × ℕ)
  rowDown : List (ℕ × ℕ)
  px : ℕ
  pattern1 : Grid

/-- circuits/layouts.py:195-215: one iteration of the inner loop. -/
def rowStep (xDim yDim yIndex m py : ℕ) (s : RowState) (xIndex : ℕ) : RowState :=
  let node := yIndex * xDim + xIndex
  if xIndex = xDim - 1 then
    let rowUp := s.rowUp ++ [(node, node - xDim)]
    let p1 := s.pattern1.set py s.px (((xIndex + m) % 2 : ℕ) : ℤ)
    if yDim - 1 > yIndex then
      ⟨rowUp, s.rowDown ++ [(node, node + xDim)], s.px + 1, p1.set (py + 1) s.px (((xIndex + m + 1) % 2 : ℕ) : ℤ)⟩
    else ⟨rowUp, s.rowDown, s.px + 1, p1⟩
  else
    let rowUp := s.rowUp ++ [(node, node - xDim), (node, node - xDim + 1)]
    let p1 := (s.pattern1.set py s.px (((xIndex + m) % 2 : ℕ) : ℤ)).set py (s.px + 1) (((xIndex + m) % 2 : ℕ) : ℤ)
    if yDim - 1 > yIndex then
      ⟨rowUp, s.rowDown ++ [(node, node + xDim), (node, node + xDim + 1)], s.px + 2,
        (p1.set (py + 1) s.px (((xIndex + m + 1) % 2 : ℕ) : ℤ)).set (py + 1) (s.px + 1) (((xIndex + m + 1) % 2 : ℕ) : ℤ)⟩
    else ⟨rowUp, s.rowDown, s.px + 2, p1⟩

/-- State of the outer loop of circuits/layouts.py:189-219. -/
structure PatternState where
  connectivity : List (List (ℕ × ℕ))
  py : ℕ
  pattern1 : Grid

/-- circuits/layouts.py:190-219: one iteration of the outer loop; `my = (m, y_index)`. -/
def outerStep (xDim yDim : ℕ) (s : PatternState) (my : ℕ × ℕ) : PatternState :=
  let r := (List.range xDim).foldl (rowStep xDim yDim my.2 my.1 s.py) ⟨[], [], 0, s.pattern1⟩
  ⟨s.connectivity ++ [r.rowUp] ++ [r.rowDown], s.py + 2, r.pattern1⟩

/-- circuits/layouts.py:189-219: the whole double loop. -/
def patternLoop (xDim yDim : ℕ) : PatternState :=
  let ys := pyRange 1 yDim 2
  ((List.range ys.length).zip ys).foldl (outerStep xDim yDim) ⟨[], 0, fun _ _ => 0⟩

/-- circuits/layouts.py:183-187 `pattern2`. -/
def pattern2 : Grid := fun m _ => ((m % 2 : ℕ) : ℤ)

/-- circuits/layouts.py:226-228: in row `m`, the columns of `(m + n) % 2 :: 2` are overwritten by -1. -/
def maskOut (n : ℕ) (pattern : Grid) : Grid := fun m p =>
  if (m + n) % 2 ≤ p ∧ (p - (m + n) % 2) % 2 = 0 then -1 else pattern m p

/-- circuits/layouts.py:234-241: the connections whose mask entry is `v`, column by column. `none` would be an `IndexError`. -/
def layerOf (xDim yDim : ℕ) (connectivity : List (List (ℕ × ℕ))) (mask : Grid) (v : ℤ) : Option (List (ℕ × ℕ)) :=
  (((List.range (2 * xDim - 1)).flatMap fun x => (List.range (yDim - 1)).map fun y => (x, y)).filter
    fun xy => mask xy.2 xy.1 = v).mapM fun xy => connectivity[xy.2]?.bind fun row => row[xy.1]?

/-- circuits/layouts.py:171-248 `_build_circuit_layers_and_connectivity_sycamore`.  `np.zeros` with a negative dimension is a `ValueError`. -/
def sycamore (xDim yDim : ℕ) : Except Err Layout :=
  if yDim < 1 ∨ 2 * xDim < 1 then .error .valueError
  else
    let s := patternLoop xDim yDim
    let masks := (List.range 2).flatMap fun n => [maskOut n s.pattern1, maskOut n pattern2]
    let layers := masks.flatMap fun mask => [layerOf xDim yDim s.connectivity mask 0, layerOf xDim yDim s.connectivity mask 1]
    match layers.mapM id with
    | none => .error .indexError
    | some layers => .ok ⟨s.connectivity.flatten, layers⟩

/-- circuits/layouts.py:151-168 `build_circuit_layers_and_connectivity`; `none` is Python's `None`, returned for an unknown layer type because
the `ValueError` of line 168 is created but not raised. -/
def build (xDim yDim : ℕ) (layerType : String) : Except Err (Option Layout) :=
  if layerType = "sycamore" then (sycamore xDim yDim).map some
  else if layerType = "nearest-neighbor" then .ok (some (nearestNeighbors xDim))
  else .ok none

end ZQ.Layouts
