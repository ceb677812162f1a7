import Verif.Model.Sparse
import Verif.Model.Fermion

/-!
# Sparse matrices in a symmetry sector

Model of `get_number_preserving_sparse_operator` in `openfermion/linalg/sparse_tools.py`.  A determinant is the list of the occupations of the modes;
encodings of determinants as integers are not bounded (numpy's overflow beyond 63 modes is not modelled).
-/

namespace ZQ.Sector

open ZQ ZQ.Op

/-- One row of `state_array`. -/
abbrev Det := List Bool

/-- `numpy.where(d)[0]` (`b = true`) or `numpy.where(numpy.invert(d))[0]` (`b = false`) of a boolean array. External (numpy). -/
def whereIs (b : Bool) (d : Det) : List ℕ := (List.range d.length).filter fun i => decide (d[i]? = some b)

/-- `d[indices] = v`. -/
def setAll (d : Det) (indices : List ℕ) (v : Bool) : Det := indices.foldl (fun d i => d.set i v) d

/-- sparse_tools.py:610-638 `_iterate_basis_order_`. -/
def iterateOrder (ref : Det) (order : ℕ) : List Det :=
  (Sparse.combinations (whereIs true ref) order).flatMap fun occ =>
    (Sparse.combinations (whereIs false ref) order).map fun unocc => setAll (setAll ref occ false) unocc true

/-- `d[::2]`. -/
def evens (d : Det) : Det := (List.range ((d.length + 1) / 2)).map fun i => d.getD (2 * i) false
/-- `d[1::2]`. -/
def odds (d : Det) : Det := (List.range (d.length / 2)).map fun i => d.getD (2 * i + 1) false

/-- sparse_tools.py:662-669: indices of the even modes with occupation `b`. -/
def alphaIndices (b : Bool) (ref : Det) : List ℕ := (whereIs b (evens ref)).map fun i => i * 2
/-- sparse_tools.py:662-669: indices of the odd modes with occupation `b`. -/
def betaIndices (b : Bool) (ref : Det) : List ℕ := (whereIs b (odds ref)).map fun i => i * 2 + 1

/-- sparse_tools.py:641-691 `_iterate_basis_spin_order_`. -/
def iterateSpinOrder (ref : Det) (alpha beta : ℕ) : List Det :=
  (Sparse.combinations (alphaIndices true ref) alpha).flatMap fun ao =>
    (Sparse.combinations (alphaIndices false ref) alpha).flatMap fun au =>
      (Sparse.combinations (betaIndices true ref) beta).flatMap fun bo =>
        (Sparse.combinations (betaIndices false ref) beta).map fun bu =>
          setAll (setAll (setAll (setAll ref ao false) au true) bo false) bu true

/-- sparse_tools.py:566-607 `_iterate_basis_`. -/
def iterateBasis (ref : Det) (level : ℤ) (spin : Bool) : List Det :=
  if !spin then (List.range (level + 1).toNat).flatMap (iterateOrder ref)
  else
    let alphaLevel : ℤ := min ((evens ref).count true) level
    let betaLevel : ℤ := min ((odds ref).count true) level
    (List.range (level + 1).toNat).flatMap fun order : ℕ => (List.range (alphaLevel + 1).toNat).flatMap fun alpha : ℕ =>
      let beta : ℤ := (order : ℤ) - (alpha : ℤ)
      if beta < 0 ∨ beta > betaLevel then [] else iterateSpinOrder ref alpha beta.toNat

/-- sparse_tools.py:538, 785-787: `d.dot(1 << numpy.arange(d.size)[::-1])`. -/
def encode : Det → ℕ
  | [] => 0
  | b :: d => b.toNat * 2 ^ d.length + encode d

/-- `numpy.argsort(a)`. External (numpy); the order of equal entries does not matter here, because there are none (`basis_spec`). -/
def argsort (a : List ℕ) : List ℕ := (List.range a.length).insertionSort fun i j => a.getD i 0 ≤ a.getD j 0

/-- `numpy.searchsorted(a, v, sorter=s)`: the first position at which `v` can be inserted into the sorted array. External (numpy). -/
def searchsorted (a : List ℕ) (v : ℕ) (s : List ℕ) : ℕ := (s.takeWhile fun i => decide (a.getD i 0 < v)).length

/-- The local variables of the loop in sparse_tools.py:736-745. -/
structure Needs where
  /-- `needs_to_be_occupied` -/
  occ : List ℕ
  /-- `needs_to_be_unoccupied` -/
  unocc : List ℕ
  /-- `delta` -/
  delta : ℤ

/-- sparse_tools.py:737-744: one turn of the loop over the reversed term. -/
def needsStep (s : Needs) (f : ℕ × Bool) : Needs :=
  if f.2 = false then ⟨s.occ ++ [f.1], s.unocc, s.delta - 1⟩
  else ⟨s.occ, if f.1 ∉ s.occ then s.unocc ++ [f.1] else s.unocc, s.delta + 1⟩

/-- sparse_tools.py:777-783: one turn of the loop that applies the term to a determinant; `parity` and `target_determinant`. -/
def flipStep (s : ℤ × Det) (f : ℕ × Bool) : ℤ × Det :=
  (s.1 * (-1) ^ (s.2.take f.1).count true, s.2.set f.1 (!s.2.getD f.1 false))

/-- sparse_tools.py:785-800: looks the target up; `none` if it is not in the space. -/
def lookup (ints sorting : List ℕ) (target : Det) : Except Err (Option ℕ) :=
  match sorting[searchsorted ints (encode target) sorting]? with
  | none => .error .indexError
  | some k => .ok (if ints.getD k 0 = encode target then some k else none)

/-- sparse_tools.py:773-800: what one determinant adds to `data`, `row_ind`, `col_ind`. -/
def stateEntry (states : List Det) (ints sorting : List ℕ) (t : Term Bool) (j : ℕ) : Except Err (List (ℤ × ℕ × ℕ)) := do
  let r := t.reverse.foldl flipStep (1, states.getD j [])
  match ← lookup ints sorting r.2 with
  | none => .ok []
  | some k => .ok [(r.1, k, j)]

/-- sparse_tools.py:750-757 `maybe_valid_states`. -/
def candidates (states : List Det) (need : Needs) : List ℕ :=
  (List.range states.length).filter fun j =>
    (need.occ.all fun i => (states.getD j []).getD i false) && !(need.unocc.any fun i => (states.getD j []).getD i false)

/-- sparse_tools.py:694-808 `_build_term_op_`; `n` is the number of columns of `state_array`. -/
noncomputable def buildTermOp (n : ℕ) (states : List Det) (ints sorting : List ℕ) (t : Term Bool) : Except Err (Mat ℂ) :=
  let need := t.reverse.foldl needsStep ⟨[], [], 0⟩
  if need.delta ≠ 0 then .error .valueError
  else if ¬ ((need.occ ++ need.unocc).all fun i => decide (i < n)) then .error .indexError
  else do
    let es ← (candidates states need).mapM (stateEntry states ints sorting t)
    Sparse.ofTriplets states.length (es.flatten.map fun x => (x.1 : ℂ)) (es.flatten.map fun x => x.2.1) (es.flatten.map fun x => x.2.2)

/-- sparse_tools.py:546-561: one turn of the loop over the terms. -/
noncomputable def termStep (n : ℕ) (states : List Det) (ints sorting : List ℕ) (M : Mat ℂ) (kv : Term Bool × ℂ) : Except Err (Mat ℂ) := do
  let T ← if kv.1.length = 0 then .ok (Mat.eye states.length) else buildTermOp n states ints sorting kv.1
  .ok ⟨states.length, states.length, fun i j => M.e i j + kv.2 * T.e i j⟩

/-- sparse_tools.py:520-523: the default reference. -/
def hartreeFock (nQubits : ℕ) (nElectrons : ℤ) : Det := (List.range nQubits).map fun i : ℕ => decide ((i : ℤ) < nElectrons)

/-- sparse_tools.py:470-563 `get_number_preserving_sparse_operator`.  Without any basis state `state_array` has one axis and `shape[1]` raises
`IndexError`; a determinant of no modes is an array of floating point numbers, which can neither be inverted nor counted (`TypeError`). -/
noncomputable def numberPreservingSparse (o : Terms Bool) (nQubits : ℕ) (nElectrons : ℤ) (spin : Bool) (ref : Option Det) (level : Option ℤ) :
    Except Err (Mat ℂ) :=
  let ref := ref.getD (hartreeFock nQubits nElectrons)
  let level := level.getD nElectrons
  let states := iterateBasis ref level spin
  if ref = [] ∧ 0 ≤ level then .error .typeError
  else if states = [] then .error .indexError
  else
    let ints := states.map encode
    (normalOrdered o).foldlM (termStep ref.length states ints (argsort ints)) ⟨states.length, states.length, fun _ _ => 0⟩

end ZQ.Sector
