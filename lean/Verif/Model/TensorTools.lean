import Verif.Model.PolyTensor

/-!
# Iteration up to symmetry, projection and rotation of polynomial tensors

Model of `openfermion/ops/representations/interaction_operator.py:95-166` and `polynomial_tensor.py:32-96, 371-422`.
-/

namespace ZQ.PolyT

open ZQ ZQ.Op

/-- interaction_operator.py:155-166 `_symmetric_two_body_terms`. -/
def symmetricTwo : List ℕ → Bool → List (List ℕ)
  | [p, q, r, s], cv => [[p, q, r, s], [q, p, s, r], [s, r, q, p], [r, s, p, q]] ++ if cv then [] else [[p, s, r, q], [q, r, s, p], [s, p, q, r], [r, q, p, s]]
  | _, _ => []

open Classical in
/-- interaction_operator.py:123-126, one turn of the loop over all index tuples; the state is the set `seen` and the tuples yielded so far. -/
noncomputable def uniqueStep (two : Tensor) (cv : Bool) (st : List (List ℕ) × List (List ℕ)) (quad : List ℕ) : List (List ℕ) × List (List ℕ) :=
  if two quad ≠ 0 ∧ quad ∉ st.1 then (st.1 ++ symmetricTwo quad cv, st.2 ++ [quad]) else st

/-- interaction_operator.py:121-126: the two-body indices. -/
noncomputable def uniqueTwo (n : ℕ) (two : Tensor) (cv : Bool) : List (List ℕ) := ((allIndices n 4).foldl (uniqueStep two cv) ([], [])).2

open Classical in
/-- interaction_operator.py:115-119: the one-body indices. -/
noncomputable def uniqueOne (n : ℕ) (one : Tensor) : List (List ℕ) :=
  (List.range n).flatMap fun p => ((List.range (p + 1)).filter fun q => decide (one [p, q] ≠ 0)).map fun q => [p, q]

open Classical in
/-- interaction_operator.py:95-126 `unique_iter`. -/
noncomputable def uniqueIter (n : ℕ) (c : ℂ) (one two : Tensor) (cv : Bool) : List (Term Bool) :=
  (if c ≠ 0 then [[]] else []) ++ (uniqueOne n one).map (fun i => i.zip [true, false]) ++ (uniqueTwo n two cv).map fun i => i.zip [true, true, false, false]

/-- interaction_operator.py:128-134 `zero`. -/
noncomputable def zeroInteraction (n : ℕ) : PolyTensor := interaction n 0 (fun _ => 0) fun _ => 0

/-- interaction_operator.py:142-152 `with_function_applied_elementwise`. -/
noncomputable def mapInteraction (n : ℕ) (c : ℂ) (one two : Tensor) (f : ℂ → ℂ) : PolyTensor := interaction n (f c) (fun i => f (one i)) fun i => f (two i)

/-- The argument `selection`: a number of indices or a collection of indices.  Negative indices are not modelled. -/
inductive Selection
  | count (k : ℤ)
  | modes (l : List ℕ)

/-- `itertools.product(dims, repeat=d)`.  External library. -/
def productOver (dims : List ℕ) : ℕ → List (List ℕ)
  | 0 => [[]]
  | d + 1 => dims.flatMap fun i => (productOver dims d).map (i :: ·)

/-- polynomial_tensor.py:402, 404, 408 `pred`. -/
def Selection.pred (exact : Bool) (idx : List ℕ) : Selection → Bool
  | .count k => if exact then decide ((idx.dedup.length : ℤ) = k) else decide ((idx.dedup.length : ℤ) ≤ k)
  | .modes l => if exact then idx.all (fun i => decide (i ∈ l)) && l.all (fun i => decide (i ∈ idx)) else idx.all fun i => decide (i ∈ l)

/-- polynomial_tensor.py:405, 409 `dims`.  The order of the set does not matter for the result. -/
def Selection.dims (n : ℕ) : Selection → List ℕ
  | .count _ => List.range n
  | .modes l => l.dedup

/-- Truth value of the selection (line 415); a set is true if it is not empty. -/
def Selection.truthy : Selection → Bool
  | .count k => decide (k ≠ 0)
  | .modes l => !l.isEmpty

/-- polynomial_tensor.py:418-421: one array. -/
noncomputable def projectKey (n : ℕ) (sel : Selection) (exact : Bool) (key : Key) (t : Tensor) : Except Err Tensor :=
  (productOver (sel.dims n) key.length).foldlM (fun (acc : Tensor) idx =>
    if sel.pred exact idx then (if idx.all (fun i => decide (i < n)) then .ok (assign acc idx (t idx)) else .error .indexError) else .ok acc) fun _ => 0

/-- polynomial_tensor.py:391-422 `projected_n_body_tensors`. -/
noncomputable def projectedTensors (T : PolyTensor) (sel : Selection) (exact : Bool) : Except Err (PyDict Key Tensor) :=
  T.tensors.mapM fun kv =>
    if kv.1 = [] then .ok (kv.1, if !(exact && sel.truthy) then kv.2 else fun _ => 0)
    else do
      let t ← projectKey T.n sel exact kv.1 kv.2
      .ok (kv.1, t)

/-- interaction_operator.py:136-140 `projected`. -/
noncomputable def projected (n : ℕ) (c : ℂ) (one two : Tensor) (sel : Selection) (exact : Bool) : Except Err PolyTensor := do
  let d ← projectedTensors (interaction n c one two) sel exact
  match PyDict.get? d [], PyDict.get? d [true, false], PyDict.get? d [true, true, false, false] with
  | some c', some one', some two' => .ok (interaction n (c' []) one' two')
  | _, _, _ => .error .keyError

/-- A matrix by its entries. -/
abbrev Rot := ℕ → ℕ → ℂ

/-- `numpy.kron(rotation_matrix, numpy.eye(2))` (line 64).  External library. -/
noncomputable def kronEye (R : Rot) : Rot := fun x y => R (x / 2) (y / 2) * if x % 2 = y % 2 then 1 else 0

/-- polynomial_tensor.py:88, 92: the product of one entry of each rotation matrix, conjugated for creation operators. -/
noncomputable def rotProd (R : Rot) : Key → List ℕ → List ℕ → ℂ
  | b :: key, a :: as, x :: xs => (if b then (starRingEnd ℂ) (R a x) else R a x) * rotProd R key as xs
  | _, _, _ => 1

/-- polynomial_tensor.py:32-96 `general_basis_change` for an array of dimension `n` and an `m × m` matrix.  `numpy.einsum` is an external call: it sums
the products over all values of the repeated indices; it raises `ValueError` when dimensions differ. -/
noncomputable def basisChange (n m : ℕ) (R : Rot) (key : Key) (t : Tensor) : Except Err Tensor :=
  if key.length > 26 then .error .valueError
  else if n = 2 * m then .ok fun x => ((allIndices n key.length).map fun a => t a * rotProd (kronEye R) key a x).sum
  else if n = m then .ok fun x => ((allIndices n key.length).map fun a => t a * rotProd R key a x).sum
  else .error .valueError

/-- polynomial_tensor.py:371-386 `rotate_basis`.  The object is replaced as a whole (after an error, arrays of earlier keys would keep their new values). -/
noncomputable def rotateBasis (T : PolyTensor) (m : ℕ) (R : Rot) : Except Err PolyTensor := do
  let d ← T.tensors.mapM fun kv =>
    if kv.1 = [] then .ok kv
    else do
      let t ← basisChange T.n m R kv.1 kv.2
      .ok (kv.1, t)
  .ok ⟨T.n, d⟩

end ZQ.PolyT
