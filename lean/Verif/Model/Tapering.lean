import Verif.Model.SymOp

/-!
# Freezing and pruning orbitals: openfermion/transforms/repconversions/operator_tapering.py

Coefficients are complex numbers, floats exact.
-/

namespace ZQ.Op

open ZQ

/-- operator_tapering.py:47-51: what the loop over the factors of one term keeps. -/
structure Scan where
  /-- position from the right of the next factor (`enumerate`) -/
  pos : ℕ
  nOps : ℕ
  nSwaps : ℤ
  coef : ℂ
  occupancy : Bool
  rest : Term Bool

/-- operator_tapering.py:53-68: one factor. `same` is Python's `is` on integers: whether two integer objects of these values are the same object. -/
def scanStep (same : ℕ → ℕ → Bool) (i : ℕ) (s : Scan) (op : ℕ × Bool) : Scan :=
  if same op.1 i then
    { pos := s.pos + 1
      nOps := s.nOps + 1
      nSwaps := s.nSwaps + ((s.pos : ℤ) - ((s.nOps + 1 : ℕ) : ℤ))
      coef := if s.occupancy = op.2 then 0 else s.coef
      occupancy := !s.occupancy
      rest := s.rest }
  else { s with pos := s.pos + 1, rest := op :: s.rest }

/-- operator_tapering.py:47-72: one term; `none` if nothing is added. -/
noncomputable def freezeTerm (same : ℕ → ℕ → Bool) (item : ℕ × Bool) (t : Term Bool) (c : ℂ) : Option (Term Bool × ℂ) :=
  let s := t.reverse.foldl (scanStep same item.1) ⟨0, 0, 0, c, item.2, []⟩
  let coef := if s.nSwaps % 2 ≠ 0 then s.coef * -1 else s.coef
  if coef ≠ 0 ∧ s.occupancy = item.2 then some (s.rest, coef) else none

/-- operator_tapering.py:46-72, the body of the loop over terms. -/
noncomputable def freezeAdd (same : ℕ → ℕ → Bool) (item : ℕ × Bool) (tmp : Terms Bool) (kv : Term Bool × ℂ) : Terms Bool :=
  match freezeTerm same item kv.1 kv.2 with
  | some (t, c) => add tmp (ofTerm fermion t c)
  | none => tmp

/-- operator_tapering.py:45-73: one frozen orbital. -/
noncomputable def freezeOne (same : ℕ → ℕ → Bool) (o : Terms Bool) (item : ℕ × Bool) : Terms Bool := o.foldl (freezeAdd same item) []

/-- operator_tapering.py:79-83: the sign changes, one term. -/
def flipSign (occupied : List ℕ) (t : Term Bool) (c : ℂ) : ℂ :=
  occupied.foldl (fun c i => t.foldl (fun c op => if i < op.1 then c * -1 else c) c) c

/-- operator_tapering.py:79-83. -/
def flipSigns (occupied : List ℕ) (o : Terms Bool) : Terms Bool := o.map fun kv => (kv.1, flipSign occupied kv.1 kv.2)

/-- operator_tapering.py:101-106: the indices that appear, sorted. -/
def usedIndices {A : Type} (o : Terms A) : List ℕ :=
  ((o.flatMap fun kv => kv.1.map Prod.fst).foldl (fun l i => if i ∈ l then l else l ++ [i]) []).mergeSort (· ≤ ·)

/-- operator_tapering.py:91-121 `prune_unused_indices`. Simplified: `index_map[i]` (109-111) is the position of `i` in the sorted list of different indices. -/
def prune {A : Type} [DecidableEq A] (o : Terms A) : Terms A :=
  o.foldl (fun acc kv => PyDict.set acc (kv.1.map fun f => ((usedIndices o).idxOf f.1, f.2)) kv.2) []

/-- operator_tapering.py:22-88 `freeze_orbitals`. `unoccupied = none` is Python's default; `prune` is not read. -/
noncomputable def freezeOrbitals (same : ℕ → ℕ → Bool) (o : Terms Bool) (occupied : List ℕ) (unoccupied : Option (List ℕ) := none) (_prune : Bool := true) :
    Terms Bool :=
  let frozen := occupied.map (fun i => (i, true)) ++ (match unoccupied with | some u => u.map (fun i => (i, false)) | none => [])
  prune (flipSigns occupied (frozen.foldl (freezeOne same) o))

end ZQ.Op
