import Verif.Model.SymOp

/-!
# Fermion operators: conjugation, normal ordering, Jordan-Wigner

Model of `openfermion/utils/operator_utils.py`, `transforms/opconversions/term_reordering.py`, `jordan_wigner.py` and
`ops/operators/fermion_operator.py`.  A ladder operator is `(mode, creation)`.
-/

namespace ZQ.Op

open ZQ

/-! ### Hermitian conjugation -/

/-- operator_utils.py:53-58: reversed term with flipped actions. -/
def conjTerm (t : Term Bool) : Term Bool := t.reverse.map fun f => (f.1, !f.2)

/-- operator_utils.py:50-59 `hermitian_conjugated` of a `FermionOperator`. -/
noncomputable def hcFermion (o : Terms Bool) : Terms Bool :=
  PyDict.ofItems (o.map fun kv => (conjTerm kv.1, (starRingEnd ℂ) kv.2))

/-- operator_utils.py:62-65 `hermitian_conjugated` of a `QubitOperator`. -/
noncomputable def hcQubit (o : Terms Letter) : Terms Letter :=
  PyDict.ofItems (o.map fun kv => (kv.1, (starRingEnd ℂ) kv.2))

/-- operator_utils.py:103-104 `is_hermitian` of a `QubitOperator`; `common` is the set iteration order used by `==`. -/
noncomputable def isHermitianQubit (o : Terms Letter) (common : List (Term Letter)) : Bool := isclose o (hcQubit o) common

/-! ### Normal ordering -/

/-- term_reordering.py:190-222, the loop over `j` for one `i`.  The list `term` with the cursor at `j` is kept as `rpre` (the factors before the
cursor, nearest first), `x = term[j]` and `post`.  `parity` is -1.  `.error r` is the early `return r`.  `rec` is the recursive call. -/
noncomputable def noInner (rec : Term Bool → ℂ → Terms Bool) :
    Term Bool → (ℕ × Bool) → Term Bool → ℂ → Terms Bool → Except (Terms Bool) (Term Bool × ℂ × Terms Bool)
  | [], x, post, c, acc => .ok (x :: post, c, acc)
  | l :: rpre, x, post, c, acc =>
    if x.2 = true ∧ l.2 = false then
      noInner rec rpre x (l :: post) (c * -1)
        (if x.1 = l.1 then add acc (rec (rpre.reverse ++ post) (-1 * (c * -1))) else acc)
    else if x.2 = l.2 then
      if x.1 = l.1 then .error acc
      else if l.1 < x.1 then noInner rec rpre x (l :: post) (c * -1) acc
      else noInner rec rpre l (x :: post) c acc
    else noInner rec rpre l (x :: post) c acc

/-- term_reordering.py:189-226, the loop over `i` and the final addition. -/
noncomputable def noOuter (rec : Term Bool → ℂ → Terms Bool) : List ℕ → Term Bool → ℂ → Terms Bool → Terms Bool
  | [], term, c, acc => add acc (ofTerm fermion term c)
  | i :: is, term, c, acc =>
    match term.drop i with
    | [] => acc
    | x :: post =>
      match noInner rec (term.take i).reverse x post c acc with
      | .error r => r
      | .ok (term', c', acc') => noOuter rec is term' c' acc'

/-- term_reordering.py:147-226 with a recursion budget: the recursive calls are on terms two factors shorter, so a budget of at least the length
is never exhausted (with budget 0 the term is empty and both loops are empty). -/
noncomputable def noTerm : ℕ → Term Bool → ℂ → Terms Bool
  | 0, t, c => add [] (ofTerm fermion t c)
  | n + 1, t, c => noOuter (noTerm n) (List.range' 1 (t.length - 1)) t c []

/-- term_reordering.py:147-226 `normal_ordered_ladder_term` (parity -1). -/
noncomputable def normalOrderedTerm (t : Term Bool) (c : ℂ) : Terms Bool := noTerm t.length t c

/-- term_reordering.py:67-144 `normal_ordered` of a `FermionOperator`. -/
noncomputable def normalOrdered (o : Terms Bool) : Terms Bool := o.foldl (fun acc kv => add acc (normalOrderedTerm kv.1 kv.2)) []

/-- fermion_operator.py:93-103 for one term; the double loop visits exactly the adjacent pairs. -/
def isNormalOrderedTerm : Term Bool → Bool
  | [] => true
  | [_] => true
  | l :: r :: t =>
    if r.2 = true ∧ l.2 = false then false
    else if r.2 = l.2 ∧ l.1 ≤ r.1 then false
    else isNormalOrderedTerm (r :: t)

/-- fermion_operator.py:85-104 `is_normal_ordered`. -/
def isNormalOrdered (o : Terms Bool) : Bool := o.all fun kv => isNormalOrderedTerm kv.1

/-- operator_utils.py:97-100 `is_hermitian` of a `FermionOperator`. -/
noncomputable def isHermitianFermion (o : Terms Bool) (common : List (Term Bool)) : Bool :=
  isclose (normalOrdered o) (normalOrdered (hcFermion o)) common

/-! ### Jordan-Wigner -/

/-- jordan_wigner.py:56: the chain of `Z`s. -/
def zFactors (p : ℕ) : Term Letter := (List.range p).map fun i => (i, .Z)

/-- jordan_wigner.py:56-68, image of one ladder operator. -/
noncomputable def jwLadder (f : ℕ × Bool) : Terms Letter :=
  add (ofTerm qubit (zFactors f.1 ++ [(f.1, .X)]) (1 / 2))
    (ofTerm qubit (zFactors f.1 ++ [(f.1, .Y)]) (if f.2 then -(1 / 2 * Complex.I) else 1 / 2 * Complex.I))

/-- jordan_wigner.py:52-68, image of one term. -/
noncomputable def jwTerm (t : Term Bool) (c : ℂ) : Terms Letter :=
  t.foldl (fun acc f => mul qubit acc (jwLadder f)) (ofTerm qubit [] c)

/-- jordan_wigner.py:49-70 `_jordan_wigner_fermion_operator`. -/
noncomputable def jordanWigner (o : Terms Bool) : Terms Letter := o.foldl (fun acc kv => add acc (jwTerm kv.1 kv.2)) []

end ZQ.Op
