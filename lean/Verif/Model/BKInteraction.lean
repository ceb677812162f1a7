import Verif.Model.BravyiKitaev
import Verif.Model.PolyTensor

/-!
# Bravyi-Kitaev transform of interaction operators

Models lines 252-800 of `openfermion/transforms/opconversions/bravyi_kitaev.py`.  As in `Model/BravyiKitaev.lean`, Python sets of qubit indices are
`Finset ℕ` and iteration over a set is in increasing order (`bkInteraction_order` proves that the order does not matter).  The two parallel lists
of operators and coefficients are one list of pairs.
-/

namespace ZQ.BKInt

open ZQ ZQ.Op ZQ.PolyT

/-- bravyi_kitaev.py:756-757 `_remainder_set`. -/
def remainderSet (i : ℕ) : Finset ℕ := paritySet i \ occupationSet i

/-- bravyi_kitaev.py:760-761 `_F_ij_set`. -/
def fSet (i j : ℕ) : Finset ℕ := symmDiff (occupationSet i) (occupationSet j)

/-- bravyi_kitaev.py:764-766 `_P0_ij_set`. -/
def p0Set (i j : ℕ) : Finset ℕ := symmDiff (paritySet i) (paritySet j)

/-- bravyi_kitaev.py:769-771 `_P1_ij_set`. -/
def p1Set (i j : ℕ) : Finset ℕ := symmDiff (paritySet i) (remainderSet j)

/-- bravyi_kitaev.py:774-776 `_P2_ij_set`. -/
def p2Set (i j : ℕ) : Finset ℕ := symmDiff (remainderSet i) (paritySet j)

/-- bravyi_kitaev.py:779-781 `_P3_ij_set`. -/
def p3Set (i j : ℕ) : Finset ℕ := symmDiff (remainderSet i) (remainderSet j)

/-- bravyi_kitaev.py:784-786 `_U_ij_set`. -/
def uSet (i j n : ℕ) : Finset ℕ := symmDiff (updateSet i n) (updateSet j n)

/-- bravyi_kitaev.py:799-800 `_alpha_set`. -/
def alphaSet (i j n : ℕ) : Finset ℕ := updateSet i n ∩ paritySet j

/-- bravyi_kitaev.py:789-791 `_U_diff_a_set`. -/
def uDiffA (i j n : ℕ) : Finset ℕ := uSet i j n \ alphaSet i j n

/-- bravyi_kitaev.py:794-796 `_P0_ij_diff_a_set`. -/
def p0DiffA (i j n : ℕ) : Finset ℕ := p0Set i j \ alphaSet i j n

/-- Python's `complex(0, z)` for a complex `z`. -/
noncomputable def imag (z : ℂ) : ℂ := z * Complex.I

/-- bravyi_kitaev.py:435-458, case 1. -/
noncomputable def case1 (i j n : ℕ) (c : ℂ) : List (Term Letter × ℂ) :=
  let left := lettersOn .X (uDiffA i j n) ++ lettersOn .Y (alphaSet i j n) ++ lettersOn .Z (p0DiffA i j n)
  let ops : List (Term Letter) := [left ++ [(j, .Y), (i, .X)], left ++ [(j, .X), (i, .Y)], left ++ [(j, .X), (i, .X)], left ++ [(j, .Y), (i, .Y)]]
  ops.zip (if i < j then [c, -c, imag (-c), imag (-c)] else [imag (-c), imag c, -c, -c])

/-- bravyi_kitaev.py:460-489, case 2. -/
noncomputable def case2 (i j n : ℕ) (c : ℂ) : List (Term Letter × ℂ) :=
  let left := lettersOn .X (uDiffA i j n) ++ lettersOn .Y (alphaSet i j n)
  let r1 := lettersOn .Z (p0Set i j \ alphaSet i j n)
  let r2 := lettersOn .Z (p2Set i j \ alphaSet i j n)
  let ops : List (Term Letter) :=
    [left ++ [(j, .Y), (i, .X)] ++ r1, left ++ [(j, .X), (i, .X)] ++ r1, left ++ [(j, .X), (i, .Y)] ++ r2, left ++ [(j, .Y), (i, .Y)] ++ r2]
  ops.zip (if i < j then [c, imag (-c), -c, imag (-c)] else [imag (-c), -c, imag c, -c])

/-- bravyi_kitaev.py:491-507, case 3. -/
noncomputable def case3 (i j n : ℕ) (c : ℂ) : List (Term Letter × ℂ) :=
  let left := lettersOn .X (uSet i j n)
  let r1 := lettersOn .Z (p0Set i j \ {i})
  let r2 := lettersOn .Z (p2Set i j \ {i})
  [(left ++ [(j, .Y), (i, .Y)] ++ r1, c), (left ++ [(j, .X), (i, .Y)] ++ r1, imag (-c)), (left ++ [(j, .X), (i, .X)] ++ r2, c),
    (left ++ [(j, .Y), (i, .X)] ++ r2, imag c)]

/-- bravyi_kitaev.py:509-541, case 4. -/
noncomputable def case4 (i j n : ℕ) (c : ℂ) : List (Term Letter × ℂ) :=
  let left := lettersOn .X (uDiffA i j n) ++ lettersOn .Y (alphaSet i j n)
  let r1 := lettersOn .Z (p0Set i j \ alphaSet i j n)
  let r2 := lettersOn .Z (p1Set i j \ alphaSet i j n)
  let ops : List (Term Letter) :=
    [left ++ [(j, .X), (i, .Y)] ++ r1, left ++ [(j, .X), (i, .X)] ++ r1, left ++ [(j, .Y), (i, .X)] ++ r2, left ++ [(j, .Y), (i, .Y)] ++ r2]
  ops.zip (if i < j then [-c, imag (-c), c, imag (-c)] else [imag c, -c, imag (-c), -c])

/-- bravyi_kitaev.py:543-576, case 5. -/
noncomputable def case5 (i j n : ℕ) (c : ℂ) : List (Term Letter × ℂ) :=
  let x1 := uSet i j n \ {j}
  let left1 := lettersOn .X x1
  let left2 := lettersOn .X (x1 \ alphaSet i j n)
  let r1 := lettersOn .Y (alphaSet i j n) ++ lettersOn .Z (p0Set i j \ alphaSet i j n)
  let r2 := lettersOn .Z (p1Set i j ∪ {j})
  [(left2 ++ [(i, .Y)] ++ r1, -c), (left2 ++ [(i, .X)] ++ r1, imag (-c)), (left1 ++ [(i, .Y)] ++ r2, imag c), (left1 ++ [(i, .X)] ++ r2, -c)]

/-- bravyi_kitaev.py:578-598, case 6. -/
noncomputable def case6 (i j n : ℕ) (c : ℂ) : List (Term Letter × ℂ) :=
  let left := lettersOn .X (uSet i j n \ {j})
  let right := lettersOn .Z (p1Set i j ∪ {j})
  [(left ++ [(i, .X)], c), (left ++ [(i, .Y)], imag (-c)), (left ++ [(i, .Y)] ++ right, imag c), (left ++ [(i, .X)] ++ right, -c)]

/-- bravyi_kitaev.py:600-647, case 7. -/
noncomputable def case7 (i j n : ℕ) (c : ℂ) : List (Term Letter × ℂ) :=
  let left := lettersOn .X (uDiffA i j n) ++ lettersOn .Y (alphaSet i j n)
  let r1 := lettersOn .Z (p0Set i j \ alphaSet i j n)
  let r2 := lettersOn .Z (p1Set i j \ alphaSet i j n)
  let r3 := lettersOn .Z (p2Set i j \ alphaSet i j n)
  let r4 := lettersOn .Z (p3Set i j \ alphaSet i j n)
  if i < j then
    [(left ++ [(j, .X), (i, .X)] ++ r1, imag (-c)), (left ++ [(j, .Y), (i, .X)] ++ r2, c), (left ++ [(j, .X), (i, .Y)] ++ r3, -c),
      (left ++ [(j, .Y), (i, .Y)] ++ r4, imag (-c))]
  else
    [(left ++ [(j, .X), (i, .X)] ++ r1, -c), (left ++ [(j, .Y), (i, .X)] ++ r2, imag (-c)), (left ++ [(j, .X), (i, .Y)] ++ r3, imag c),
      (left ++ [(j, .Y), (i, .Y)] ++ r4, -c)]

/-- bravyi_kitaev.py:649-680, case 8. -/
noncomputable def case8 (i j n : ℕ) (c : ℂ) : List (Term Letter × ℂ) :=
  let left := lettersOn .X (uSet i j n)
  let r1 := lettersOn .Z (p0Set i j \ {i})
  let r2 := lettersOn .Z (p1Set i j \ {i})
  let r3 := lettersOn .Z (p2Set i j \ {i})
  let r4 := lettersOn .Z (p3Set i j \ {i})
  [(left ++ [(j, .X), (i, .Y)] ++ r1, imag (-c)), (left ++ [(j, .Y), (i, .Y)] ++ r2, c), (left ++ [(j, .X), (i, .X)] ++ r3, c),
    (left ++ [(j, .Y), (i, .X)] ++ r4, imag c)]

/-- bravyi_kitaev.py:682-726, case 9. -/
noncomputable def case9 (i j n : ℕ) (c : ℂ) : List (Term Letter × ℂ) :=
  let x1 := uSet i j n \ {j}
  let left3 := lettersOn .X x1
  let left1 := lettersOn .X (x1 \ alphaSet i j n)
  let left2 := lettersOn .X ((x1 ∪ {i}) \ alphaSet i j n)
  let y := lettersOn .Y (alphaSet i j n)
  let r1 := lettersOn .Z (p2Set i j \ alphaSet i j n) ++ y
  let r2 := lettersOn .Z (p0Set i j \ alphaSet i j n) ++ y
  let r3 := lettersOn .Z (p1Set i j ∪ {j})
  let r4 := lettersOn .Z (p3Set i j ∪ {j})
  [(left1 ++ [(i, .Y)] ++ r1, -c), (left2 ++ r2, imag (-c)), (left3 ++ [(i, .X)] ++ r3, -c), (left3 ++ [(i, .Y)] ++ r4, imag c)]

/-- bravyi_kitaev.py:728-751, case 10. -/
noncomputable def case10 (i j n : ℕ) (c : ℂ) : List (Term Letter × ℂ) :=
  let left := lettersOn .X (uSet i j n \ {j})
  let r1 := lettersOn .Z (p0Set i j \ {i})
  let r2 := lettersOn .Z (p2Set i j \ {i})
  let r3 := lettersOn .Z (p1Set i j)
  let r4 := lettersOn .Z (p3Set i j)
  [(left ++ [(i, .Y)] ++ r1, imag (-c)), (left ++ [(i, .X)] ++ r2, c), (left ++ [(j, .Z), (i, .X)] ++ r3, -c),
    (left ++ [(j, .Z), (i, .Y)] ++ r4, imag c)]

/-- bravyi_kitaev.py:416-753 `_seeley_richard_love`: strings and coefficients of `coef * a_i^dagger a_j`. -/
noncomputable def srl (i j : ℕ) (coef : ℂ) (n : ℕ) : List (Term Letter × ℂ) :=
  let c := coef * (1 / 4)
  if i = j then [(lettersOn .Z (occupationSet i), -c * 2), ([], c * 2)]
  else if i % 2 = 0 ∧ j % 2 = 0 then case1 i j n c
  else if i % 2 = 1 ∧ j % 2 = 0 ∧ i ∉ paritySet j then case2 i j n c
  else if i % 2 = 1 ∧ j % 2 = 0 ∧ i ∈ paritySet j then case3 i j n c
  else if i % 2 = 0 ∧ j % 2 = 1 ∧ i ∉ paritySet j ∧ j ∉ updateSet i n then case4 i j n c
  else if i % 2 = 0 ∧ j % 2 = 1 ∧ i ∉ paritySet j ∧ j ∈ updateSet i n then case5 i j n c
  else if i % 2 = 0 ∧ j % 2 = 1 ∧ i ∈ paritySet j ∧ j ∈ updateSet i n then case6 i j n c
  else if i % 2 = 1 ∧ j % 2 = 1 ∧ i ∉ paritySet j ∧ j ∉ updateSet i n then case7 i j n c
  else if i % 2 = 1 ∧ j % 2 = 1 ∧ i ∈ paritySet j ∧ j ∉ updateSet i n then case8 i j n c
  else if i % 2 = 1 ∧ j % 2 = 1 ∧ i ∉ paritySet j ∧ j ∈ updateSet i n then case9 i j n c
  else if i % 2 = 1 ∧ j % 2 = 1 ∧ i ∈ paritySet j ∧ j ∈ updateSet i n then case10 i j n c
  else []

/-- bravyi_kitaev.py:404-413 `_qubit_operator_creation`. -/
noncomputable def creation (l : List (Term Letter × ℂ)) : Terms Letter := l.foldl (fun acc x => add acc (ofTerm qubit x.1 x.2)) []

/-- bravyi_kitaev.py:374-380 `_two_body_coef`. -/
def twoBodyCoef (two : Tensor) (a b c d : ℕ) : ℂ := two [a, b, c, d] - two [a, b, d, c] + two [b, a, d, c] - two [b, a, c, d]

/-- bravyi_kitaev.py:383-401 `_hermitian_one_body_product`. -/
noncomputable def hermProduct (a b c d : ℕ) (coef : ℂ) (n : ℕ) : Terms Letter :=
  add (mul qubit (creation (srl a c coef n)) (creation (srl b d 1 n)))
    (mul qubit (creation (srl c a ((starRingEnd ℂ) coef) n)) (creation (srl d b 1 n)))

/-- The local variables of the loops: `qubit_hamiltonian`, the two lists of pending terms, `constant_term`. -/
structure BKState where
  ham : Terms Letter
  pend : List (Term Letter × ℂ)
  const : ℂ

/-- bravyi_kitaev.py:283-313, the body of the loop over `j` (case B). -/
noncomputable def pairStep (n : ℕ) (one two : Tensor) (i : ℕ) (st : BKState) (j : ℕ) : BKState :=
  let pend := if one [i, j] = 0 then st.pend else st.pend ++ srl i j (one [i, j]) n ++ srl j i ((starRingEnd ℂ) (one [i, j])) n
  let coef := twoBodyCoef two i j j i / 4
  if coef = 0 then ⟨st.ham, pend, st.const⟩
  else ⟨st.ham, pend ++ [(lettersOn .Z (occupationSet i), -coef), (lettersOn .Z (occupationSet j), -coef), (lettersOn .Z (fSet i j), coef)],
    st.const + coef⟩

/-- bravyi_kitaev.py:276-313, the body of the first loop (cases A and B). -/
noncomputable def rowStep (n : ℕ) (one two : Tensor) (st : BKState) (i : ℕ) : BKState :=
  let st := if one [i, i] = 0 then st else ⟨add st.ham (creation (srl i i (one [i, i]) n)), st.pend, st.const⟩
  (List.range i).foldl (pairStep n one two i) st

/-- bravyi_kitaev.py:319-340, the body of the innermost loop of case C. -/
noncomputable def numberStep (n : ℕ) (two : Tensor) (i j : ℕ) (ham : Terms Letter) (k : ℕ) : Terms Letter :=
  if i ∈ [j, k] then ham
  else
    let coef := twoBodyCoef two i j k i
    if coef = 0 then ham
    else add ham (mul qubit (creation (srl i i 1 n)) (creation (srl j k coef n ++ srl k j ((starRingEnd ℂ) coef) n)))

/-- bravyi_kitaev.py:347-351, 353-357, 359-363, one of the three blocks of case D. -/
noncomputable def doubleBlock (n : ℕ) (two : Tensor) (ham : Terms Letter) (a b c d : ℕ) : Terms Letter :=
  let coef := -twoBodyCoef two a b c d
  if coef = 0 then ham else add ham (hermProduct a b c d coef n)

/-- bravyi_kitaev.py:347-363, the body of the innermost loop of case D. -/
noncomputable def doubleStep (n : ℕ) (two : Tensor) (i j k : ℕ) (ham : Terms Letter) (l : ℕ) : Terms Letter :=
  doubleBlock n two (doubleBlock n two (doubleBlock n two ham i j k l) i k j l) i l j k

/-- bravyi_kitaev.py:252-371 `_bravyi_kitaev_interaction_operator` on an operator with constant `c` and arrays `one`, `two` of dimension `n`.  When
more qubits are asked for than the arrays have, the first loop reads a row that does not exist (`IndexError`). -/
noncomputable def bkInteraction (n : ℕ) (c : ℂ) (one two : Tensor) (nQubits : Option ℕ) : Except Err (Terms Letter) :=
  let N := nQubits.getD n
  if N < n then .error .valueError
  else if n < N then .error .indexError
  else
    let st := (List.range N).foldl (rowStep N one two) ⟨[], [], c⟩
    let ham := (List.range N).foldl (fun ham i => (List.range N).foldl (fun ham j => (List.range j).foldl (numberStep N two i j) ham) ham) st.ham
    let ham := (List.range N).foldl (fun ham i => (List.range i).foldl (fun ham j => (List.range j).foldl (fun ham k =>
      (List.range k).foldl (doubleStep N two i j k) ham) ham) ham) ham
    .ok (add ham (creation (st.pend ++ [([], st.const)])))

end ZQ.BKInt
