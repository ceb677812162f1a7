import Verif.Model.Fermion
import Verif.Model.PolyTensor

/-!
# Jordan-Wigner transform of interaction operators

Model of `jordan_wigner_one_body`, `jordan_wigner_two_body` and `_jordan_wigner_interaction_op` of
`openfermion/transforms/opconversions/jordan_wigner.py`.
-/

namespace ZQ.JWInt

open ZQ ZQ.Op ZQ.PolyT

/-- `tuple((z, "Z") for z in range(lo, hi))`. -/
def zSegment (lo hi : ℕ) : Term Letter := (List.range' lo (hi - lo)).map fun z => (z, .Z)

/-- `itertools.combinations(l, 2)` in its order. External. -/
def pairs {α : Type} : List α → List (α × α)
  | [] => []
  | x :: l => l.map (fun y => (x, y)) ++ pairs l

/-- jordan_wigner.py:144-149 and 249-254: the real coefficients and the letters at the two ends of a hopping string. -/
def hopLetters (c : ℂ) : List (ℝ × Letter × Letter) := [(c.re, .X, .X), (c.re, .Y, .Y), (c.im, .Y, .X), (-c.im, .X, .Y)]

/-- jordan_wigner.py:150 and 255: a string with the two letters at the ends and `Z` in between. -/
def hopString (a b : ℕ) (la lb : Letter) : Term Letter := [(a, la)] ++ zSegment (a + 1) b ++ [(b, lb)]

/-- jordan_wigner.py:143-151 for ordered indices. -/
noncomputable def oneBodyOrdered (p q : ℕ) (c : ℂ) : Terms Letter :=
  (hopLetters c).foldl (fun acc (x : ℝ × Letter × Letter) => add acc (ofTerm qubit (hopString p q x.2.1 x.2.2) (1 / 2 * (x.1 : ℂ)))) []

/-- jordan_wigner.py:131-158 `jordan_wigner_one_body`. -/
noncomputable def oneBody (p q : ℕ) (c : ℂ) : Terms Letter :=
  if p ≠ q then (if q < p then oneBodyOrdered q p ((starRingEnd ℂ) c) else oneBodyOrdered p q c)
  else add (add [] (ofTerm qubit [] (1 / 2 * c))) (ofTerm qubit [(p, .Z)] (-(1 / 2) * c))

/-- `itertools.product("XY", repeat=4)`. -/
def letters4 : List (Letter × Letter × Letter × Letter) :=
  [Letter.X, .Y].flatMap fun a => [Letter.X, .Y].flatMap fun b => [Letter.X, .Y].flatMap fun c => [Letter.X, .Y].map fun d => (a, b, c, d)

/-- `ops.count("X")`. -/
def countX (o : Letter × Letter × Letter × Letter) : ℕ := [o.1, o.2.1, o.2.2.1, o.2.2.2].count .X

/-- jordan_wigner.py:180-188: the coefficient of one combination of letters. -/
noncomputable def fourCoeff (c : ℂ) (o : Letter × Letter × Letter × Letter) : ℝ :=
  if countX o % 2 ≠ 0 then
    if o ∈ [(Letter.X, Letter.Y, Letter.X, Letter.X), (.Y, .X, .X, .X), (.Y, .Y, .X, .Y), (.Y, .Y, .Y, .X)] then 1 / 8 * c.im * -1 else 1 / 8 * c.im
  else if o ∉ [(Letter.X, Letter.X, Letter.Y, Letter.Y), (.Y, .Y, .X, .X)] then 1 / 8 * c.re * -1 else 1 / 8 * c.re

/-- jordan_wigner.py:192-198: `sorted(zip([p, q, r, s], ops))`; the indices are different, so only they are compared. -/
def sorted4 (p q r s : ℕ) (o : Letter × Letter × Letter × Letter) : Term Letter :=
  [(p, o.1), (q, o.2.1), (r, o.2.2.1), (s, o.2.2.2)].insertionSort fun x y => x.1 ≤ y.1

/-- jordan_wigner.py:200-206: the string of one combination of letters. -/
def fourString (l : Term Letter) : Term Letter :=
  match l with
  | [a, b, c, d] => [a] ++ zSegment (a.1 + 1) b.1 ++ [b] ++ [c] ++ zSegment (c.1 + 1) d.1 ++ [d]
  | _ => []

/-- jordan_wigner.py:174-209: four different indices. -/
noncomputable def twoBodyFour (p q r s : ℕ) (c : ℂ) : Terms Letter :=
  let c := if xor (decide (q < p)) (decide (s < r)) then c * -1 else c
  letters4.foldl (fun acc o => if fourCoeff c o = 0 then acc else add acc (ofTerm qubit (fourString (sorted4 p q r s o)) (fourCoeff c o : ℂ))) []

/-- jordan_wigner.py:214-244: the ends of the hopping string, the coefficient and the index of the number operator. -/
def threeData (p q r s : ℕ) (c : ℂ) : (ℕ × ℕ) × ℂ × ℕ :=
  if p = r then (if s < q then ((s, q), -(starRingEnd ℂ) c, p) else ((q, s), -c, p))
  else if p = s then (if r < q then ((r, q), (starRingEnd ℂ) c, p) else ((q, r), c, p))
  else if q = r then (if s < p then ((s, p), (starRingEnd ℂ) c, q) else ((p, s), c, q))
  else (if r < p then ((r, p), -(starRingEnd ℂ) c, q) else ((p, r), -c, q))

/-- jordan_wigner.py:255-262, one turn of the loop. -/
noncomputable def threeStep (a b z : ℕ) (acc : Terms Letter) (x : ℝ × Letter × Letter) : Terms Letter :=
  if x.1 = 0 then acc
  else
    let hop := ofTerm qubit (hopString a b x.2.1 x.2.2) ((x.1 : ℂ) / 4)
    add (sub acc (mul qubit (ofTerm qubit [(z, .Z)] 1) hop)) hop

/-- jordan_wigner.py:211-262: three different indices. -/
noncomputable def twoBodyThree (p q r s : ℕ) (c : ℂ) : Terms Letter :=
  let d := threeData p q r s c
  (hopLetters d.2.1).foldl (threeStep d.1.1 d.1.2 d.2.2) []

/-- jordan_wigner.py:264-277: two different indices. -/
noncomputable def twoBodyTwo (p q s : ℕ) (c : ℂ) : Terms Letter :=
  let k := if p = s then -(1 / 4) * c else 1 / 4 * c
  sub (add (add (sub [] (ofTerm qubit [] k)) (ofTerm qubit [(p, .Z)] k)) (ofTerm qubit [(q, .Z)] k)) (ofTerm qubit [(min q p, .Z), (max q p, .Z)] k)

/-- jordan_wigner.py:161-279 `jordan_wigner_two_body`. -/
noncomputable def twoBody (p q r s : ℕ) (c : ℂ) : Terms Letter :=
  if p = q ∨ r = s then []
  else if [p, q, r, s].dedup.length = 4 then twoBodyFour p q r s c
  else if [p, q, r, s].dedup.length = 3 then twoBodyThree p q r s c
  else if [p, q, r, s].dedup.length = 2 then twoBodyTwo p q s c
  else []

/-- jordan_wigner.py:100: coefficient of an off-diagonal one-body term. -/
noncomputable def oneCoeff (one : Tensor) (p q : ℕ) : ℂ := 1 / 2 * (one [p, q] + (starRingEnd ℂ) (one [q, p]))

/-- jordan_wigner.py:104-109: coefficient of a "diagonal" two-body term. -/
def diagCoeff (two : Tensor) (p q : ℕ) : ℂ := two [p, q, p, q] - two [p, q, q, p] - two [q, p, p, q] + two [q, p, q, p]

/-- jordan_wigner.py:116-125: coefficient of the other two-body terms. -/
noncomputable def twoCoeff (two : Tensor) (p q r s : ℕ) : ℂ :=
  1 / 2 * (two [p, q, r, s] + (starRingEnd ℂ) (two [s, r, q, p]) - two [p, q, s, r] - (starRingEnd ℂ) (two [r, s, q, p]) - two [q, p, r, s]
    - (starRingEnd ℂ) (two [s, r, p, q]) + two [q, p, s, r] + (starRingEnd ℂ) (two [r, s, p, q]))

/-- jordan_wigner.py:73-128 `_jordan_wigner_interaction_op` on an `InteractionOperator` with constant `c`, arrays `one`, `two` of dimension `n`.
When more qubits are asked for than the arrays have, the first loop reads a row that does not exist (`IndexError`). -/
noncomputable def jwInteraction (n : ℕ) (c : ℂ) (one two : Tensor) (nQubits : Option ℕ) : Except Err (Terms Letter) :=
  let N := nQubits.getD n
  if N < n then .error .valueError
  else if n < N then .error .indexError
  else
    let o := ofTerm qubit [] c
    let o := (List.range N).foldl (fun acc p => add acc (oneBody p p (one [p, p]))) o
    let o := (pairs (List.range N)).foldl (fun acc (x : ℕ × ℕ) =>
      add (add acc (oneBody x.1 x.2 (oneCoeff one x.1 x.2))) (twoBody x.1 x.2 x.1 x.2 (diagCoeff two x.1 x.2))) o
    let o := (pairs (pairs (List.range N))).foldl (fun acc (x : (ℕ × ℕ) × (ℕ × ℕ)) =>
      add acc (twoBody x.1.1 x.1.2 x.2.1 x.2.2 (twoCoeff two x.1.1 x.1.2 x.2.1 x.2.2))) o
    .ok o

end ZQ.JWInt
