import Verif.Model.Fermion
import Verif.Model.ReverseJW
import Mathlib.Data.Int.Bitwise
import Mathlib.Data.Finset.Sort
import Mathlib.Data.Finset.SymmDiff

/-!
# Bravyi-Kitaev transform of fermion operators

Models `openfermion/transforms/opconversions/bravyi_kitaev.py`.  Python sets of qubit indices are `Finset ℕ`.  Where the code iterates over a set
(an unspecified order) the model iterates in increasing order; `Props/BravyiKitaev` proves that every other order gives the same operator.  The
interaction-operator variant (`_bravyi_kitaev_interaction_operator`, lines 252-800) is modelled in `Model/BKInteraction.lean`.
-/

namespace ZQ.Op

/-- bravyi_kitaev.py:64, 70: `index & -index`, with Python's two's-complement `&` on integers. -/
def lowBit (k : ℕ) : ℕ := (Int.land (k : ℤ) (-(k : ℤ))).toNat

/-- bravyi_kitaev.py:82, 88, 100: `index & (index - 1)`. -/
def clearLow (k : ℕ) : ℕ := k &&& (k - 1)

/-- bravyi_kitaev.py:66-70, the `while` loop (index counted from 1).  The budget bounds the number of turns. -/
def updateLoop (nQubits : ℕ) : ℕ → ℕ → Finset ℕ → Finset ℕ
  | 0, _, acc => acc
  | fuel + 1, k, acc => if k ≤ nQubits then updateLoop nQubits fuel (k + lowBit k) (insert (k - 1) acc) else acc

/-- bravyi_kitaev.py:56-71 (`_update_set`).  Each turn increases the index, so `n_qubits` turns are enough. -/
def updateSet (index nQubits : ℕ) : Finset ℕ := updateLoop nQubits (nQubits + 1) (index + 1 + lowBit (index + 1)) ∅

/-- bravyi_kitaev.py:84-88, the `while` loop. -/
def occupationLoop (parent : ℕ) : ℕ → ℕ → Finset ℕ → Finset ℕ
  | 0, _, acc => acc
  | fuel + 1, k, acc => if k ≠ parent then occupationLoop parent fuel (clearLow k) (insert (k - 1) acc) else acc

/-- bravyi_kitaev.py:74-89 (`_occupation_set`). -/
def occupationSet (index : ℕ) : Finset ℕ := occupationLoop (clearLow (index + 1)) (index + 1) index {index}

/-- bravyi_kitaev.py:96-100, the `while` loop. -/
def parityLoop : ℕ → ℕ → Finset ℕ → Finset ℕ
  | 0, _, acc => acc
  | fuel + 1, k, acc => if 0 < k then parityLoop fuel (clearLow k) (insert (k - 1) acc) else acc

/-- bravyi_kitaev.py:92-101 (`_parity_set`). -/
def paritySet (index : ℕ) : Finset ℕ := parityLoop (index + 1) index ∅

/-- `[(i, letter) for i in s]`. -/
def lettersOn (a : Letter) (s : Finset ℕ) : Term Letter := (s.sort (· ≤ ·)).map fun i => (i, a)

/-- bravyi_kitaev.py:204-206: the factors of `(a† + a) / 2`. -/
def bkSumFactors (p n : ℕ) : Term Letter := lettersOn .X (insert p (updateSet p n)) ++ lettersOn .Z (paritySet p)

/-- bravyi_kitaev.py:209-214: the factors of `(a† - a) / 2`. -/
def bkDiffFactors (p n : ℕ) : Term Letter :=
  [(p, .Y)] ++ lettersOn .X (insert p (updateSet p n) \ {p}) ++ lettersOn .Z (symmDiff (paritySet p) (occupationSet p) \ {p})

/-- bravyi_kitaev.py:188-223 (`_transform_ladder_operator`). -/
noncomputable def bkLadder (n : ℕ) (f : ℕ × Bool) : Terms Letter :=
  let s := ofTerm qubit (bkSumFactors f.1 n) (1 / 2)
  let d := ofTerm qubit (bkDiffFactors f.1 n) (-(1 / 2 * Complex.I))
  if f.2 then add s d else sub s d

/-- bravyi_kitaev.py:149-167 and 239-249 (`_transform_operator_term`, `inline_product`). -/
noncomputable def bkTerm (n : ℕ) (t : Term Bool) (c : ℂ) : Terms Letter :=
  t.foldl (fun acc f => mul qubit acc (bkLadder n f)) (ofTerm qubit [] c)

/-- bravyi_kitaev.py:170-185 and 226-236 (`_bravyi_kitaev_fermion_operator`, `inline_sum`); the dispatch on the argument's type (46-53) is
left to the types. -/
noncomputable def bravyiKitaev (o : Terms Bool) (nQubits : Option ℕ) : Except Err (Terms Letter) :=
  let N := countFermion o
  let n := nQubits.getD N
  if n < N then .error .valueError
  else .ok (o.foldl (fun acc kv => add acc (bkTerm n kv.1 kv.2)) [])

/-- bravyi_kitaev.py:129-146 (`_transform_majorana_operator`). -/
noncomputable def bkMajorana (n majorana : ℕ) : Terms Letter :=
  if majorana % 2 ≠ 0 then ofTerm qubit (bkDiffFactors (majorana / 2) n) 1 else ofTerm qubit (bkSumFactors (majorana / 2) n) 1

end ZQ.Op
