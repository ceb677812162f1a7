import Verif.Model.SymOp
import Verif.Model.Bits

/-!
# Pauli decomposition of a matrix

Model of `get_qubitop_from_matrix` and `get_qubitop_from_coeffs_and_labels` in `openfermion/zapata_utils/_utils.py`.  Entries are complex numbers.
A plain `raise Exception(..)` is modelled by `Err.runtimeError`.
-/

namespace ZQ.PauliDecomp

open ZQ ZQ.Op ZQ.Bits

/-- `dec2bin` (utils.py) as it is used here; `sys.exit` is modelled by `Err.runtimeError`. -/
def dec2binE (i w : ℕ) : Except Err (List ℕ) :=
  match dec2bin i w with
  | none => .error .runtimeError
  | some l => .ok l

/-- _utils.py:60-71 `decode`: pairs of bits to labels. -/
def decode (n : ℕ) (bits : List ℕ) : Except Err (List ℕ) :=
  if bits.length ≠ 2 * n then .error .runtimeError
  else .ok ((List.range n).map fun i => (bin2dec (((bits.drop (2 * i)).take 2).map fun d : ℕ => (d : ℤ))).toNat)

/-- _utils.py:77-85 `f(j)`: position of the nonzero element of the Pauli string in column `j`.  Simplification: the loop over positions is a
`zipWith`; the bit list has as many positions as the label whenever this is reached. -/
def flipIndex (n : ℕ) (label : List ℕ) (j : ℕ) : Except Err ℕ := do
  let bits ← dec2binE j n
  .ok (bin2dec ((List.zipWith (fun d a => if a = 1 ∨ a = 2 then (if d = 0 then 1 else 0) else d) bits label).map fun d : ℕ => (d : ℤ))).toNat

/-- _utils.py:90-101, one turn of the loop of `nz(j)`. -/
noncomputable def nzStep (v : ℂ) (p : ℕ × ℕ) : ℂ :=
  if p.2 = 2 then (if p.1 = 0 then v * Complex.I else if p.1 = 1 then v * (-Complex.I) else v)
  else if p.2 = 3 then (if p.1 = 1 then v * (-1) else v)
  else v

/-- _utils.py:87-102 `nz(j)`: the nonzero element in column `j`. -/
noncomputable def nz (n : ℕ) (label : List ℕ) (j : ℕ) : Except Err ℂ := do
  let bits ← dec2binE j n
  .ok ((bits.zip label).foldl nzStep 1)

/-- `operator[i][j]`. -/
def entry (operator : List (List ℂ)) (i j : ℕ) : Except Err ℂ :=
  match operator[i]? with
  | none => .error .indexError
  | some row => match row[j]? with
    | none => .error .indexError
    | some v => .ok v

/-- _utils.py:73-109 `trace_product`. -/
noncomputable def traceProduct (n : ℕ) (operator : List (List ℂ)) (label : List ℕ) : Except Err ℂ := do
  let tr ← (List.range (2 ^ n)).foldlM (fun (tr : ℂ) j => do
    let k ← flipIndex n label j
    let e ← entry operator j k
    let v ← nz n label j
    .ok (tr + e * v)) 0
  .ok (tr / 2 ^ n)

/-- _utils.py:145-153: the term of a label; `X`, `Y`, `Z` for 1, 2, 3. -/
def labelTerm (label : List ℕ) : Term Letter :=
  (label.zipIdx).flatMap fun p =>
    (if p.1 = 1 then [(p.2, Letter.X)] else []) ++ (if p.1 = 2 then [(p.2, Letter.Y)] else []) ++ (if p.1 = 3 then [(p.2, Letter.Z)] else [])

/-- _utils.py:120-157 `get_qubitop_from_coeffs_and_labels`. -/
noncomputable def fromCoeffsAndLabels (coeffs : List ℂ) (labels : List (List ℕ)) : Except Err (Terms Letter) :=
  (List.range labels.length).foldlM (fun (out : Terms Letter) i =>
    match coeffs[i]? with
    | none => .error .indexError
    | some c => .ok (add out (smul (ofTerm qubit (labelTerm (labels.getD i [])) 1) c))) []

/-- _utils.py:29-117 `get_qubitop_from_matrix`. -/
noncomputable def getQubitopFromMatrix (operator : List (List ℂ)) : Except Err (Terms Letter) :=
  match operator with
  | [] => .error .indexError
  | row :: _ =>
    let nrows := operator.length
    let ncols := row.length
    if nrows ≠ ncols then .error .runtimeError
    else if ¬ (nrows &&& (nrows - 1) = 0 ∧ nrows > 0) then .error .runtimeError
    else if ¬ (ncols &&& (ncols - 1) = 0 ∧ ncols > 0) then .error .runtimeError
    else do
      let n := Nat.log2 nrows
      let items ← (List.range (4 ^ n)).mapM fun i => do
        let bits ← dec2binE i (2 * n)
        let label ← decode n bits
        let c ← traceProduct n operator label
        .ok (c, label)
      fromCoeffsAndLabels (items.map Prod.fst) (items.map Prod.snd)

end ZQ.PauliDecomp
