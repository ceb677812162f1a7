import Verif.Model.Fermion

/-!
# Reverse Jordan-Wigner

Model of `openfermion/transforms/opconversions/reverse_jordan_wigner.py` and `count_qubits`.
-/

namespace ZQ.Op

open ZQ

/-- operator_utils.py:141-147 `count_qubits` of a `FermionOperator`. -/
def countFermion (o : Terms Bool) : ℕ :=
  o.foldl (fun n kv => kv.1.foldl (fun n f => if f.1 + 1 > n then f.1 + 1 else n) n) 0

/-- operator_utils.py:150-156 `count_qubits` of a `QubitOperator` (only the last factor of each term is looked at). -/
def countQubit (o : Terms Letter) : ℕ :=
  o.foldl (fun n kv => match kv.1.getLast? with
    | none => n
    | some f => if f.1 + 1 > n then f.1 + 1 else n) 0

/-- special_operators.py:54-55: the number operator of one mode. -/
def numberMode (mode : ℕ) (c : ℂ) : Terms Bool := ofTerm fermion [(mode, true), (mode, false)] c

/-- special_operators.py:48-52: the total number operator. -/
noncomputable def numberOperator (n : ℕ) (c : ℂ) : Terms Bool := (List.range n).foldl (fun acc m => add acc (numberMode m c)) []

/-- reverse_jordan_wigner.py:69-73: `raising_term + lowering_term`. -/
noncomputable def raisePlusLower (p : ℕ) (a : Letter) : Terms Bool :=
  add (if a = .Y then smul (ofTerm fermion [(p, true)] 1) (1 * Complex.I) else ofTerm fermion [(p, true)] 1)
    (if a = .Y then smul (ofTerm fermion [(p, false)] 1) (-1 * Complex.I) else ofTerm fermion [(p, false)] 1)

/-- reverse_jordan_wigner.py:58-95, the `while` loop.  `w` is `working_term`, `op` is `pauli_operator`, `acc` is `transformed_term`.  The budget
bounds the number of turns; running out of it would be a non-terminating loop (the property theorems show that it does not happen). -/
noncomputable def rjwLoop : ℕ → Terms Letter → (ℕ × Letter) → Terms Bool → Except Err (Terms Bool)
  | 0, _, _, _ => .error .runtimeError
  | n + 1, w, op, acc => do
    let (tp, w') ←
      if op.2 = .Z then
        -- 61-64
        .ok (add (ofTerm fermion [] 1) (numberMode op.1 (-2)), w)
      else
        -- 67-82
        let w1 := (List.range op.1).reverse.foldl (fun w j => mul qubit (ofTerm qubit [(j, .Z)] 1) w) w
        match w1 with
        | [] => .error .indexError
        | (k, c) :: rest => .ok (smul (raisePlusLower op.1 op.2) c, (k, 1) :: rest)
    match w' with
    | [(k, _)] =>
      -- 85-95
      let acc' := mul fermion acc tp
      match k.reverse.find? (fun f => decide (f.1 < op.1)) with
      | none => .ok acc'
      | some op' => rjwLoop n w' op' acc'
    | _ => .error .assertionError

/-- reverse_jordan_wigner.py:53-98, one term with its coefficient. -/
noncomputable def rjwTerm (t : Term Letter) (c : ℂ) : Except Err (Terms Bool) := do
  let r ← match t.getLast? with
    | none => .ok (ofTerm fermion [] 1)
    | some op => rjwLoop (op.1 + 1) (ofTerm qubit t 1) op (ofTerm fermion [] 1)
  .ok (smul r c)

/-- reverse_jordan_wigner.py:45-99 `reverse_jordan_wigner` (the type check is left out). -/
noncomputable def reverseJordanWigner (o : Terms Letter) (nQubits : Option ℕ) : Except Err (Terms Bool) :=
  if nQubits.getD (countQubit o) < countQubit o then .error .valueError
  else o.foldlM (fun acc kv => do .ok (add acc (← rjwTerm kv.1 kv.2))) []

end ZQ.Op
