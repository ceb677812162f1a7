import Verif.Model.SymOp

/-!
# Symbolic operators as mutable objects

Second model of `openfermion/ops/operators/symbolic_operator.py`, in which operators live in a store, variables hold their addresses, and each object has the
iterator left behind by `__iter__`.  All operators are of one class; a dictionary in which as many keys are deleted as are inserted while it is iterated over is not modelled.
-/

namespace ZQ.OpHeap

open ZQ ZQ.Op

variable {A : Type} [DecidableEq A]

/-- The exceptions of this model. -/
inductive Exc
  | runtimeError | typeError | valueError | zeroDivision | nameError | attributeError | stopIteration

/-- symbolic_operator.py:621-627: the attribute `_iter`: missing, an iterator over `terms.items()` at a position with the size which the dictionary had, used up, an iterator over
items that no longer change (of a dictionary which `terms` was before, or of the list made by `copy.deepcopy`), or one whose dictionary has changed its size. -/
inductive Iter (A : Type)
  | missing
  | active (pos used : ℕ)
  | done
  | old (rest : Terms A)
  | broken

/-- An operator object. -/
structure Obj (A : Type) where
  terms : Terms A
  iter : Iter A

/-- The store; addresses from `next` on are unused. -/
structure Heap (A : Type) where
  next : ℕ
  mem : ℕ → Obj A

/-- A new object. -/
def alloc (h : Heap A) (o : Obj A) : Heap A := ⟨h.next + 1, Function.update h.mem h.next o⟩

/-- Changes an object. -/
def put (h : Heap A) (r : ℕ) (o : Obj A) : Heap A := { h with mem := Function.update h.mem r o }

/-- `copy.deepcopy` of an operator: all attributes are copied; a dictionary iterator is copied as the list of its remaining items, which raises `RuntimeError` if the dictionary has
changed its size. External library. -/
def deepcopy (o : Obj A) : Except Exc (Obj A) :=
  match o.iter with
  | .missing => .ok ⟨o.terms, .missing⟩
  | .active pos used => if used = o.terms.length then .ok ⟨o.terms, .old (o.terms.drop pos)⟩ else .error .runtimeError
  | .done => .ok ⟨o.terms, .old []⟩
  | .old rest => .ok ⟨o.terms, .old rest⟩
  | .broken => .error .runtimeError

/-- `self.terms = new`: the iterator stays on the old dictionary. -/
def rebind (o : Obj A) (new : Terms A) : Obj A :=
  ⟨new, match o.iter with
    | .active pos used => if used = o.terms.length then .old (o.terms.drop pos) else .broken
    | i => i⟩

/-- symbolic_operator.py:439-443 (`sign = 1`) and 486-490 (`sign = -1`) when both operands are the same object, with the dictionary left behind by the exception. -/
noncomputable def selfLoop (sign : ℂ) : List (Term A) → Terms A → Option Exc × Terms A
  | [], d => (none, d)
  | t :: ts, d =>
    let s := coeff d t + sign * coeff d t
    if IsSmall s eqTol then (some .runtimeError, PyDict.del (PyDict.set d t s) t) else selfLoop sign ts (PyDict.set d t s)

/-- The arithmetic operators of Python. -/
inductive BinOp
  | add | sub | mul | div

/-- An operand: the operator at an address, or a number. -/
inductive Val
  | ref (r : ℕ)
  | num (c : ℂ)

/-- symbolic_operator.py:365-412 `__imul__`, 427-450 `__iadd__`, 474-496 `__isub__`, 568-572 `__itruediv__` on the operator at `r`; the exception, if any, and the store. -/
noncomputable def aug (S : OpClass A) (op : BinOp) (h : Heap A) (r : ℕ) (v : Val) : Option Exc × Heap A :=
  let o := h.mem r
  match op, v with
  | .add, .ref q =>
    if q = r then
      let a := selfLoop 1 (PyDict.keys o.terms) o.terms
      (a.1, put h r { o with terms := a.2 })
    else (none, put h r { o with terms := Op.add o.terms (h.mem q).terms })
  | .add, .num c => (none, put h r { o with terms := addScalar o.terms c })
  | .sub, .ref q =>
    if q = r then
      let a := selfLoop (-1) (PyDict.keys o.terms) o.terms
      (a.1, put h r { o with terms := a.2 })
    else (none, put h r { o with terms := Op.sub o.terms (h.mem q).terms })
  | .sub, .num c => (none, put h r { o with terms := addScalar o.terms (-c) })
  | .mul, .ref q => (none, put h r (rebind o (Op.mul S o.terms (h.mem q).terms)))
  | .mul, .num c => (none, put h r { o with terms := smul o.terms c })
  | .div, .ref _ => (some .typeError, h)
  | .div, .num c => if c = 0 then (some .zeroDivision, h) else (none, put h r { o with terms := smul o.terms (1 / c) })

/-- `copy.deepcopy(self)` and an update in place: symbolic_operator.py:414-425 `__mul__`, 452-462 `__add__`, 498-508 `__sub__`. -/
noncomputable def copyAug (S : OpClass A) (op : BinOp) (h : Heap A) (r : ℕ) (v : Val) : Except Exc ℕ × Heap A :=
  match deepcopy (h.mem r) with
  | .error e => (.error e, h)
  | .ok o =>
    match aug S op (alloc h o) h.next v with
    | (some e, h') => (.error e, h')
    | (none, h') => (.ok h.next, h')

/-- symbolic_operator.py:452-462, 498-508, 414-425, 543-562: operator on the left; division multiplies by `1.0 / divisor`. -/
noncomputable def binLeft (S : OpClass A) (op : BinOp) (h : Heap A) (r : ℕ) (v : Val) : Except Exc ℕ × Heap A :=
  match op, v with
  | .div, .ref _ => (.error .typeError, h)
  | .div, .num c => if c = 0 then (.error .zeroDivision, h) else copyAug S .mul h r (.num (1 / c))
  | op, v => copyAug S op h r v

/-- symbolic_operator.py:464-472 `__radd__`, 510-518 `__rsub__`, 520-541 `__rmul__`: a number on the left; dividing a number by an operator is a `TypeError`. -/
noncomputable def binRight (S : OpClass A) (op : BinOp) (h : Heap A) (c : ℂ) (r : ℕ) : Except Exc ℕ × Heap A :=
  match op with
  | .add => copyAug S .add h r (.num c)
  | .mul => copyAug S .mul h r (.num c)
  | .sub =>
    match copyAug S .mul h r (.num (-1)) with
    | (.error e, h') => (.error e, h')
    | (.ok r', h') => copyAug S .add h' r' (.num c)
  | .div => (.error .typeError, h)

/-- symbolic_operator.py:608-611: the loop of `__pow__`. -/
noncomputable def powLoop (S : OpClass A) (h : Heap A) (acc r : ℕ) : ℕ → Heap A
  | 0 => h
  | n + 1 => powLoop S (aug S .mul h acc (.ref r)).2 acc r n

/-- Expressions with an operator as value; operands are variables and numbers. -/
inductive Expr (A : Type)
  | new (t : Term A) (c : ℂ)
  | left (op : BinOp) (x y : String)
  | leftNum (op : BinOp) (x : String) (c : ℂ)
  | rightNum (op : BinOp) (c : ℂ) (x : String)
  | neg (x : String)
  | pow (x : String) (n : ℤ)

/-- Statements: `x = e`, `x = y`, `x op= y`, `x op= c`, `iter(x)` and `y = next(x)`. -/
inductive Stmt (A : Type)
  | assign (x : String) (e : Expr A)
  | share (x y : String)
  | aug (op : BinOp) (x y : String)
  | augNum (op : BinOp) (x : String) (c : ℂ)
  | iter (x : String)
  | next (y x : String)

/-- The variables and the store. -/
structure State (A : Type) where
  vars : String → Option ℕ
  heap : Heap A

/-- The value of an expression. -/
noncomputable def eval (S : OpClass A) (e : Expr A) (s : State A) : Except Exc ℕ × Heap A :=
  match e with
  | .new t c => (.ok s.heap.next, alloc s.heap ⟨ofTerm S t c, .missing⟩)
  | .left op x y =>
    match s.vars x, s.vars y with
    | some r, some q => binLeft S op s.heap r (.ref q)
    | _, _ => (.error .nameError, s.heap)
  | .leftNum op x c =>
    match s.vars x with
    | some r => binLeft S op s.heap r (.num c)
    | none => (.error .nameError, s.heap)
  | .rightNum op c x =>
    match s.vars x with
    | some r => binRight S op s.heap c r
    | none => (.error .nameError, s.heap)
  | .neg x =>
    match s.vars x with
    | some r => binRight S .mul s.heap (-1) r
    | none => (.error .nameError, s.heap)
  | .pow x n =>
    match s.vars x with
    | some r => if n < 0 then (.error .valueError, s.heap) else (.ok s.heap.next, powLoop S (alloc s.heap ⟨ofTerm S [] 1, .missing⟩) s.heap.next r n.toNat)
    | none => (.error .nameError, s.heap)

/-- What `next` gives. -/
inductive Next (A : Type)
  | item (o : Terms A)
  | stop
  | error (e : Exc)

/-- symbolic_operator.py:621-623 `__iter__`; it returns the operator itself. -/
def startIter (o : Obj A) : Obj A := { o with iter := .active 0 o.terms.length }

/-- symbolic_operator.py:625-627 `__next__`. -/
def advance (S : OpClass A) (o : Obj A) : Next A × Obj A :=
  match o.iter with
  | .missing => (.error .attributeError, o)
  | .active pos used =>
    if used = o.terms.length then
      match o.terms[pos]? with
      | some kv => (.item (ofTerm S kv.1 kv.2), { o with iter := .active (pos + 1) used })
      | none => (.stop, { o with iter := .done })
    else (.error .runtimeError, { o with iter := .broken })
  | .done => (.stop, o)
  | .old [] => (.stop, o)
  | .old (kv :: rest) => (.item (ofTerm S kv.1 kv.2), { o with iter := .old rest })
  | .broken => (.error .runtimeError, o)

/-- One statement: the exception, if any (the caller catches it; the end of an iterator is an exception too), and the state. -/
noncomputable def exec (S : OpClass A) (st : Stmt A) (s : State A) : Option Exc × State A :=
  match st with
  | .assign x e =>
    match eval S e s with
    | (.error err, h) => (some err, ⟨s.vars, h⟩)
    | (.ok r, h) => (none, ⟨Function.update s.vars x (some r), h⟩)
  | .share x y =>
    match s.vars y with
    | some r => (none, ⟨Function.update s.vars x (some r), s.heap⟩)
    | none => (some .nameError, s)
  | .aug op x y =>
    match s.vars x, s.vars y with
    | some r, some q => let a := OpHeap.aug S op s.heap r (.ref q); (a.1, ⟨s.vars, a.2⟩)
    | _, _ => (some .nameError, s)
  | .augNum op x c =>
    match s.vars x with
    | some r => let a := OpHeap.aug S op s.heap r (.num c); (a.1, ⟨s.vars, a.2⟩)
    | none => (some .nameError, s)
  | .iter x =>
    match s.vars x with
    | some r => (none, ⟨s.vars, put s.heap r (startIter (s.heap.mem r))⟩)
    | none => (some .nameError, s)
  | .next y x =>
    match s.vars x with
    | some r =>
      match advance S (s.heap.mem r) with
      | (.item t, o) =>
        let h := put s.heap r o
        (none, ⟨Function.update s.vars y (some h.next), alloc h ⟨t, .missing⟩⟩)
      | (.stop, o) => (some .stopIteration, ⟨s.vars, put s.heap r o⟩)
      | (.error e, o) => (some e, ⟨s.vars, put s.heap r o⟩)
    | none => (some .nameError, s)

/-- A program: a list of statements whose exceptions are caught; the exceptions and the final state. -/
noncomputable def run (S : OpClass A) : List (Stmt A) → State A → List (Option Exc) × State A
  | [], s => ([], s)
  | st :: rest, s =>
    let a := exec S st s
    let b := run S rest a.2
    (a.1 :: b.1, b.2)

/-! ## Loops -/

/-- Python's `for t in op: body`, after `iter(op)`: `body` acts on the values `β` of the rest of the program and on the operator. `none`: an exception, or more than `k` turns. -/
def forLoop {β : Type} (S : OpClass A) (body : Terms A → β × Obj A → β × Obj A) : ℕ → β × Obj A → Option (β × Obj A)
  | 0, _ => none
  | k + 1, s =>
    match advance S s.2 with
    | (.item t, o) => forLoop S body k (body t (s.1, o))
    | (.stop, o) => some (s.1, o)
    | (.error _, _) => none

/-- `for t in op: body`. -/
def pyFor {β : Type} (S : OpClass A) (k : ℕ) (body : Terms A → β × Obj A → β × Obj A) (s : β × Obj A) : Option (β × Obj A) := forLoop S body k (s.1, startIter s.2)

/-- `for t in op: for u in op: pairs.append((t, u))`. -/
def nested (S : OpClass A) (k : ℕ) (o : Obj A) : Option (List (Terms A × Terms A) × Obj A) :=
  pyFor S k (fun t s => (pyFor S k (fun u s => (s.1 ++ [(t, u)], s.2)) s).getD s) ([], o)

/-- `list(zip(op, op))`: both iterators are the operator itself. -/
def zipLoop (S : OpClass A) : ℕ → List (Terms A × Terms A) × Obj A → Option (List (Terms A × Terms A) × Obj A)
  | 0, _ => none
  | k + 1, s =>
    match advance S s.2 with
    | (.item t, o) =>
      match advance S o with
      | (.item u, o) => zipLoop S k (s.1 ++ [(t, u)], o)
      | (.stop, o) => some (s.1, o)
      | (.error _, _) => none
    | (.stop, o) => some (s.1, o)
    | (.error _, _) => none

/-- `list(zip(op, op))`. -/
def zipSelf (S : OpClass A) (k : ℕ) (o : Obj A) : Option (List (Terms A × Terms A) × Obj A) := zipLoop S k ([], startIter (startIter o))

end ZQ.OpHeap
