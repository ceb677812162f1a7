import Verif.Model.Wavefunction

/-!
# Wavefunctions and arrays that share memory

Second model of `wavefunction.py` for wavefunctions without free symbols: numpy arrays are views of buffers, a wavefunction holds one, and variables hold
arrays and wavefunctions.  Numbers are exact.  Arrays have the type complex or float; slices have step 1.
-/

namespace ZQ.WfHeap

open ZQ ZQ.Wavefunction

/-- The exceptions of this model. -/
inductive Exc
  | valueError | typeError | indexError | nameError | attributeError
deriving DecidableEq

/-- The buffers; numbers from `next` on are unused. -/
structure Heap where
  next : ℕ
  mem : ℕ → ℕ → ℂ

/-- An array: a buffer and the positions in it, in order. -/
structure View where
  buf : ℕ
  pos : List ℕ
deriving DecidableEq

/-- The entries of an array. -/
def read (h : Heap) (v : View) : List ℂ := v.pos.map (h.mem v.buf)

/-- Writes values to positions, one after the other. -/
def writes (f : ℕ → ℂ) (ps : List ℕ) (zs : List ℂ) : ℕ → ℂ := (ps.zip zs).foldl (fun f pz => Function.update f pz.1 pz.2) f

/-- Changes one buffer. -/
def put (h : Heap) (b : ℕ) (f : ℕ → ℂ) : Heap := { h with mem := Function.update h.mem b f }

/-- A new array with the given entries. -/
def alloc (h : Heap) (zs : List ℂ) : View × Heap :=
  (⟨h.next, List.range zs.length⟩, ⟨h.next + 1, Function.update h.mem h.next fun k => zs.getD k 0⟩)

open Classical in
/-- wavefunction.py:80-91 `_check_normalization` for numbers; `np.isclose` with its default tolerances. -/
noncomputable def normal (zs : List ℂ) : Bool := decide (|(zs.map Complex.normSq).sum - 1| ≤ (1 : ℝ) / 10 ^ 8 + 1 / 10 ^ 5)

/-- wavefunction.py:51-62 `__init__` after `np.asarray`: the size and the norm. -/
noncomputable def acceptable (zs : List ℂ) : Bool := (Bits.pyBin zs.length).count 1 == 1 && normal zs

/-- What a variable holds. -/
inductive Val
  | arr (complex : Bool) (v : View)
  | wf (v : View)

/-- An index: a number, a list of numbers, or a slice `i:j`. -/
inductive Index
  | one (i : ℤ)
  | many (is : List ℤ)
  | slice (i j : ℕ)

/-- The entries an index stands for, in an array of `n` entries: numbers from the end if negative; slices are cut off at the end of the array. -/
def entries (n : ℕ) : Index → Except Exc (List ℕ)
  | .one i => match pyIndex n i with | some k => .ok [k] | none => .error .indexError
  | .many is => is.mapM fun i => match pyIndex n i with | some k => .ok k | none => .error .indexError
  | .slice i j => .ok ((List.range n).filter fun k => i ≤ k && k < j)

/-- The values written to `m` entries: as many as entries, or one for all of them. -/
def broadcast (m : ℕ) (zs : List ℂ) : Except Exc (List ℂ) :=
  if zs.length = m then .ok zs else match zs with | [z] => .ok (List.replicate m z) | _ => .error .valueError

/-- The positions of the buffer for entries of the array. -/
def places (v : View) (ks : List ℕ) : List ℕ := ks.map fun k => v.pos.getD k 0

/-- `a[idx] = zs` for an array. External library. -/
noncomputable def setArray (h : Heap) (complex : Bool) (v : View) (idx : Index) (zs : List ℂ) : Option Exc × Heap :=
  match entries v.pos.length idx with
  | .error e => (some e, h)
  | .ok ks =>
    match broadcast ks.length zs with
    | .error e => (some e, h)
    | .ok zs => if complex || zs.all (fun z => z.im == 0) then (none, put h v.buf (writes (h.mem v.buf) (places v ks) zs)) else (some .typeError, h)

/-- `old_val = self._amplitude_vector[idx]`, and what it holds once the buffer has changed: a number and the array for a list of indices are copies, the
array for a slice is a view. -/
def oldValue (before after : Heap) (v : View) (ks : List ℕ) : Index → List ℂ
  | .slice _ _ => (places v ks).map (after.mem v.buf)
  | _ => (places v ks).map (before.mem v.buf)

/-- wavefunction.py:112-121 `__setitem__`. -/
noncomputable def setItem (h : Heap) (v : View) (idx : Index) (zs : List ℂ) : Option Exc × Heap :=
  match entries v.pos.length idx with
  | .error e => (some e, h)
  | .ok ks =>
    match broadcast ks.length zs with
    | .error e => (some e, h)
    | .ok zs =>
      let h' := put h v.buf (writes (h.mem v.buf) (places v ks) zs)
      if normal (read h' v) then (none, h')
      else (some .valueError, put h' v.buf (writes (h'.mem v.buf) (places v ks) (oldValue h h' v ks idx)))

/-- Statements. -/
inductive Stmt
  | array (x : String) (complex : Bool) (zs : List ℂ)
  | share (x y : String)
  | view (x y : String) (i j : ℕ)
  | wavefunction (x y : String)
  | amplitudes (x y : String)
  | bind (x y : String)
  | flip (x y : String)
  | set (x : String) (idx : Index) (zs : List ℂ)

/-- The variables and the buffers. -/
structure State where
  vars : String → Option Val
  heap : Heap

/-- `x = ...`. -/
def State.assign (s : State) (x : String) (v : Val) (h : Heap) : State := ⟨Function.update s.vars x (some v), h⟩

/-- wavefunction.py:51-62 `Wavefunction(y)`: `np.asarray(y, dtype=complex)` is `y` itself if it is a complex array, and a copy if it is an array of
another type or a wavefunction, whose items are read one by one. -/
noncomputable def construct (s : State) (x : String) (val : Val) : Option Exc × State :=
  match val with
  | .arr true v => if acceptable (read s.heap v) then (none, s.assign x (.wf v) s.heap) else (some .valueError, s)
  | .arr false v =>
    let a := alloc s.heap (read s.heap v)
    if acceptable (read s.heap v) then (none, s.assign x (.wf a.1) a.2) else (some .valueError, s)
  | .wf v =>
    let a := alloc s.heap (read s.heap v)
    if acceptable (read s.heap v) then (none, s.assign x (.wf a.1) a.2) else (some .valueError, s)

/-- One statement; exceptions are caught by the caller.
`array`: `x = np.array(zs, dtype=...)`.  `share`: `x = y`.  `view`: `x = y[i:j]` (wavefunction.py:109-110).  `wavefunction`: `x = Wavefunction(y)`.
`amplitudes`: `x = y.amplitudes` (65-70).  `bind`: `x = y.bind(...)`, which is `y` itself without free symbols (185-187).  `flip`:
`x = flip_wavefunction(y)` (209-223).  `set`: `x[idx] = zs`. -/
noncomputable def exec (st : Stmt) (s : State) : Option Exc × State :=
  match st with
  | .array x complex zs =>
    if complex || zs.all (fun z => z.im == 0) then let a := alloc s.heap zs; (none, s.assign x (.arr complex a.1) a.2) else (some .typeError, s)
  | .share x y =>
    match s.vars y with
    | none => (some .nameError, s)
    | some val => (none, s.assign x val s.heap)
  | .view x y i j =>
    match s.vars y with
    | none => (some .nameError, s)
    | some (.arr c v) => (none, s.assign x (.arr c ⟨v.buf, (v.pos.drop i).take (j - i)⟩) s.heap)
    | some (.wf v) => (none, s.assign x (.arr true ⟨v.buf, (v.pos.drop i).take (j - i)⟩) s.heap)
  | .wavefunction x y =>
    match s.vars y with
    | none => (some .nameError, s)
    | some val => construct s x val
  | .amplitudes x y =>
    match s.vars y with
    | some (.wf v) => (none, s.assign x (.arr true v) s.heap)
    | some _ => (some .attributeError, s)
    | none => (some .nameError, s)
  | .bind x y =>
    match s.vars y with
    | some (.wf v) => (none, s.assign x (.wf v) s.heap)
    | some _ => (some .attributeError, s)
    | none => (some .nameError, s)
  | .flip x y =>
    match s.vars y with
    | some (.wf v) =>
      match Bits.flipAmplitudes (read s.heap v) with
      | none => (some .indexError, s)
      | some zs =>
        let a := alloc s.heap zs
        if acceptable zs then (none, s.assign x (.wf a.1) a.2) else (some .valueError, s)
    | some _ => (some .attributeError, s)
    | none => (some .nameError, s)
  | .set x idx zs =>
    match s.vars x with
    | none => (some .nameError, s)
    | some (.arr c v) => let r := setArray s.heap c v idx zs; (r.1, ⟨s.vars, r.2⟩)
    | some (.wf v) => let r := setItem s.heap v idx zs; (r.1, ⟨s.vars, r.2⟩)

/-- A program whose exceptions are caught. -/
noncomputable def run : List Stmt → State → List (Option Exc) × State
  | [], s => ([], s)
  | st :: rest, s =>
    let a := exec st s
    let b := run rest a.2
    (a.1 :: b.1, b.2)

/-! ## Comparison -/

/-- What `==` gives: a truth value, or an array of truth values. -/
inductive EqResult
  | bool (b : Bool)
  | array (bs : List Bool)

open Classical in
/-- wavefunction.py:127-131 `__eq__`; `other` is `none` for an object that is not a wavefunction.  One entry is compared with all; what numpy gives for
other arrays of different lengths depends on its version (`False` or an exception) and is the parameter `mismatch`. -/
noncomputable def equal (mismatch : Except Exc EqResult) (a : List ℂ) (other : Option (List ℂ)) : Except Exc EqResult :=
  match other with
  | none => .ok (.bool false)
  | some b =>
    if a.length = b.length then .ok (.array (List.zipWith (fun x y => decide (x = y)) a b))
    else if b.length = 1 then .ok (.array (a.map fun x => decide (x = b.getD 0 0)))
    else if a.length = 1 then .ok (.array (b.map fun y => decide (a.getD 0 0 = y)))
    else mismatch

/-- `bool(...)`, as in `if a == b`: an array has a truth value only if it has exactly one entry (an empty one has, for now, the value `False`). -/
def truth : EqResult → Except Exc Bool
  | .bool b => .ok b
  | .array [] => .ok false
  | .array [b] => .ok b
  | .array _ => .error .valueError

/-- `if a == b:`. -/
noncomputable def ifEqual (mismatch : Except Exc EqResult) (a : List ℂ) (other : Option (List ℂ)) : Except Exc Bool := equal mismatch a other >>= truth

/-- `a != b`: without `__ne__` it is `not (a == b)`. -/
noncomputable def notEqual (mismatch : Except Exc EqResult) (a : List ℂ) (other : Option (List ℂ)) : Except Exc Bool := (ifEqual mismatch a other).map (!·)

end ZQ.WfHeap
