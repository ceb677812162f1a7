import Verif.Model.OpString

/-!
# Operators in files

Model of `get_file_path`, `load_operator` and `save_operator` in `openfermion/utils/operator_utils.py`. The file system maps paths to contents. A file holds
text, or what `marshal` wrote; `marshal` itself is the identity on the pair of the class name and the dictionary of terms. Simplifications: writing a file
is one step (no crash in the middle), nobody else writes files, and paths are compared as texts (`a//b` and `a/b` are different).
-/

namespace ZQ.OpFiles

open ZQ ZQ.Op ZQ.OpStr

/-- The exceptions; `os` stands for `OSError` (`FileNotFoundError` and the like). -/
inductive FErr
  | operatorUtils | typeError | valueError | notImplemented | os
  deriving DecidableEq

/-- What `marshal` stores; `unknown` stands for any other class name. -/
inductive Stored
  | fermion (terms : Terms Bool)
  | qubit (terms : Terms Letter)
  | unknown

/-- The content of a file. -/
inductive Content
  | text (s : Text)
  | marshal (d : Stored)

/-- The files that exist. -/
abbrev FS := Text → Option Content

/-- An argument of `save_operator`. `sympy` says that a coefficient is a sympy expression. `interaction` is an `InteractionOperator` or `InteractionRDM`;
`other` is anything else, for example an `IsingOperator`. -/
inductive Operand
  | fermion (o : Terms Bool) (sympy : Bool)
  | qubit (o : Terms Letter) (sympy : Bool)
  | interaction
  | other

/-- A result of `load_operator`. -/
inductive Loaded
  | fermion (o : Terms Bool)
  | qubit (o : Terms Letter)

/-- What the functions use of Python and of the operating system. -/
structure World where
  /-- config.py:23 `DATA_DIRECTORY` -/
  dataDirectory : Text
  /-- whether `open(path, "w")` succeeds -/
  canWrite : Text → Bool
  /-- reading and printing numbers -/
  numbers : Numbers
  /-- the order of tuples -/
  leFermion : Term Bool → Term Bool → Bool
  /-- the order of tuples -/
  leQubit : Term Letter → Term Letter → Bool
  /-- the exception raised when marshalled data is read as text -/
  notText : Stored → FErr
  /-- the exception raised when text is read as marshalled data -/
  notMarshal : Text → FErr

/-- `".data"`. -/
def suffix : Text := ['.', 'd', 'a', 't', 'a']

/-- operator_utils.py:191-216 `get_file_path`; `s[-5:]` is all of a shorter text. -/
def getFilePath (w : World) (name : Option Text) (dir : Option Text) : Except FErr Text :=
  match name with
  | none => .error .operatorUtils
  | some [] => .error .operatorUtils
  | some (c :: cs) =>
    let s := c :: cs
    let file := if s.drop (s.length - 5) ≠ suffix then s ++ suffix else s
    match dir with
    | none => .ok (w.dataDirectory ++ ['/'] ++ file)
    | some d => .ok (d ++ ['/'] ++ file)

/-- `str.split(":\n")`. External builtin. -/
def splitMark : Text → List Text
  | [] => [[]]
  | [c] => [[c]]
  | c :: d :: s =>
    if c = ':' ∧ d = '\n' then [] :: splitMark s
    else match splitMark (d :: s) with
      | [] => [[c]]
      | x :: xs => (c :: x) :: xs

/-- `"FermionOperator"`. -/
def fermionName : Text := "FermionOperator".toList

/-- `"QubitOperator"`. -/
def qubitName : Text := "QubitOperator".toList

/-- The errors of the constructors. -/
def liftErr {α : Type} (x : Except Err α) : Except FErr α :=
  match x with
  | .ok a => .ok a
  | .error _ => .error .valueError

/-- operator_utils.py:238-248: reading plain text; the constructors raise `ValueError` (`OpStr.init_error`). -/
noncomputable def loadText (w : World) (s : Text) : Except FErr Loaded :=
  match splitMark s with
  | [kind, terms] =>
    if kind = fermionName then (liftErr (init fermion fermionStyle w.numbers terms 1)).map .fermion
    else if kind = qubitName then (liftErr (init qubit qubitStyle w.numbers terms 1)).map .qubit
    else .error .typeError
  | _ => .error .valueError

/-- operator_utils.py:255-263: the terms are added one by one to the zero operator. -/
noncomputable def rebuild {A : Type} [DecidableEq A] (S : OpClass A) (terms : Terms A) : Terms A := terms.foldl (fun acc kv => add acc (ofTerm S kv.1 kv.2)) []

/-- operator_utils.py:250-263: reading marshalled data. -/
noncomputable def loadMarshal (d : Stored) : Except FErr Loaded :=
  match d with
  | .fermion terms => .ok (.fermion (rebuild fermion terms))
  | .qubit terms => .ok (.qubit (rebuild qubit terms))
  | .unknown => .error .typeError

/-- operator_utils.py:237-263: the file is opened and read. -/
noncomputable def loadContent (w : World) (plain : Bool) : Option Content → Except FErr Loaded
  | none => .error .os
  | some (.text s) => if plain then loadText w s else .error (w.notMarshal s)
  | some (.marshal d) => if plain then .error (w.notText d) else loadMarshal d

/-- operator_utils.py:219-265 `load_operator`. -/
noncomputable def loadOperator (w : World) (fs : FS) (name dir : Option Text) (plain : Bool) : Except FErr Loaded := do
  let path ← getFilePath w name dir
  loadContent w plain (fs path)

/-- The file at one path is replaced. -/
def put (fs : FS) (path : Text) (c : Content) : FS := fun p => if p = path then some c else fs p

/-- operator_utils.py:311-321: the file is opened and written. `open(path, "w")` empties the file before `str(operator)` is evaluated. -/
noncomputable def write (w : World) (fs : FS) (path : Text) (plain : Bool) (kind : Text) (str : Except Err Text) (data : Stored) : FS × Option FErr :=
  if w.canWrite path then
    if plain then
      match str with
      | .ok s => (put fs path (.text (kind ++ [':', '\n'] ++ s)), none)
      | .error _ => (put fs path (.text []), some .valueError)
    else (put fs path (.marshal data), none)
  else (fs, some .os)

/-- operator_utils.py:268-321 `save_operator`: the files afterwards, and the exception if there is one. -/
noncomputable def saveOperator (w : World) (fs : FS) (op : Operand) (name dir : Option Text) (overwrite plain : Bool) : FS × Option FErr :=
  match getFilePath w name dir with
  | .error e => (fs, some e)
  | .ok path =>
    if (fs path).isSome ∧ overwrite = false then (fs, some .operatorUtils)
    else match op with
      | .interaction => (fs, some .notImplemented)
      | .other => (fs, some .typeError)
      | .fermion o sympy =>
        if sympy then (fs, some .typeError)
        else write w fs path plain fermionName (toText fermionStyle w.numbers w.leFermion o) (.fermion o)
      | .qubit o sympy =>
        if sympy then (fs, some .typeError)
        else write w fs path plain qubitName (toText qubitStyle w.numbers w.leQubit o) (.qubit o)

/-- A call of `save_operator`. -/
structure Request where
  op : Operand
  name : Option Text
  dir : Option Text
  overwrite : Bool
  plain : Bool

/-- The files after one call. -/
noncomputable def step (w : World) (fs : FS) (r : Request) : FS := (saveOperator w fs r.op r.name r.dir r.overwrite r.plain).1

/-- The files after a sequence of calls; exceptions are caught by the caller. -/
noncomputable def run (w : World) (fs : FS) (rs : List Request) : FS := rs.foldl (step w) fs

end ZQ.OpFiles
