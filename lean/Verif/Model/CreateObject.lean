import Verif.Model.PyDict

/-!
# Objects from specifications: utils.py:395-494

Python values are an opaque type `V`.  A `World` says what importing, attribute access, running the body of a function and calling any other
object do; CPython's rule for matching arguments with parameters is modelled (`bind`), because `create_object` depends on it.
-/

namespace ZQ.CreateObject

/-- Exceptions.  `other` is any exception raised by imported code. -/
inductive Err
  | keyError | valueError | typeError | attributeError | importError | nameError
  | other (n : ℕ)
deriving DecidableEq, Repr

/-- `inspect.Parameter.kind`. -/
inductive Kind
  | posOnly | posOrKw | varPos | kwOnly | varKw
deriving DecidableEq, Repr

/-- One entry of `inspect.signature(f).parameters`. -/
structure Param (V : Type) where
  name : String
  kind : Kind
  default : Option V

/-- The values the parameters of a function have when its body starts: the named parameters, the `*args` tuple and the `**kwargs` dict. -/
structure Bound (V : Type) where
  named : PyDict String V
  rest : List V
  extra : PyDict String V

/-- What the interpreter and the imported modules do.
* `importModule`: `importlib.import_module`; `getattr`: attribute of a module;
* `signature`: `some` iff `isinstance(v, types.FunctionType)`, then the parameters of the function;
* `run`: the body of a function; `invoke`: calling an object that is no function (a class, an instance, a builtin). -/
structure World (V : Type) where
  importModule : V → Except Err V
  getattr : V → V → Except Err V
  signature : V → Option (List (Param V))
  run : V → Bound V → Except Err V
  invoke : V → List V → PyDict String V → Except Err V

variable {V : Type}

/-- `{**a, **b}`. -/
def merge (a b : PyDict String V) : PyDict String V := b.foldl (fun d kv => PyDict.set d kv.1 kv.2) a

/-- Parameters that can be given by position. -/
def positional (ps : List (Param V)) : List (Param V) := ps.filter fun p => p.kind = .posOnly ∨ p.kind = .posOrKw

/-- Parameters that hold one value. -/
def single (ps : List (Param V)) : List (Param V) := ps.filter fun p => p.kind ≠ .varPos ∧ p.kind ≠ .varKw

/-- Names that can be used as keywords. -/
def keywords (ps : List (Param V)) : List String :=
  (ps.filter fun p => p.kind = .posOrKw ∨ p.kind = .kwOnly).map Param.name

/-- The value of one named parameter: given by position, by keyword, or the default; `TypeError` if there is none. -/
def valueOf (ps : List (Param V)) (args : List V) (kw : PyDict String V) (p : Param V) : Except Err (String × V) :=
  match ((positional ps).map Param.name).zip args |>.lookup p.name with
  | some v => .ok (p.name, v)
  | none =>
    match (if p.name ∈ keywords ps then PyDict.get? kw p.name else none) with
    | some v => .ok (p.name, v)
    | none =>
      match p.default with
      | some v => .ok (p.name, v)
      | none => .error .typeError

/-- CPython's matching of the arguments of a call with the parameters of a function.  External. -/
def bind (ps : List (Param V)) (args : List V) (kw : PyDict String V) : Except Err (Bound V) :=
  if (positional ps).length < args.length ∧ ¬ ∃ p ∈ ps, p.kind = .varPos then .error .typeError
  else if ∃ k ∈ PyDict.keys kw, k ∈ keywords ps ∧ k ∈ ((positional ps).take args.length).map Param.name then .error .typeError
  else if (∃ k ∈ PyDict.keys kw, k ∉ keywords ps) ∧ ¬ ∃ p ∈ ps, p.kind = .varKw then .error .typeError
  else do
    let named ← (single ps).mapM (valueOf ps args kw)
    .ok ⟨named, args.drop (positional ps).length, kw.filter fun kv => kv.1 ∉ keywords ps⟩

/-- Calling a Python value. -/
def call (W : World V) (f : V) (args : List V) (kw : PyDict String V) : Except Err V :=
  match W.signature f with
  | some ps => do W.run f (← bind ps args kw)
  | none => W.invoke f args kw

/-- What `create_object` returns: a value, or `functools.partial(fn, **kw)`. -/
inductive Obj (V : Type)
  | val (v : V)
  | part (fn : V) (kw : PyDict String V)

/-- Calling what `create_object` returned.  The keywords of the call override those of the `partial`. -/
def callObj (W : World V) : Obj V → List V → PyDict String V → Except Err V
  | .val v, args, kw => call W v args kw
  | .part f given, args, kw => call W f args (merge given kw)

/-- `d.pop(key)`. -/
def pop (d : PyDict String V) (key : String) : Except Err (V × PyDict String V) :=
  match PyDict.get? d key with
  | some v => .ok (v, PyDict.del d key)
  | none => .error .keyError

/-- utils.py:440-449: the part of `create_object` after the creator has been found and the keys have been compared. -/
def build (W : World V) (creator : V) (specs kwargs : PyDict String V) : Except Err (Obj V) :=
  match W.signature creator with
  | some ps =>
    if kwargs ≠ [] ∨ specs ≠ [] then
      .ok (.part creator ((merge specs kwargs).filter fun kv => kv.1 ∈ ps.map Param.name))
    else .ok (.val creator)
  | none => do .ok (.val (← W.invoke creator [] (merge specs kwargs)))

/-- utils.py:414-449 `create_object`.  `specs` is copied before anything is popped, so the caller's dictionary does not change. -/
def createObject (W : World V) (specs kwargs : PyDict String V) : Except Err (Obj V) := do
  let (m, specs) ← pop specs "module_name"
  let module ← W.importModule m
  let (n, specs) ← pop specs "function_name"
  let creator ← W.getattr module n
  if ∃ k ∈ PyDict.keys specs, k ∈ PyDict.keys kwargs then .error .valueError
  else build W creator specs kwargs

/-- utils.py:393-411 `get_func_from_specs` (a warning, then `create_object(specs)`) and utils.py:609-612 `load_from_specs` of a dictionary. -/
def getFuncFromSpecs (W : World V) (specs : PyDict String V) : Except Err (Obj V) := createObject W specs []

/-- utils.py:472-494 `save_noise_model`: the content of the file.  `json` is what `json.loads(json.dumps(v))` gives, `none` if `v` is not
serialisable (`TypeError`). -/
def saveNoise (json : V → Option V) (data module function : V) : Except Err (PyDict String V) :=
  match json module, json function, json data with
  | some m, some f, some d => .ok [("module_name", m), ("function_name", f), ("data", d)]
  | _, _, _ => .error .typeError

/-- utils.py:452-469 `load_noise_model` of a file with the given content; `none_` is Python's `None`. -/
def loadNoise (W : World V) (none_ : V) (file : PyDict String V) : Except Err V := do
  let f ← createObject W (PyDict.del file "data") []
  callObj W f [(PyDict.get? file "data").getD none_] []

end ZQ.CreateObject
