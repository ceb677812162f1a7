import Mathlib.Data.List.Basic

/-!
# Attributes and calls of wrapped functions: interfaces/functions.py, history/recorder.py, cost_function_augmentations.py

Objects are told apart by a number; a heap holds the attribute dictionary of every object.  What a wrapper wraps is fixed when it is made:
assigning `target` of a recorder or `function` of a side effect is not modelled and makes `setattr` give `none`.
-/

namespace ZQ.Attr

/-- Callable objects.
* `base`: a function or callable object of the user;
* `pair`: functions.py:65-99 `FunctionWithGradientStoringArtifacts` (`stores`) or `FunctionWithGradient`, a named tuple;
* `recorder`: recorder.py:83-194, one of the artifact recorders (`artifacts`) or simple recorders; a `gradient` is in its dictionary;
* `sideEffect`: cost_function_augmentations.py:179-210, an instance of a subclass of `ConditionalSideEffect`;
* `augmented`: cost_function_augmentations.py:51-79 `_AttributePropagatingWrapper`; its dictionary is `_attribute_overrides`. -/
inductive Fn
  | base (id : ℕ)
  | pair (stores : Bool) (function gradient : Fn)
  | recorder (id : ℕ) (artifacts : Bool) (target : Fn)
  | sideEffect (id : ℕ) (function : Fn)
  | augmented (id : ℕ) (function source : Fn)
deriving DecidableEq

/-- Values of attributes: a callable, the code of a function with the names of its parameters, or anything else. -/
inductive Val
  | fn (f : Fn)
  | code (params : List String)
  | data (n : ℕ)
deriving DecidableEq

/-- The ways the code calls a function: `f(params)`, `f(params, store_artifact)`, `f(params, store_artifact=...)`. -/
inductive Args
  | plain
  | positional
  | keyword
deriving DecidableEq

/-- What is fixed about an object of the user: the attributes of its class (for a function: those every function has, among them `__code__`),
whether attributes can be assigned, the parameters of its `__call__` (`none`: `inspect.signature` raises `ValueError`, as for numpy's ufuncs)
and the calls it takes. -/
structure Base where
  cls : String → Option Val
  settable : Bool
  params : Option (List String)
  accepts : Args → Bool

/-- The classes of the wrappers. -/
inductive Kind
  | pair | recorder | sideEffect | augmented
deriving DecidableEq

/-- Everything that does not change: the objects of the user and the attributes of the classes of wrappers (methods such as `count` of tuples). -/
structure Env where
  base : ℕ → Base
  cls : Kind → String → Option Val

/-- The dictionaries of the objects. -/
abbrev Heap := ℕ → String → Option Val

/-- recorder.py:22-28 `NATIVE_RECORDER_ATTRIBUTES`, the same names as in recorder.py:171. -/
def native : List String := ["predicate", "history", "target", "call_number", "gradient"]

/-- `getattr(w, name)`, with `none` for `AttributeError`: the object's own attributes, then those of its class (simplified: no class attribute
hides one in the dictionary), then `__getattr__`: functions.py:76-77, functions.py:94-95, recorder.py:115-116 and recorder.py:167-168 ask what is
wrapped; cost_function_augmentations.py:88-107 asks the overrides, the function and the additional source in turn. -/
def getattr (env : Env) (heap : Heap) : Fn → String → Option Val
  | .base i, name => (heap i name).or ((env.base i).cls name)
  | .pair _ f g, name =>
    if name = "function" then some (.fn f)
    else if name = "gradient" then some (.fn g)
    else (env.cls .pair name).or (getattr env heap f name)
  | .recorder i _ t, name =>
    if name = "target" then some (.fn t)
    else ((heap i name).or (env.cls .recorder name)).or (getattr env heap t name)
  | .sideEffect i f, name =>
    if name = "function" then some (.fn f)
    else (heap i name).or (env.cls .sideEffect name)
  | .augmented i f s, name =>
    if name = "_function" then some (.fn f)
    else if name = "_additional_attribute_source" then some (.fn s)
    else ((env.cls .augmented name).or (heap i name)).or ((getattr env heap f name).or (getattr env heap s name))

/-- `hasattr(w, name)`. -/
def hasattr (env : Env) (heap : Heap) (w : Fn) (name : String) : Bool := (getattr env heap w name).isSome

/-- Store `v` under `name` in the dictionary of object `i`. -/
def put (heap : Heap) (i : ℕ) (name : String) (v : Val) : Heap := fun j m => if j = i ∧ m = name then some v else heap j m

/-- `setattr(w, name, v)`, with `none` for `AttributeError`: functions.py:79-80 and functions.py:97-98 assign on the function; recorder.py:118-121
and recorder.py:170-173 on the recorder if the name is native and on the target otherwise; cost_function_augmentations.py:109-126 on the function
if it has the attribute already and on the additional source otherwise. -/
def setattr (env : Env) (heap : Heap) : Fn → String → Val → Option Heap
  | .base i, name, v => if (env.base i).settable then some (put heap i name v) else none
  | .pair _ f _, name, v => setattr env heap f name v
  | .recorder i _ t, name, v =>
    if name ∈ native then (if name = "target" then none else some (put heap i name v)) else setattr env heap t name v
  | .sideEffect i _, name, v => if name = "function" then none else some (put heap i name v)
  | .augmented _ f s, name, v => if hasattr env heap f name then setattr env heap f name v else setattr env heap s name v

/-- The parameters of `type(w).__call__`: functions.py:73, functions.py:89-91, recorder.py:98, recorder.py:154, cost_function_augmentations.py:212
and cost_function_augmentations.py:81. -/
def callParams (env : Env) : Fn → Option (List String)
  | .base i => (env.base i).params
  | .pair stores _ _ => some (if stores then ["params", "store_artifact"] else ["params"])
  | .recorder .. => some ["params"]
  | .sideEffect .. => some ["params"]
  | .augmented .. => some ["args", "kwargs"]

/-- `inspect.signature(w).parameters`: an object whose attribute `__code__` is the code of a function counts as a function
(`inspect._signature_is_functionlike`; the other attributes it asks for, `__name__`, `__defaults__`, `__kwdefaults__` and `__annotations__`, are found
where `__code__` is).  Otherwise the parameters of the `__call__` of its class.  `__wrapped__` and `__signature__` are not modelled. -/
def signature (env : Env) (heap : Heap) (w : Fn) : Option (List String) :=
  match getattr env heap w "__code__" with
  | some (.code params) => some params
  | _ => callParams env w

/-- functions.py:49-62 `has_store_artifact_param`. -/
def hasStoreArtifactParam (env : Env) (heap : Heap) (w : Fn) : Bool :=
  match signature env heap w with
  | some params => "store_artifact" ∈ params
  | none => false

/-- functions.py:102-121 `function_with_gradient`. -/
def functionWithGradient (env : Env) (heap : Heap) (f g : Fn) : Fn :=
  if hasStoreArtifactParam env heap f then .pair true f g else .pair false f g

/-- recorder.py:266-276 `recorder`, making object `i`. -/
def makeRecorder (env : Env) (heap : Heap) (i : ℕ) (f : Fn) : Fn :=
  if hasStoreArtifactParam env heap f then .recorder i true f else .recorder i false f

/-- cost_function_augmentations.py:129-139 `_augment_function` with one side effect such as `function_logger`, making the side effect `i` and the
wrapper `j`. -/
def augment (i j : ℕ) (f : Fn) : Fn := .augmented j (.sideEffect i f) f

/-- What happens on a call: `none` for the `TypeError` of a wrong argument, otherwise the object of the user that is called in the end and how.
functions.py:73-74 `FunctionWithGradient.__call__`, functions.py:89-92 `FunctionWithGradientStoringArtifacts.__call__`, recorder.py:98-113
`SimpleRecorder.__call__`, recorder.py:154-165 `ArtifactRecorder.__call__`, cost_function_augmentations.py:212-218 `ConditionalSideEffect.__call__`,
cost_function_augmentations.py:81-86 `_AttributePropagatingWrapper.__call__`. -/
def call (env : Env) : Fn → Args → Option (ℕ × Args)
  | .base i, a => if (env.base i).accepts a then some (i, a) else none
  | .pair false f _, a => if a = .plain then call env f .plain else none
  | .pair true f _, _ => call env f .positional
  | .recorder _ false t, a => if a = .plain then call env t .plain else none
  | .recorder _ true t, a => if a = .plain then call env t .keyword else none
  | .sideEffect _ f, a => if a = .plain then call env f .plain else none
  | .augmented _ f _, a => call env f a

/-- The three ways of wrapping a function. -/
inductive Layer
  | gradient (g : Fn)
  | record (i : ℕ)
  | log (i j : ℕ)
deriving DecidableEq

/-- Put one layer around `f`. -/
def Layer.around (env : Env) (heap : Heap) (f : Fn) : Layer → Fn
  | .gradient g => functionWithGradient env heap f g
  | .record i => makeRecorder env heap i f
  | .log i j => augment i j f

/-- Wrap `f` by several layers, the first one innermost. -/
def wrapped (env : Env) (heap : Heap) (f : Fn) (layers : List Layer) : Fn := layers.foldl (Layer.around env heap) f

/-- What a user does with attributes. -/
inductive Use
  | assign (w : Fn) (name : String) (v : Val)
  | read (w : Fn) (name : String)

/-- One use; an assignment that raises changes nothing. -/
def step (env : Env) (heap : Heap) : Use → Heap
  | .assign w name v => (setattr env heap w name v).getD heap
  | .read _ _ => heap

/-- Several uses in turn. -/
def run (env : Env) (heap : Heap) (uses : List Use) : Heap := uses.foldl (step env) heap

end ZQ.Attr
