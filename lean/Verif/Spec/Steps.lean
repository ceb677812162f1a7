import Verif.Model.Steps
import Verif.Spec.CreateObject

/-!
# What the specifications of a step describe
-/

namespace ZQ.Steps.Spec

open ZQ.CreateObject ZQ.Steps

variable {V : Type}

/-- `c` is a class (or another callable that is no function) named by the specifications. -/
def Class (W : World V) (specs : PyDict String V) (c : V) : Prop := ZQ.CreateObject.Spec.Found W specs c ∧ W.signature c = none

/-- The constructor of `c` is `def __init__(self, ...)` with ordinary parameters `ps`. -/
def Constructor (W : World V) (c : V) (ps : List (Param V)) : Prop :=
  ZQ.CreateObject.Spec.Ordinary ps ∧ ∃ init : Bound V → Except Err V, ∀ kw, W.invoke c [] kw = (bind ps [] kw).bind init

/-- `made` is `c(**d)` for the parameters `d` described by `passed`. -/
def CalledWith (W : World V) (c : V) (passed : String → Option V) (made : Except Err V) : Prop :=
  ∃ d, (PyDict.keys d).Nodup ∧ (∀ k, PyDict.get? d k = passed k) ∧ made = W.invoke c [] d

/-- The specifications without the name of the class. -/
def parameters (specs : PyDict String V) (k : String) : Option V :=
  if k = "module_name" ∨ k = "function_name" then none else PyDict.get? specs k

/-- The parameters with another value for `key`, if there is one. -/
def override (passed : String → Option V) (key : String) (value : Option V) (k : String) : Option V :=
  if k = key then value.or (passed k) else passed k

/-- The last value given, if any. -/
def lastGiven (l : List (Option V)) : Option V := l.foldl (fun last v => v.or last) none

/-- The specifications ask for tracking. -/
def Tracked (py : Py V) (specs : PyDict String V) : Prop := ∃ t, PyDict.get? specs "track_measurements" = some t ∧ py.truthy t = true

/-- The backend of a step, given what calling its class does. -/
structure IsBackend (py : Py V) (specs : PyDict String V) (made : Except Err V) (backend : Except Err (Backend V)) : Prop where
  failed : ∀ e, made = .error e → backend = .error e
  untracked : ∀ v, made = .ok v → ¬ Tracked py specs → backend = .ok (.plain (.val v))
  tracked : ∀ v file, made = .ok v → Tracked py specs → PyDict.get? specs "raw_data_file_name" = some file →
    backend = .ok (.tracking (.val v) file (PyDict.get? specs "record_bitstrings"))
  nameless : ∀ v, made = .ok v → Tracked py specs → PyDict.get? specs "raw_data_file_name" = none → backend = .error .keyError

end ZQ.Steps.Spec
