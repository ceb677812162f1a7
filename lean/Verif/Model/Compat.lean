import Mathlib.Data.List.Basic

/-!
# Functions that also accept objects of an old type

Model of wip/compatibility_tools.py. Objects are atoms or sequences of some type; which objects are of the old type, how they are translated, the decorated function and the fallback are parameters.
-/

namespace ZQ.Compat

/-- A Python object: something opaque, or a sequence of a type given by its name. -/
inductive Obj (α : Type)
  | atom (a : α)
  | seq (type : String) (items : List (Obj α))

/-- An exception: `TranslationFailed`, or any other. -/
inductive Exc
  | translationFailed
  | other (name : String)

/-- The arguments of `compatible_with_old_type`: `isOld` is `isinstance(_, old_type)`, `translate` gives `none` if it raises an exception; `warnRaises` says that a message is given and that the filters
turn `DeprecationWarning` into an exception; `considered` are the types in `consider_iterable_types`. -/
structure Setup (α : Type) where
  isOld : Obj α → Bool
  translate : Obj α → Option (Obj α)
  warnRaises : Bool
  considered : List String

variable {α β ω : Type}

/-- compatibility_tools.py:22-31: an object of the old type; `none` is `TranslationFailed`. -/
def translateOld (S : Setup α) (o : Obj α) : Option (Obj α) := if S.warnRaises then none else S.translate o

mutual
/-- compatibility_tools.py:18-41 `_translate_if_needed`; `none` is `TranslationFailed`. The type of a sequence is called with the translated items; for lists and tuples that gives a sequence of that type. -/
def translateIfNeeded (S : Setup α) : Obj α → Option (Obj α)
  | .atom a => if S.isOld (.atom a) then translateOld S (.atom a) else some (.atom a)
  | .seq t items =>
    if S.isOld (.seq t items) then translateOld S (.seq t items)
    else if t ∈ S.considered then (translateAll S items).map (.seq t)
    else some (.seq t items)
/-- compatibility_tools.py:35-40: the items of a sequence, in order. -/
def translateAll (S : Setup α) : List (Obj α) → Option (List (Obj α))
  | [] => some []
  | o :: l => (translateIfNeeded S o).bind fun o' => (translateAll S l).map (o' :: ·)
end

/-- compatibility_tools.py:86-95: the keyword arguments keep their names and order. -/
def translateKwargs (S : Setup α) : List (String × Obj α) → Option (List (String × Obj α))
  | [] => some []
  | (k, o) :: l => (translateIfNeeded S o).bind fun o' => (translateKwargs S l).map ((k, o') :: ·)

/-- A Python function: it takes positional and keyword arguments, returns or raises, and changes the world. -/
abbrev Fn (α β ω : Type) := List (Obj α) → List (String × Obj α) → ω → Except Exc β × ω

/-- compatibility_tools.py:97-105: what happens on `TranslationFailed`. -/
def handle (fallback : Option (Fn α β ω)) (args : List (Obj α)) (kwargs : List (String × Obj α)) (w : ω) : Except Exc β × ω :=
  match fallback with
  | some f => f args kwargs w
  | none => (.error .translationFailed, w)

/-- compatibility_tools.py:73-107 `_compatible_with_old_type`: the decorated function. -/
def decorate (S : Setup α) (fallback : Option (Fn α β ω)) (wrapped : Fn α β ω) : Fn α β ω := fun args kwargs w =>
  match translateAll S args, translateKwargs S kwargs with
  | some args', some kwargs' =>
    match wrapped args' kwargs' w with
    | (.error .translationFailed, w') => handle fallback args kwargs w'
    | r => r
  | _, _ => handle fallback args kwargs w

end ZQ.Compat
