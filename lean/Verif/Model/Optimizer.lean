import Verif.Model.Recorder
import Verif.Model.Matrices

/-!
# Optimizers: interfaces/optimizer.py

An optimizer's own `_minimize` is an arbitrary program that asks for values and gradients of the cost function, each question depending on the
answers so far, and ends with a result; exceptions of the cost function end it.
-/

namespace ZQ.Optimizer

open ZQ ZQ.History

variable {S V G W E R : Type}

/-- What the optimizer does with the cost function. -/
inductive Program (S V G R : Type)
  | done (r : R)
  | value (p : S) (k : V → Program S V G R)
  | gradient (p : S) (k : G → Program S V G R)

/-- The program run on a cost function; `noGradient` is the `AttributeError` of a function without gradient. -/
def run (noGradient : E) (target : Target W E S V) (gradient : Option (Target W E S G)) : Program S V G R → W → Except E R × W
  | .done r, w => (.ok r, w)
  | .value p k, w =>
    match target w p with
    | (.error e, w) => (.error e, w)
    | (.ok v, w) => run noGradient target gradient (k v) w
  | .gradient p k, w =>
    match gradient with
    | none => (.error noGradient, w)
    | some g =>
      match g w p with
      | (.error e, w) => (.error e, w)
      | (.ok v, w) => run noGradient target gradient (k v) w

/-- The same program run on a recorder of the cost function (recorder.py:93-138). -/
def runRecorded (noGradient : E) (target : Target W E S V) (gradient : Option (Target W E S G)) (predicate : SaveCondition E S V)
    (predicate' : SaveCondition E S G) : Program S V G R → Recorder (Entry S V) × Recorder (Entry S G) → W →
    Except E R × (Recorder (Entry S V) × Recorder (Entry S G)) × W
  | .done r, rec, w => (.ok r, rec, w)
  | .value p k, rec, w =>
    match call target predicate p (rec.1, w) with
    | (.error e, (r, w)) => (.error e, (r, rec.2), w)
    | (.ok v, (r, w)) => runRecorded noGradient target gradient predicate predicate' (k v) (r, rec.2) w
  | .gradient p k, rec, w =>
    match gradient with
    | none => (.error noGradient, rec, w)
    | some g =>
      match call g predicate' p (rec.2, w) with
      | (.error e, (r, w)) => (.error e, (rec.1, r), w)
      | (.ok v, (r, w)) => runRecorded noGradient target gradient predicate predicate' (k v) (rec.1, r) w

/-- The dictionary of histories; `isDefault` says that it is a `defaultdict(list)`. -/
structure Histories (T T' : Type) where
  history : Option (List T)
  gradientHistory : Option (List T')
  isDefault : Bool

/-- optimizer.py:109-125 `construct_history_info`; the class of the recorder, or `none` for a cost function that is not a recorder.  The classes with
gradient are subclasses of those without. -/
def constructHistoryInfo {T T' : Type} (cls : Option RecorderClass) (keepHistory : Bool) (hist : List T) (ghist : List T') : Histories T T' :=
  if keepHistory then
    match cls with
    | none => ⟨none, none, false⟩
    | some .simple => ⟨some hist, none, false⟩
    | some .artifact => ⟨some hist, none, false⟩
    | some .simpleWithGradient => ⟨some hist, some ghist, false⟩
    | some .artifactWithGradient => ⟨some hist, some ghist, false⟩
  else ⟨some [], none, false⟩

/-- `histories[key]`: a default dictionary makes an empty list. -/
def lookup {T : Type} (isDefault : Bool) (l : Option (List T)) : Except Err (List T) :=
  match l with
  | some l => .ok l
  | none => if isDefault then .ok [] else .error .keyError

/-- A recorder has the attribute `gradient` exactly if its class is one with gradient (recorder.py:128-138). -/
def hasGradient (cls : RecorderClass) : Bool :=
  match cls with
  | .simpleWithGradient => true
  | .artifactWithGradient => true
  | _ => false

/-- optimizer.py:128-137 `extend_histories`. -/
def extendHistories {T T' : Type} (cls : RecorderClass) (hist : List T) (ghist : List T') (old : Histories T T') : Except Err (Histories T T') := do
  let new := constructHistoryInfo (some cls) true hist ghist
  let o ← lookup old.isDefault old.history
  let n ← lookup false new.history
  if hasGradient cls then do
    let og ← lookup old.isDefault old.gradientHistory
    let ng ← lookup false new.gradientHistory
    .ok ⟨some (o ++ n), some (og ++ ng), false⟩
  else .ok ⟨some (o ++ n), none, false⟩

/-- optimizer.py:35-52 `minimize` of an optimizer whose `_minimize` runs the program and returns its result with
`construct_history_info(cost_function, keep_history)`, as all optimizers here do.  The cost function does not take `store_artifact`. -/
def minimize (noGradient : E) (program : Program S V G R) (target : Target W E S V) (gradient : Option (Target W E S G))
    (predicate : SaveCondition E S V) (predicate' : SaveCondition E S G) (keepHistory : Bool) (w : W) :
    Except E (R × Histories (Entry S V) (Entry S G)) × W :=
  if keepHistory then
    let cls := chooseClass false gradient.isSome
    let r := runRecorded noGradient target gradient predicate predicate' program (fresh, fresh) w
    (r.1.map fun x => (x, constructHistoryInfo (some cls) true r.2.1.1.history r.2.1.2.history), r.2.2)
  else
    let r := run noGradient target gradient program w
    (r.1.map fun x => (x, constructHistoryInfo none false [] []), r.2)

/-- mock_objects.py:93-127, the bookkeeping of a nested optimizer: one recorder per round; its histories are appended to those so far. -/
def nestedHistories {T T' : Type} (rounds : List (RecorderClass × List T × List T')) : Except Err (Histories T T') :=
  rounds.foldlM (fun old r => extendHistories r.1 r.2.1 r.2.2 old) ⟨some [], none, true⟩

/-- mock_objects.py:47-61 `MockOptimizer._minimize`, after the random shift of the parameters: value, parameters and `nfev`. -/
def mockProgram (newParameters : S) : Program S V G (V × S × ℕ) := .value newParameters fun v => .done (v, newParameters, 1)

end ZQ.Optimizer
