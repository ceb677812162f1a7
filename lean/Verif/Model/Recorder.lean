import Verif.Model.PyDict
import Mathlib.Data.Int.Notation
import Mathlib.Data.Nat.Notation

/-!
# Recorders: history/recorder.py, history/save_conditions.py

The target is an arbitrary effectful function: it takes the state of the rest of the world, may change it, and returns a value or raises.
Parameters and values are immutable here, so `copy.copy(params)` is the identity; a target that mutates its argument is not modelled.
-/

namespace ZQ.History

variable {S V W E A : Type}

/-- recorder.py:50-55 `HistoryEntry`. -/
structure Entry (S V : Type) where
  callNumber : ℕ
  params : S
  value : V
deriving DecidableEq, Repr

/-- recorder.py:41-47 `HistoryEntryWithArtifacts`. -/
structure ArtifactEntry (S V A : Type) where
  callNumber : ℕ
  params : S
  value : V
  artifacts : PyDict String A

/-- A function to be recorded: result and new state of the world. -/
abbrev Target (W E S V : Type) := W → S → Except E V × W

/-- save_conditions.py:10-32 `SaveCondition`: value, params, call number; it may raise. -/
abbrev SaveCondition (E S V : Type) := V → S → ℕ → Except E Bool

/-- save_conditions.py:35-39 `always`. -/
def always : SaveCondition E S V := fun _ _ _ => .ok true

/-- save_conditions.py:42-60 `every_nth`; the modulo by 0 raises `ZeroDivisionError` (the parameter `zeroDivision`). For a negative `n` Python's
`k % n == 0` also means that `n` divides `k`. -/
def everyNth (zeroDivision : E) (n : ℤ) : SaveCondition E S V := fun _ _ k =>
  if n = 0 then .error zeroDivision else .ok (decide (Int.emod k n = 0))

/-- The mutable attributes of a recorder (recorder.py:93-97). -/
structure Recorder (T : Type) where
  callNumber : ℕ
  history : List T

/-- recorder.py:93-97: a fresh recorder. -/
def fresh {T : Type} : Recorder T := ⟨0, []⟩

/-- recorder.py:99-115 `SimpleRecorder.__call__`. -/
def call (target : Target W E S V) (predicate : SaveCondition E S V) (params : S) (st : Recorder (Entry S V) × W) :
    Except E V × (Recorder (Entry S V) × W) :=
  match target st.2 params with
  | (.error e, w) => (.error e, (st.1, w))
  | (.ok value, w) =>
    match predicate value params st.1.callNumber with
    | .error e => (.error e, (st.1, w))
    | .ok save =>
      let history := if save then st.1.history ++ [⟨st.1.callNumber, params, value⟩] else st.1.history
      (.ok value, (⟨st.1.callNumber + 1, history⟩, w))

/-- One use of `store_artifact(name, artifact, force)`. -/
structure Store (A : Type) where
  name : String
  artifact : A
  force : Bool

/-- recorder.py:196-214 `store_artifact`: the effect of one call on the collection and its `forced` flag. -/
def store (acc : PyDict String A × Bool) (s : Store A) : PyDict String A × Bool :=
  (PyDict.set acc.1 s.name s.artifact, if s.force then true else acc.2)

/-- A function that stores artifacts: it also yields the list of its uses of `store_artifact`, in order. Uses after its return are not modelled. -/
abbrev ArtifactTarget (W E S V A : Type) := W → S → (Except E V × List (Store A)) × W

/-- recorder.py:151-163 `ArtifactRecorder.__call__`. -/
def callWithArtifacts (target : ArtifactTarget W E S V A) (predicate : SaveCondition E S V) (params : S)
    (st : Recorder (ArtifactEntry S V A) × W) : Except E V × (Recorder (ArtifactEntry S V A) × W) :=
  match target st.2 params with
  | ((.error e, _), w) => (.error e, (st.1, w))
  | ((.ok value, stores), w) =>
    let artifacts := stores.foldl store ([], false)
    match predicate value params st.1.callNumber with
    | .error e => (.error e, (st.1, w))
    | .ok save =>
      let history :=
        if save || artifacts.2 then st.1.history ++ [⟨st.1.callNumber, params, value, artifacts.1⟩] else st.1.history
      (.ok value, (⟨st.1.callNumber + 1, history⟩, w))

/-- A sequence of calls, each of which may raise (the caller catches). -/
def calls {St R : Type} (f : S → St → Except E R × St) : List S → St → List (Except E R) × St
  | [], st => ([], st)
  | p :: ps, st =>
    let r := f p st
    let rest := calls f ps r.2
    (r.1 :: rest.1, rest.2)

/-- What a user of a recorder with gradient calls (recorder.py:128-138). -/
inductive GradientUse (S : Type)
  | value (params : S)
  | gradient (params : S)

/-- recorder.py:128-138 `SimpleRecorderWithGradient`: a second, independent recorder with the same save condition wraps the gradient. -/
def callWithGradient {G : Type} (target : Target W E S V) (gradient : Target W E S G) (predicate : SaveCondition E S V) (predicate' : SaveCondition E S G)
    (use : GradientUse S) (st : (Recorder (Entry S V) × Recorder (Entry S G)) × W) :
    Except E (V ⊕ G) × ((Recorder (Entry S V) × Recorder (Entry S G)) × W) :=
  match use with
  | .value p =>
    let r := call target predicate p (st.1.1, st.2)
    (r.1.map Sum.inl, ((r.2.1, st.1.2), r.2.2))
  | .gradient p =>
    let r := call gradient predicate' p (st.1.2, st.2)
    (r.1.map Sum.inr, ((st.1.1, r.2.1), r.2.2))

/-- The four classes `recorder` chooses from. -/
inductive RecorderClass
  | simple | simpleWithGradient | artifact | artifactWithGradient
deriving DecidableEq

/-- recorder.py:248-276 `recorder`: the class, given whether the function takes `store_artifact` and whether it has a gradient. -/
def chooseClass (withArtifacts withGradient : Bool) : RecorderClass :=
  if withArtifacts && withGradient then .artifactWithGradient
  else if withArtifacts then .artifact
  else if withGradient then .simpleWithGradient
  else .simple

/-! ## Copies -/

/-- Several recorders of one target: each has its own call number and a reference to a history list. -/
structure Session (S V W : Type) where
  recorders : List (ℕ × ℕ)
  heap : List (List (Entry S V))
  world : W

/-- What a user does with the recorders of a session. -/
inductive SessionUse (S : Type)
  | call (recorder : ℕ) (params : S)
  | copy (recorder : ℕ)
  | deepcopy (recorder : ℕ)

/-- recorder.py:58-80: `copy_recorder` shares the history list, `deepcopy_recorder` copies it; both keep the call number. `recorder` indexes
the recorders created so far; uses of an index that does not exist are skipped. The deep copy's copied target is assumed to behave as the original. -/
def sessionStep (target : Target W E S V) (predicate : SaveCondition E S V) (st : Session S V W) : SessionUse S → Session S V W
  | .call i p =>
    match st.recorders[i]? with
    | none => st
    | some (n, ref) =>
      let r := call target predicate p (⟨n, st.heap.getD ref []⟩, st.world)
      ⟨st.recorders.set i (r.2.1.callNumber, ref), st.heap.set ref r.2.1.history, r.2.2⟩
  | .copy i =>
    match st.recorders[i]? with
    | none => st
    | some (n, ref) => ⟨st.recorders ++ [(n, ref)], st.heap, st.world⟩
  | .deepcopy i =>
    match st.recorders[i]? with
    | none => st
    | some (n, ref) => ⟨st.recorders ++ [(n, st.heap.length)], st.heap ++ [st.heap.getD ref []], st.world⟩

end ZQ.History
