import Verif.Model.RandomGraph
import Verif.Model.CreateObject

/-!
# Graph steps: steps/graph.py

The files are what `save_graph` writes (C75). `json.loads` of the text of specifications is external: specifications are dictionaries here.
-/

namespace ZQ.GraphSteps

open ZQ ZQ.Graph ZQ.CreateObject

/-- The Python values that occur in specifications of samplers. -/
inductive SVal
  | text (s : String)
  | num (x : ℝ)
  | nums (l : List ℝ)
  | module_
  | function (name : String)
  | sampler (s : Sampler)

/-- graph.py:78-94: the signatures of the four functions that make samplers. -/
def parameters : String → Option (List (Param SVal))
  | "uniform_sampler" => some [⟨"min_value", .posOrKw, some (.num 0)⟩, ⟨"max_value", .posOrKw, some (.num 1)⟩]
  | "constant_sampler" => some [⟨"value", .posOrKw, none⟩]
  | "choice_sampler" => some [⟨"choices", .posOrKw, none⟩]
  | "normal_sampler" => some [⟨"mu", .posOrKw, some (.num 0)⟩, ⟨"sigma", .posOrKw, some (.num 1)⟩]
  | _ => none

/-- graph.py:78-94: what the four functions return. Arguments of other types are simplified to a `TypeError` here; in Python it is raised by the first sample. -/
def runSampler (name : String) (b : Bound SVal) : Except CreateObject.Err SVal :=
  let arg (k : String) := PyDict.get? b.named k
  if name = "uniform_sampler" then
    match arg "min_value", arg "max_value" with
    | some (.num lo), some (.num hi) => .ok (.sampler (.uniform lo hi))
    | _, _ => .error .typeError
  else if name = "constant_sampler" then
    match arg "value" with
    | some (.num v) => .ok (.sampler (.constant v))
    | _ => .error .typeError
  else if name = "choice_sampler" then
    match arg "choices" with
    | some (.nums l) => .ok (.sampler (.choice l))
    | _ => .error .typeError
  else
    match arg "mu", arg "sigma" with
    | some (.num mu), some (.num sigma) => .ok (.sampler (.normal mu sigma))
    | _, _ => .error .typeError

/-- The interpreter, as far as samplers of graph.py need it: one module with four functions. Other modules and attributes are left out. -/
def samplerWorld : World SVal where
  importModule
    | .text m => if m = "zquantum.core.graph" then .ok .module_ else .error .importError
    | _ => .error .typeError
  getattr
    | .module_, .text n => if (parameters n).isSome then .ok (.function n) else .error .attributeError
    | _, _ => .error .typeError
  signature
    | .function n => parameters n
    | _ => none
  run
    | .function n, b => runSampler n b
    | _, _ => .error .typeError
  invoke _ _ _ := .error .typeError

/-- steps/graph.py:13-25 `_make_sampler`; the objects that can be made are samplers. -/
def makeSampler : Option (PyDict String SVal) → Except CreateObject.Err Sampler
  | none => .ok (.constant 1)
  | some d => do
    let o ← createObject samplerWorld d []
    let v ← callObj samplerWorld o [] []
    match v with
    | .sampler s => .ok s
    | _ => .error .typeError

/-- The steps that generate graphs, with their arguments. -/
inductive Family
  | erdosRenyi (n : ℕ) (p : ℝ)
  | regular (n d : ℕ)
  | complete (n : ℕ)
  | caveman (l k : ℕ)
  | ladder (n : ℕ)
  | barbell (m : ℕ)

variable {σ : Type}

/-- steps/graph.py:28-110: the call of the generator in each step. -/
noncomputable def generate (R : RandomModule σ) (pairing : ℕ → ℕ → σ → List (ℕ × ℕ) × σ) (s : Sampler) (seed : Option ℤ) (st : σ) :
    Family → Except GErr (Graph ℕ) × Sampler × σ
  | .erdosRenyi n p => erdosRenyi R n p s seed st
  | .regular n d => regularGraph R pairing n d s seed st
  | .complete n => erdosRenyi R n 1 s seed st
  | .caveman l k => cavemanGraph R l k s seed st
  | .ladder n => ladderGraph R n s seed st
  | .barbell m => barbellGraph R m s seed st

/-- What a graph step raises. -/
inductive SErr
  | specs (e : CreateObject.Err)
  | graph (e : GErr)

/-- steps/graph.py:28-110: the content of graph.json, and the global state of `random` afterwards. -/
noncomputable def graphStep (R : RandomModule σ) (pairing : ℕ → ℕ → σ → List (ℕ × ℕ) × σ) (f : Family) (specs : Option (PyDict String SVal)) (seed : Option ℤ) (st : σ) :
    Except SErr (GraphDict ℕ) × σ :=
  match makeSampler specs with
  | .error e => (.error (.specs e), st)
  | .ok s =>
    match generate R pairing s seed st f with
    | (.error e, _, st) => (.error (.graph e), st)
    | (.ok g, _, st) => (.ok (saveGraph g), st)

/-- steps/graph.py:113-116 `generate_graph_from_specs`: the content of graph.json. -/
noncomputable def specsStep (R : RandomModule σ) (pairing : ℕ → ℕ → σ → List (ℕ × ℕ) × σ) (d : Specs) (st : σ) : Except GErr (GraphDict ℕ) × σ :=
  match fromSpecs R pairing d st with
  | (.error e, st) => (.error e, st)
  | (.ok g, st) => (.ok (saveGraph g), st)

end ZQ.GraphSteps
