import Verif.Model.Graph

/-!
# Random graphs: graph.py:74-172, 175-286, and the graph generators of networkx they call

The module `random` and networkx are external: their random numbers are parameters, their deterministic loops are transcribed. Sizes are natural numbers, probabilities and weights real.
Graphs made here have the nodes `0, 1, …`; the check for multigraphs (186-187) never fails for them.
-/

namespace ZQ.Graph

open ZQ

/-- What the module `random` offers to graph.py; `σ` is the state of a generator. `below n` is the position `random.choice` takes in a sequence of length `n > 0`. -/
structure RandomModule (σ : Type) where
  seed : ℤ → σ
  random : σ → ℝ × σ
  below : ℕ → σ → ℕ × σ
  normal : ℝ → ℝ → σ → ℝ × σ

/-- The exceptions of this part of the code. -/
inductive GErr
  | stopIteration
  | indexError
  | keyError
  | notImplemented
  | networkX
  deriving DecidableEq, Repr

/-- The iterators of weights: graph.py:78-94 (a generator made by one of the four functions), or an iterator of the caller, which has the numbers `l` left. -/
inductive Sampler
  | uniform (lo hi : ℝ)
  | constant (v : ℝ)
  | choice (l : List ℝ)
  | normal (mu sigma : ℝ)
  | iter (l : List ℝ)

variable {σ : Type}

/-- `next(sampler)`: graph.py:78-80, 83-84, 87-89, 92-94. The generators use the global state of `random`. `random.uniform(a, b)` is `a + (b - a) * random.random()`. A generator that failed is finished. -/
noncomputable def Sampler.next (R : RandomModule σ) : Sampler → σ → Except GErr ℝ × Sampler × σ
  | .uniform lo hi, st => (.ok (lo + (hi - lo) * (R.random st).1), .uniform lo hi, (R.random st).2)
  | .constant v, st => (.ok v, .constant v, st)
  | .choice [], st => (.error .indexError, .iter [], st)
  | .choice (x :: l), st => (.ok ((x :: l).getD (R.below (l.length + 1) st).1 x), .choice (x :: l), (R.below (l.length + 1) st).2)
  | .normal mu sigma, st => (.ok (R.normal mu sigma st).1, .normal mu sigma, (R.normal mu sigma st).2)
  | .iter [], st => (.error .stopIteration, .iter [], st)
  | .iter (x :: l), st => (.ok x, .iter l, st)

/-- graph.py:192 `[... next(sampler) for e in graph.edges]`, for `k` edges. -/
noncomputable def takeSamples (R : RandomModule σ) : ℕ → Sampler → σ → Except GErr (List ℝ) × Sampler × σ
  | 0, s, st => (.ok [], s, st)
  | k + 1, s, st =>
    match s.next R st with
    | (.error e, s, st) => (.error e, s, st)
    | (.ok w, s, st) =>
      match takeSamples R k s st with
      | (.error e, s, st) => (.error e, s, st)
      | (.ok ws, s, st) => (.ok (w :: ws), s, st)

/-- A generator is seeded if a seed is given: graph.py:189-190 `if seed is not None: random.seed(seed)`; also the generator that networkx uses (`py_random_state`): the global
one, or a new `random.Random(seed)`. -/
def startState (R : RandomModule σ) (seed : Option ℤ) (st : σ) : σ :=
  match seed with
  | none => st
  | some k => R.seed k

/-- graph.py:175-195 `_weight_graph_edges`: the global generator is seeded if a seed is given; all samples are taken before the graph is changed. -/
noncomputable def weightGraph (R : RandomModule σ) (g : Graph ℕ) (s : Sampler) (seed : Option ℤ) (st : σ) : Except GErr (Graph ℕ) × Sampler × σ :=
  match takeSamples R g.edges.length s (startState R seed st) with
  | (.error e, s, st) => (.error e, s, st)
  | (.ok ws, s, st) => (.ok (weightEdges g fun i => ws.getD i 0), s, st)

/-! ### networkx -/

/-- networkx `empty_graph(n)`. External library. -/
def emptyGraph (n : ℕ) : Graph ℕ := (List.range n).foldl addNode empty

/-- networkx `Graph.add_edges_from`. External library. -/
def addEdges (g : Graph ℕ) (es : List (ℕ × ℕ)) : Graph ℕ := es.foldl (fun acc e => addEdge acc e.1 e.2 none) g

/-- `itertools.combinations(range(a, b), 2)`. External library. -/
def pairs (a b : ℕ) : List (ℕ × ℕ) := (List.range' a (b - a)).flatMap fun u => (List.range' (u + 1) (b - (u + 1))).map fun v => (u, v)

/-- networkx `gnp_random_graph`, its loop: `for e in edges: if seed.random() < p: G.add_edge(*e)`; the edges it adds. External library. -/
noncomputable def gnpLoop (R : RandomModule σ) (p : ℝ) : List (ℕ × ℕ) → σ → List (ℕ × ℕ) × σ
  | [], st => ([], st)
  | e :: es, st =>
    let r := gnpLoop R p es (R.random st).2
    (if (R.random st).1 < p then e :: r.1 else r.1, r.2)

/-- networkx `gnp_random_graph(n, p)` (`erdos_renyi_graph`): no random numbers are used if `p <= 0` or `p >= 1`. External library. -/
noncomputable def gnp (R : RandomModule σ) (n : ℕ) (p : ℝ) (st : σ) : Graph ℕ × σ :=
  if p ≤ 0 then (emptyGraph n, st)
  else if 1 ≤ p then (addEdges (emptyGraph n) (pairs 0 n), st)
  else
    let r := gnpLoop R p (pairs 0 n) st
    (addEdges (emptyGraph n) r.1, r.2)

/-- networkx `random_regular_graph(d, n)`; `pairing` is its randomised choice of the edges. External library. -/
def randomRegular (pairing : ℕ → ℕ → σ → List (ℕ × ℕ) × σ) (d n : ℕ) (st : σ) : Except GErr (Graph ℕ) × σ :=
  if n * d % 2 ≠ 0 then (.error .networkX, st)
  else if n ≤ d then (.error .networkX, st)
  else if d = 0 then (.ok (emptyGraph n), st)
  else
    let r := pairing d n st
    (.ok (addEdges empty r.1), r.2)

/-- networkx `caveman_graph(l, k)`. External library. -/
def caveman (l k : ℕ) : Graph ℕ :=
  if k > 1 then (List.range l).foldl (fun g i => addEdges g (pairs (i * k) (i * k + k))) (emptyGraph (l * k)) else emptyGraph (l * k)

/-- `pairwise(range(a, a + n))`. External library. -/
def steps (a n : ℕ) : List (ℕ × ℕ) := (List.range (n - 1)).map fun i => (a + i, a + i + 1)

/-- networkx `ladder_graph(n)`. External library. -/
def ladder (n : ℕ) : Graph ℕ := addEdges (addEdges (addEdges (emptyGraph (2 * n)) (steps 0 n)) (steps n n)) ((List.range n).map fun v => (v, v + n))

/-- networkx `barbell_graph(m, 0)`. External library. -/
def barbell (m : ℕ) : Except GErr (Graph ℕ) :=
  if m < 2 then .error .networkX
  else .ok (addEdge (addEdges (addEdges (emptyGraph m) (pairs 0 m)) (pairs m (2 * m))) (m - 1) m none)

/-! ### graph.py -/

/-- The global state after networkx used its generator: unchanged if the generator was a new one. -/
def afterState (seed : Option ℤ) (before after : σ) : σ :=
  match seed with
  | none => after
  | some _ => before

/-- graph.py:97-118 `generate_random_graph_erdos_renyi`. -/
noncomputable def erdosRenyi (R : RandomModule σ) (n : ℕ) (p : ℝ) (s : Sampler) (seed : Option ℤ) (st : σ) : Except GErr (Graph ℕ) × Sampler × σ :=
  let r := gnp R n p (startState R seed st)
  weightGraph R r.1 s seed (afterState seed st r.2)

/-- graph.py:121-140 `generate_random_regular_graph`. -/
noncomputable def regularGraph (R : RandomModule σ) (pairing : ℕ → ℕ → σ → List (ℕ × ℕ) × σ) (n d : ℕ) (s : Sampler) (seed : Option ℤ) (st : σ) :
    Except GErr (Graph ℕ) × Sampler × σ :=
  match randomRegular pairing d n (startState R seed st) with
  | (.error e, after) => (.error e, s, afterState seed st after)
  | (.ok g, after) => weightGraph R g s seed (afterState seed st after)

/-- graph.py:143-151 `generate_caveman_graph`. -/
noncomputable def cavemanGraph (R : RandomModule σ) (l k : ℕ) (s : Sampler) (seed : Option ℤ) (st : σ) : Except GErr (Graph ℕ) × Sampler × σ := weightGraph R (caveman l k) s seed st

/-- graph.py:154-161 `generate_ladder_graph`. -/
noncomputable def ladderGraph (R : RandomModule σ) (n : ℕ) (s : Sampler) (seed : Option ℤ) (st : σ) : Except GErr (Graph ℕ) × Sampler × σ := weightGraph R (ladder n) s seed st

/-- graph.py:164-172 `generate_barbell_graph`. -/
noncomputable def barbellGraph (R : RandomModule σ) (m : ℕ) (s : Sampler) (seed : Option ℤ) (st : σ) : Except GErr (Graph ℕ) × Sampler × σ :=
  match barbell m with
  | .error e => (.error e, s, st)
  | .ok g => weightGraph R g s seed st

/-- The dictionary `graph_specs` (`none`: the key is missing). -/
structure Specs where
  typeGraph : Option String := none
  numNodes : Option ℕ := none
  randomWeights : Option Bool := none
  seed : Option ℤ := none
  probability : Option ℝ := none
  degree : Option ℕ := none
  numberOfCliques : Option ℕ := none
  sizeOfCliques : Option ℕ := none
  lengthOfLadder : Option ℕ := none
  numberOfVertices : Option ℕ := none

/-- graph.py:198-286 `generate_graph_from_specs`: the graph and the global state of `random` afterwards. -/
noncomputable def fromSpecs (R : RandomModule σ) (pairing : ℕ → ℕ → σ → List (ℕ × ℕ) × σ) (d : Specs) (st : σ) : Except GErr (Graph ℕ) × σ :=
  match d.typeGraph with
  | none => (.error .keyError, st)
  | some type =>
    match d.numNodes with
    | none => (.error .keyError, st)
    | some n =>
      let s := if d.randomWeights.getD false = true then Sampler.uniform 0 1 else Sampler.constant 1
      let out (r : Except GErr (Graph ℕ) × Sampler × σ) : Except GErr (Graph ℕ) × σ := (r.1, r.2.2)
      if type = "erdos_renyi" then
        match d.probability with
        | none => (.error .keyError, st)
        | some p => out (erdosRenyi R n p s d.seed st)
      else if type = "regular" then
        match d.degree with
        | none => (.error .keyError, st)
        | some k => out (regularGraph R pairing n k s d.seed st)
      else if type = "complete" then out (erdosRenyi R n 1 s d.seed st)
      else if type = "caveman" then
        match d.numberOfCliques, d.sizeOfCliques with
        | some l, some k => out (cavemanGraph R l k s d.seed st)
        | _, _ => (.error .keyError, st)
      else if type = "ladder" then
        match d.lengthOfLadder with
        | none => (.error .keyError, st)
        | some l => out (ladderGraph R l s d.seed st)
      else if type = "barbell" then
        match d.numberOfVertices with
        | none => (.error .keyError, st)
        | some m => out (barbellGraph R m s d.seed st)
      else (.error .notImplemented, st)

end ZQ.Graph
