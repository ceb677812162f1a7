import Verif.Model.GraphSteps
import Verif.Props.RandomGraph
import Verif.Props.Graph
import Verif.Props.CreateObject
import Mathlib.Data.Set.Card

/-!
# C123: what the graph steps store
-/

namespace ZQ.GraphSteps

open ZQ ZQ.Graph ZQ.CreateObject ZQ.CreateObject.Spec

variable {σ : Type}

/-! ### Specification -/

/-- Specification: the dictionary names the function `name` of graph.py. -/
def Names (d : PyDict String SVal) (name : String) : Prop :=
  (PyDict.keys d).Nodup ∧ PyDict.get? d "module_name" = some (.text "zquantum.core.graph") ∧ PyDict.get? d "function_name" = some (.text name)

/-- Specification: the number under the key `k`, or the default. -/
def Has (d : PyDict String SVal) (k : String) (default x : ℝ) : Prop := (PyDict.get? d k).getD (.num default) = .num x

/-- Specification: what specifications describe. Other keys do not matter. -/
def Describes (d : PyDict String SVal) : Sampler → Prop
  | .uniform lo hi => Names d "uniform_sampler" ∧ Has d "min_value" 0 lo ∧ Has d "max_value" 1 hi
  | .constant v => Names d "constant_sampler" ∧ PyDict.get? d "value" = some (.num v)
  | .choice l => Names d "choice_sampler" ∧ PyDict.get? d "choices" = some (.nums l)
  | .normal mu sigma => Names d "normal_sampler" ∧ Has d "mu" 0 mu ∧ Has d "sigma" 1 sigma
  | .iter _ => False

/-- Specification: the arguments networkx accepts. -/
def Family.Accepted : Family → Prop
  | .regular n d => d < n ∧ n * d % 2 = 0
  | .barbell m => 2 ≤ m
  | _ => True

/-- Specification: the number of nodes. -/
def Family.size : Family → ℕ
  | .erdosRenyi n _ => n
  | .regular n _ => n
  | .complete n => n
  | .caveman l k => l * k
  | .ladder n => 2 * n
  | .barbell m => 2 * m

/-- Specification: which nodes `A u v` are joined; `x` are the random numbers. -/
def Family.Joins (x : ℕ → ℝ) (A : ℕ → ℕ → Prop) : Family → Prop
  | .erdosRenyi n p => ∀ u v, A u v ↔ Connected n p x (u, v) ∨ Connected n p x (v, u)
  | .regular n d => (∀ u, ¬ A u u) ∧ ∀ u < n, {v | A u v}.ncard = d
  | .complete n => ∀ u v, A u v ↔ u ≠ v ∧ u < n ∧ v < n
  | .caveman l k => ∀ u v, A u v ↔ CavemanEdge l k u v
  | .ladder n => ∀ u v, A u v ↔ LadderEdge n u v
  | .barbell m => ∀ u v, A u v ↔ BarbellEdge m u v

/-- Specification: what networkx promises, where it is random. -/
def Family.Promise (pairing : ℕ → ℕ → σ → List (ℕ × ℕ) × σ) : Family → Prop
  | .regular n d => RegularPairing pairing d n
  | _ => True

/-! ### Samplers -/

theorem found {d : PyDict String SVal} {name : String} (h : Names d name) (hp : (parameters name).isSome) : Found samplerWorld d (.function name) := by
  refine ⟨_, _, .module_, h.2.1, ?_, h.2.2, ?_⟩
  · simp [samplerWorld]
  · exact if_pos hp

theorem given_nil (d : PyDict String SVal) {k : String} (h1 : k ≠ "module_name") (h2 : k ≠ "function_name") : given d [] k = PyDict.get? d k := by
  rw [given, if_neg (by simp [h1, h2])]
  cases PyDict.get? d k <;> rfl

theorem made {d : PyDict String SVal} {name : String} {ps : List (Param SVal)} (h : Names d name) (hp : parameters name = some ps) (ho : Ordinary ps)
    (hk : ∀ p ∈ ps, p.name ≠ "module_name" ∧ p.name ≠ "function_name") :
    ((∀ p ∈ ps, ((PyDict.get? d p.name).or p.default).isSome) → ∃ b : Bound SVal, (∀ p ∈ ps, PyDict.get? b.named p.name = (PyDict.get? d p.name).or p.default) ∧
      ∀ s, runSampler name b = .ok (.sampler s) → makeSampler (some d) = .ok s) ∧
    (¬ (∀ p ∈ ps, ((PyDict.get? d p.name).or p.default).isSome) → makeSampler (some d) = .error .typeError) := by
  obtain ⟨o, h1, h2⟩ := create_function samplerWorld d [] h.1 (by simp [PyDict.keys]) (.function name) ps (found h (by rw [hp]; rfl)) hp ho
    (by rintro ⟨k, -, -, -, hk⟩; simp [PyDict.keys] at hk)
  obtain ⟨h3, h4⟩ := h2 [] [] (by simp [PyDict.keys])
  have hv : ∀ i p, ps[i]? = some p → value (given d []) [] [] i p = (PyDict.get? d p.name).or p.default := by
    intro i p hi
    have := hk p (List.mem_of_getElem? hi)
    rw [value, given_nil d this.1 this.2]
    simp [PyDict.get?]
  constructor
  · intro hc
    have hacc : Accepts ps (given d []) [] [] := by
      refine ⟨by simp, by simp [PyDict.keys], by simp, ?_⟩
      intro i p hi
      rw [hv i p hi]
      exact hc p (List.mem_of_getElem? hi)
    obtain ⟨b, e, -, -, -, hb⟩ := h3 hacc
    refine ⟨b, ?_, ?_⟩
    · intro p hp
      obtain ⟨i, hi⟩ := List.mem_iff_getElem?.1 hp
      rw [hb i p hi, hv i p hi]
    · intro s hs
      rw [makeSampler, h1]
      show (callObj samplerWorld o [] [] >>= _) = _
      rw [e]
      show (runSampler name b >>= _) = _
      rw [hs]
      rfl
  · intro hc
    have hacc : ¬ Accepts ps (given d []) [] [] := by
      intro ha
      refine hc fun p hp => ?_
      obtain ⟨i, hi⟩ := List.mem_iff_getElem?.1 hp
      have := ha.complete i p hi
      rwa [hv i p hi] at this
    rw [makeSampler, h1]
    show (callObj samplerWorld o [] [] >>= _) = _
    rw [h4 hacc]
    rfl

/-- C123. Specifications make the sampler they describe, whatever the order of the keys and whatever other keys they have; without specifications every weight is 1. -/
theorem sampler_described : makeSampler none = .ok (.constant 1) ∧ ∀ (d : PyDict String SVal) (s : Sampler), Describes d s → makeSampler (some d) = .ok s := by
  refine ⟨rfl, fun d s h => ?_⟩
  have hnum : ∀ {k : String} {x y : ℝ}, Has d k x y → (PyDict.get? d k).or (some (SVal.num x)) = some (.num y) := by
    intro k x y h
    rw [Has] at h
    cases hk : PyDict.get? d k with
    | none => rw [hk] at h; simpa using h
    | some v => rw [hk] at h; simpa using h
  cases s with
  | uniform lo hi =>
    obtain ⟨hn, ha, hb⟩ := h
    obtain ⟨b, hb1, hb2⟩ := (made hn rfl (by constructor <;> decide +revert) (by simp)).1 (by simp [hnum ha, hnum hb])
    have e1 := hb1 ⟨"min_value", .posOrKw, some (.num 0)⟩ (by simp)
    have e2 := hb1 ⟨"max_value", .posOrKw, some (.num 1)⟩ (by simp)
    dsimp only at e1 e2
    rw [hnum ha] at e1
    rw [hnum hb] at e2
    refine hb2 _ ?_
    rw [runSampler]
    dsimp only
    rw [if_pos rfl, e1, e2]
  | constant v =>
    obtain ⟨hn, ha⟩ := h
    obtain ⟨b, hb1, hb2⟩ := (made hn rfl (by constructor <;> simp) (by simp)).1 (by simp [ha])
    have e1 := hb1 ⟨"value", .posOrKw, none⟩ (by simp)
    dsimp only at e1
    rw [ha, Option.some_or] at e1
    refine hb2 _ ?_
    rw [runSampler]
    dsimp only
    rw [if_neg (by decide), if_pos rfl, e1]
  | choice l =>
    obtain ⟨hn, ha⟩ := h
    obtain ⟨b, hb1, hb2⟩ := (made hn rfl (by constructor <;> simp) (by simp)).1 (by simp [ha])
    have e1 := hb1 ⟨"choices", .posOrKw, none⟩ (by simp)
    dsimp only at e1
    rw [ha, Option.some_or] at e1
    refine hb2 _ ?_
    rw [runSampler]
    dsimp only
    rw [if_neg (by decide), if_neg (by decide), if_pos rfl, e1]
  | normal mu sigma =>
    obtain ⟨hn, ha, hb⟩ := h
    obtain ⟨b, hb1, hb2⟩ := (made hn rfl (by constructor <;> simp) (by simp)).1 (by simp [hnum ha, hnum hb])
    have e1 := hb1 ⟨"mu", .posOrKw, some (.num 0)⟩ (by simp)
    have e2 := hb1 ⟨"sigma", .posOrKw, some (.num 1)⟩ (by simp)
    dsimp only at e1 e2
    rw [hnum ha] at e1
    rw [hnum hb] at e2
    refine hb2 _ ?_
    rw [runSampler]
    dsimp only
    rw [if_neg (by decide), if_neg (by decide), if_neg (by decide), e1, e2]
  | iter l => exact h.elim

/-- C123. A missing value or missing choices are a `TypeError`; a name that is not given, a `KeyError`. -/
theorem sampler_rejects (d : PyDict String SVal) :
    (Names d "constant_sampler" → PyDict.get? d "value" = none → makeSampler (some d) = .error .typeError) ∧
    (Names d "choice_sampler" → PyDict.get? d "choices" = none → makeSampler (some d) = .error .typeError) ∧
    (PyDict.get? d "module_name" = none → makeSampler (some d) = .error .keyError) := by
  refine ⟨fun h hv => ?_, fun h hv => ?_, fun h => ?_⟩
  · exact (made h rfl (by constructor <;> simp) (by simp)).2 (by simp [hv])
  · exact (made h rfl (by constructor <;> simp) (by simp)).2 (by simp [hv])
  · rw [makeSampler, createObject, pop, h]
    rfl

/-- C123, negation: specifications that name a parameter the function does not have are not refused. `{"function_name": "uniform_sampler", "maximum": 5}` gives weights below 1. -/
theorem sampler_misspelled_counterexample :
    makeSampler (some [("module_name", .text "zquantum.core.graph"), ("function_name", .text "uniform_sampler"), ("maximum", .num 5)]) = .ok (.uniform 0 1) :=
  sampler_described.2 _ (.uniform 0 1) ⟨⟨by decide, rfl, rfl⟩, rfl, rfl⟩

/-! ### Graphs -/

theorem generate_spec {R : RandomModule σ} (hR : R.Good) {pairing : ℕ → ℕ → σ → List (ℕ × ℕ) × σ} (f : Family) (hp : f.Promise pairing) {s : Sampler} (hs : s.Endless) (seed : Option ℤ) (st : σ) :
    (f.Accepted → ∃ g st', generate R pairing s seed st f = (.ok g, s, st') ∧ g.Valid ∧ (∀ x, x ∈ g.nodes ↔ x < f.size) ∧
      f.Joins (draw R (startState R seed st)) (fun u v => v ∈ g.neighbours u) ∧ WeightedBy g s) ∧
    (¬ f.Accepted → ∃ st', generate R pairing s seed st f = (.error .networkX, s, st')) := by
  have hnodes : ∀ {g : Graph ℕ} {n : ℕ}, g.nodes = List.range n → ∀ x, x ∈ g.nodes ↔ x < n := by
    intro g n h x
    rw [h, List.mem_range]
  cases f with
  | erdosRenyi n p =>
    refine ⟨fun _ => ?_, fun h => absurd trivial h⟩
    obtain ⟨g, st', h1, h2, h3, -, -⟩ := erdos_renyi_spec hR n p hs seed st
    exact ⟨g, st', h1, h2.1, hnodes h2.2.1, h2.2.2, h3⟩
  | regular n d =>
    obtain ⟨h1, h2⟩ := regular_spec hR n d hp hs seed st
    refine ⟨fun h => ?_, fun h => h2 h⟩
    obtain ⟨g, st', e, g1, g2, g3, g4, g5⟩ := h1 h
    refine ⟨g, st', e, g1, g2, ⟨g3, fun u hu => ?_⟩, g5⟩
    rw [show {v | v ∈ g.neighbours u} = ((g.neighbours u).toFinset : Set ℕ) by ext v; simp, Set.ncard_coe_finset, List.toFinset_card_of_nodup (g1.2.1 u), g4 u hu]
  | complete n =>
    refine ⟨fun _ => ?_, fun h => absurd trivial h⟩
    obtain ⟨g, st', h1, h2, h3, -, h4⟩ := erdos_renyi_spec hR n 1 hs seed st
    exact ⟨g, st', h1, h2.1, hnodes h2.2.1, h4 le_rfl, h3⟩
  | caveman l k =>
    refine ⟨fun _ => ?_, fun h => absurd trivial h⟩
    obtain ⟨g, st', h1, h2, h3⟩ := caveman_spec hR l k hs seed st
    exact ⟨g, st', h1, h2.1, hnodes h2.2.1, h2.2.2, h3⟩
  | ladder n =>
    refine ⟨fun _ => ?_, fun h => absurd trivial h⟩
    obtain ⟨g, st', h1, h2, h3⟩ := ladder_spec hR n hs seed st
    exact ⟨g, st', h1, h2.1, hnodes h2.2.1, h2.2.2, h3⟩
  | barbell m =>
    obtain ⟨h1, h2⟩ := barbell_spec hR m hs seed st
    refine ⟨fun h => ?_, fun h => ⟨st, h2 (by simpa [Family.Accepted] using h)⟩⟩
    obtain ⟨g, st', e, g1, g2, g3, g4⟩ := h1 h
    exact ⟨g, st', e, g1, g2, g3, g4⟩

/-- C123. Every graph step whose arguments networkx accepts writes a file from which `load_graph` makes a graph of the family, on the nodes `0, 1, …`, with the weights of the sampler
that the specifications describe. If networkx does not accept the arguments there is no file. -/
theorem graph_step {R : RandomModule σ} (hR : R.Good) {pairing : ℕ → ℕ → σ → List (ℕ × ℕ) × σ} (f : Family) (hp : f.Promise pairing) {specs : Option (PyDict String SVal)} {s : Sampler}
    (hm : makeSampler specs = .ok s) (hs : s.Endless) (seed : Option ℤ) (st : σ) :
    (f.Accepted → ∃ d st', graphStep R pairing f specs seed st = (.ok d, st') ∧ (∀ x, x ∈ (loadGraph d).nodes ↔ x < f.size) ∧
      f.Joins (draw R (startState R seed st)) (fun u v => v ∈ (loadGraph d).neighbours u) ∧
      ∀ u v, v ∈ (loadGraph d).neighbours u → ∃ w, (loadGraph d).weight u v = some w ∧ (loadGraph d).weight v u = some w ∧ s.Yields w) ∧
    (¬ f.Accepted → ∃ st', graphStep R pairing f specs seed st = (.error (.graph .networkX), st')) := by
  obtain ⟨h1, h2⟩ := generate_spec hR f hp hs seed st
  constructor
  · intro ha
    obtain ⟨g, st', e, g1, g2, g3, g4⟩ := h1 ha
    obtain ⟨r1, -, r3, r4, -⟩ := graph_roundtrip g1
    refine ⟨saveGraph g, st', by rw [graphStep, hm]; dsimp only; rw [e], fun x => by rw [r1]; exact g2 x, ?_, fun u v huv => ?_⟩
    · have : (fun u v => v ∈ (loadGraph (saveGraph g)).neighbours u) = fun u v => v ∈ g.neighbours u := by
        funext u v
        exact propext (r3 u v)
      rw [this]
      exact g3
    · have h := (r3 u v).1 huv
      obtain ⟨w, w1, w2, w3⟩ := g4.1 u v h
      exact ⟨w, (r4 u v h).trans w1, (r4 v u (g1.2.2.1 u v h)).trans w2, w3⟩
  · intro ha
    obtain ⟨st', e⟩ := h2 ha
    exact ⟨st', by rw [graphStep, hm]; dsimp only; rw [e]⟩

/-- C123. Specifications that make no sampler: no graph is made and no random number is used. -/
theorem graph_step_specs (R : RandomModule σ) (pairing : ℕ → ℕ → σ → List (ℕ × ℕ) × σ) (f : Family) {specs : Option (PyDict String SVal)} {e : CreateObject.Err}
    (hm : makeSampler specs = .error e) (seed : Option ℤ) (st : σ) : graphStep R pairing f specs seed st = (.error (.specs e), st) := by
  rw [graphStep, hm]

/-- C123. Without specifications all weights in the file are 1: the step for complete graphs gives, after loading, all pairs with weight 1. -/
theorem complete_step {R : RandomModule σ} (hR : R.Good) (pairing : ℕ → ℕ → σ → List (ℕ × ℕ) × σ) (n : ℕ) (seed : Option ℤ) (st : σ) :
    ∃ d st', graphStep R pairing (.complete n) none seed st = (.ok d, st') ∧ (∀ x, x ∈ (loadGraph d).nodes ↔ x < n) ∧
      ∀ u v, (v ∈ (loadGraph d).neighbours u ↔ u ≠ v ∧ u < n ∧ v < n) ∧ (u ≠ v ∧ u < n ∧ v < n → (loadGraph d).weight u v = some 1) := by
  obtain ⟨d, st', h1, h2, h3, h4⟩ := (graph_step hR (.complete n) (pairing := pairing) trivial sampler_described.1 trivial seed st).1 trivial
  refine ⟨d, st', h1, h2, fun u v => ⟨h3 u v, fun h => ?_⟩⟩
  obtain ⟨w, w1, -, w3⟩ := h4 u v ((h3 u v).2 h)
  rw [w1]
  exact congrArg some w3

/-- C123. With a seed every graph step writes the same file and ends the same way in every state of the program. -/
theorem graph_step_seeded (R : RandomModule σ) (pairing : ℕ → ℕ → σ → List (ℕ × ℕ) × σ) (f : Family) (specs : Option (PyDict String SVal)) (k : ℤ) (st st' : σ) :
    (graphStep R pairing f specs (some k) st).1 = (graphStep R pairing f specs (some k) st').1 := by
  rw [graphStep, graphStep]
  cases makeSampler specs with
  | error e => rfl
  | ok s =>
    dsimp only
    have h : (generate R pairing s (some k) st f).1 = (generate R pairing s (some k) st' f).1 := by
      cases f with
      | erdosRenyi n p => rfl
      | regular n d =>
        show (regularGraph R pairing n d s (some k) st).1 = (regularGraph R pairing n d s (some k) st').1
        unfold regularGraph
        have hs : startState R (some k) st = startState R (some k) st' := rfl
        rw [hs]
        rcases randomRegular pairing d n (startState R (some k) st') with ⟨_ | g, after⟩ <;> rfl
      | complete n => rfl
      | caveman l k => rfl
      | ladder n => rfl
      | barbell m =>
        show (barbellGraph R m s (some k) st).1 = (barbellGraph R m s (some k) st').1
        unfold barbellGraph
        rcases barbell m with _ | g <;> rfl
    rcases hg : generate R pairing s (some k) st f with ⟨_ | g, a, b⟩ <;> rcases hg' : generate R pairing s (some k) st' f with ⟨_ | g', a', b'⟩ <;>
      rw [hg, hg'] at h <;> cases h <;> rfl

/-- C123. The step for specifications of graphs stores what `generate_graph_from_specs` returns: after loading it has the same nodes, edges and weights; with a seed the file is always the same. -/
theorem specs_step (R : RandomModule σ) (pairing : ℕ → ℕ → σ → List (ℕ × ℕ) × σ) (d : Specs) (st : σ) :
    (∀ g st', fromSpecs R pairing d st = (.ok g, st') → g.Valid → ∃ file, specsStep R pairing d st = (.ok file, st') ∧ (loadGraph file).nodes = g.nodes ∧ (loadGraph file).edges = g.edges ∧
      ∀ u v, (v ∈ (loadGraph file).neighbours u ↔ v ∈ g.neighbours u) ∧ (v ∈ g.neighbours u → (loadGraph file).weight u v = g.weight u v)) ∧
    (∀ e st', fromSpecs R pairing d st = (.error e, st') → specsStep R pairing d st = (.error e, st')) ∧
    ∀ k st', d.seed = some k → (specsStep R pairing d st).1 = (specsStep R pairing d st').1 := by
  refine ⟨fun g st' h hg => ?_, fun e st' h => by rw [specsStep, h], fun k st' hk => ?_⟩
  · obtain ⟨r1, r2, r3, r4, -⟩ := graph_roundtrip hg
    exact ⟨saveGraph g, by rw [specsStep, h], r1, r2, fun u v => ⟨r3 u v, r4 u v⟩⟩
  · have h := specs_seeded R pairing d hk st st'
    rw [specsStep, specsStep]
    rcases h1 : fromSpecs R pairing d st with ⟨_ | g, a⟩ <;> rcases h2 : fromSpecs R pairing d st' with ⟨_ | g', a'⟩ <;> rw [h1, h2] at h <;> cases h <;> rfl

/-- A ladder with weights from a list of choices. -/
example {R : RandomModule σ} (hR : R.Good) (pairing : ℕ → ℕ → σ → List (ℕ × ℕ) × σ) (st : σ) :
    ∃ d st', graphStep R pairing (.ladder 3) (some [("choices", .nums [1, 2]), ("function_name", .text "choice_sampler"), ("module_name", .text "zquantum.core.graph")]) none st = (.ok d, st') ∧
      ∃ w, (loadGraph d).weight 0 3 = some w ∧ (w = 1 ∨ w = 2) := by
  have hd : Describes [("choices", .nums [1, 2]), ("function_name", .text "choice_sampler"), ("module_name", .text "zquantum.core.graph")] (.choice [1, 2]) :=
    ⟨⟨by decide, rfl, rfl⟩, rfl⟩
  obtain ⟨d, st', h1, -, h3, h4⟩ := (graph_step hR (.ladder 3) (pairing := pairing) trivial (sampler_described.2 _ _ hd) (by simp [Sampler.Endless]) none st).1 trivial
  obtain ⟨w, w1, -, w2⟩ := h4 0 3 ((h3 0 3).2 ⟨0, 0, by omega, by omega, by omega⟩)
  exact ⟨d, st', h1, w, w1, by simpa [Sampler.Yields] using w2⟩

end ZQ.GraphSteps
