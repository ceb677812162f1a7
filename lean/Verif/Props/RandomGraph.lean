import Verif.Lemmas.RandomGraph
import Verif.Props.Born

/-!
# C107: random graphs
-/

namespace ZQ.Graph

open ZQ ZQ.PyDict ZQ.Stat MeasureTheory ProbabilityTheory

variable {σ : Type}

/-! ### Specification -/

/-- Specification: a well-formed graph with the nodes `0, …, n - 1` and the edges `E`. -/
def IsGraph (g : Graph ℕ) (n : ℕ) (E : ℕ → ℕ → Prop) : Prop := g.Valid ∧ g.nodes = List.range n ∧ ∀ u v, v ∈ g.neighbours u ↔ E u v

/-- Specification: what the module `random` promises. -/
def RandomModule.Good (R : RandomModule σ) : Prop := (∀ st, 0 ≤ (R.random st).1 ∧ (R.random st).1 < 1) ∧ ∀ n st, 0 < n → (R.below n st).1 < n

/-- Specification: the weights a sampler may return. -/
def Sampler.Yields : Sampler → ℝ → Prop
  | .uniform lo hi, w => ∃ t, 0 ≤ t ∧ t < 1 ∧ w = lo + (hi - lo) * t
  | .constant v, w => w = v
  | .choice l, w => w ∈ l
  | .normal _ _, _ => True
  | .iter l, w => w ∈ l

/-- Specification: the samplers that never end: those of graph.py, `choice_sampler` with a choice. -/
def Sampler.Endless : Sampler → Prop
  | .choice l => l ≠ []
  | .iter _ => False
  | _ => True

/-- Specification: every edge has a weight from the sampler, the same in both directions, and nothing else has a weight. -/
def WeightedBy (g : Graph ℕ) (s : Sampler) : Prop :=
  (∀ u v, v ∈ g.neighbours u → ∃ w, g.weight u v = some w ∧ g.weight v u = some w ∧ s.Yields w) ∧ ∀ u v, v ∉ g.neighbours u → g.weight u v = none

/-! ### Samples -/

theorem next_yields {R : RandomModule σ} (hR : R.Good) (s : Sampler) (st : σ) {w : ℝ} {s' : Sampler} {st' : σ} (h : s.next R st = (.ok w, s', st')) :
    s.Yields w ∧ ∀ w', s'.Yields w' → s.Yields w' := by
  cases s with
  | uniform lo hi =>
    simp only [Sampler.next, Prod.mk.injEq, Except.ok.injEq] at h
    obtain ⟨rfl, rfl, rfl⟩ := h
    exact ⟨⟨_, (hR.1 st).1, (hR.1 st).2, rfl⟩, fun _ h => h⟩
  | constant v =>
    simp only [Sampler.next, Prod.mk.injEq, Except.ok.injEq] at h
    obtain ⟨rfl, rfl, rfl⟩ := h
    exact ⟨rfl, fun _ h => h⟩
  | choice l =>
    cases l with
    | nil => simp [Sampler.next] at h
    | cons x l =>
      simp only [Sampler.next, Prod.mk.injEq, Except.ok.injEq] at h
      obtain ⟨rfl, rfl, rfl⟩ := h
      refine ⟨?_, fun _ h => h⟩
      have := hR.2 (l.length + 1) st (by omega)
      show _ ∈ x :: l
      rw [List.getD_eq_getElem _ _ (by simpa using this)]
      exact List.getElem_mem _
  | normal mu sigma =>
    exact ⟨trivial, fun _ _ => trivial⟩
  | iter l =>
    cases l with
    | nil => simp [Sampler.next] at h
    | cons x l =>
      simp only [Sampler.next, Prod.mk.injEq, Except.ok.injEq] at h
      obtain ⟨rfl, rfl, rfl⟩ := h
      exact ⟨List.mem_cons_self .., fun _ h => List.mem_cons_of_mem _ h⟩

theorem samples_yield {R : RandomModule σ} (hR : R.Good) : ∀ (k : ℕ) (s : Sampler) (st : σ) {ws : List ℝ}, (takeSamples R k s st).1 = .ok ws → ∀ w ∈ ws, s.Yields w := by
  intro k
  induction k with
  | zero => intro s st ws h; simp only [takeSamples, Except.ok.injEq] at h; subst h; simp
  | succ k ih =>
    intro s st ws h
    rw [takeSamples] at h
    rcases e : s.next R st with ⟨_ | w, s', st'⟩
    · rw [e] at h; cases h
    · rw [e] at h
      dsimp only at h
      rcases e' : takeSamples R k s' st' with ⟨_ | vs, s'', st''⟩
      · rw [e'] at h; cases h
      · rw [e'] at h
        simp only [Except.ok.injEq] at h
        obtain ⟨h1, h2⟩ := next_yields hR s st e
        intro x hx
        rw [← h] at hx
        rcases List.mem_cons.1 hx with rfl | hx
        · exact h1
        · exact h2 x (ih s' st' (by rw [e']) x hx)

theorem samples_total (R : RandomModule σ) : ∀ (k : ℕ) {s : Sampler} (_ : s.Endless) (st : σ), ∃ ws st', takeSamples R k s st = (.ok ws, s, st') := by
  intro k
  induction k with
  | zero => intro s _ st; exact ⟨[], st, rfl⟩
  | succ k ih =>
    intro s hs st
    have hn : ∃ w st', s.next R st = (.ok w, s, st') := by
      cases s with
      | uniform lo hi => exact ⟨_, _, rfl⟩
      | constant v => exact ⟨_, _, rfl⟩
      | choice l =>
        cases l with
        | nil => exact absurd rfl hs
        | cons x l => exact ⟨_, _, rfl⟩
      | normal mu sigma => exact ⟨_, _, rfl⟩
      | iter l => exact hs.elim
    obtain ⟨w, st1, h1⟩ := hn
    obtain ⟨ws, st2, h2⟩ := ih hs st1
    exact ⟨w :: ws, st2, by rw [takeSamples, h1]; dsimp only; rw [h2]⟩

/-- C107. Weighting a graph keeps its nodes and edges; the `i`-th edge gets the `i`-th sample. -/
theorem weightGraph_spec {R : RandomModule σ} {g : Graph ℕ} (hg : g.Valid) {s : Sampler} {seed : Option ℤ} {st : σ} {h : Graph ℕ} {s' : Sampler} {st' : σ}
    (hr : weightGraph R g s seed st = (.ok h, s', st')) :
    h.Valid ∧ h.nodes = g.nodes ∧ h.edges = g.edges ∧ (∀ u, h.neighbours u = g.neighbours u) ∧ (∀ u v, v ∉ g.neighbours u → h.weight u v = g.weight u v) ∧
      ∃ ws : List ℝ, takeSamples R g.edges.length s (startState R seed st) = (.ok ws, s', st') ∧ ws.length = g.edges.length ∧
        ∀ i (hi : i < g.edges.length) (hi' : i < ws.length), h.weight g.edges[i].1 g.edges[i].2 = some ws[i] ∧ h.weight g.edges[i].2 g.edges[i].1 = some ws[i] := by
  unfold weightGraph at hr
  rcases e : takeSamples R g.edges.length s (startState R seed st) with ⟨_ | ws, t, u⟩
  · rw [e] at hr; simp at hr
  · rw [e] at hr
    simp only [Prod.mk.injEq, Except.ok.injEq] at hr
    obtain ⟨rfl, rfl, rfl⟩ := hr
    have hl : ws.length = g.edges.length := takeSamples_length R _ _ _ (by rw [e])
    obtain ⟨w1, w2, w3, w4, w5⟩ := weightEdges_spec hg fun i => ws.getD i 0
    obtain ⟨v1, v2, v3, v4⟩ := hg
    refine ⟨⟨by rw [w1]; exact v1, fun v => by rw [w3]; exact v2 v, fun u v => by rw [w3, w3]; exact v3 u v, fun u v => ?_⟩, w1, w2, w3, w5, ws, rfl, hl, fun i hi hi' => ?_⟩
    · by_cases hv : v ∈ g.neighbours u
      · rcases ((edges_spec ⟨v1, v2, v3, v4⟩).1 u v).1 hv with hm | hm
        · obtain ⟨i, hi, he⟩ := List.mem_iff_getElem.1 hm
          have := w4 i hi
          rw [he] at this
          rw [this.1, this.2]
        · obtain ⟨i, hi, he⟩ := List.mem_iff_getElem.1 hm
          have := w4 i hi
          rw [he] at this
          rw [this.1, this.2]
      · rw [w5 u v hv, w5 v u (fun h => hv (v3 _ _ h)), v4]
    · have := w4 i hi
      rwa [List.getD_eq_getElem _ _ hi'] at this

/-- Weighting a graph by a sampler that never ends. -/
theorem weightGraph_any {R : RandomModule σ} (hR : R.Good) {g : Graph ℕ} (hg : g.Valid) (hw : ∀ u v, g.weight u v = none) {s : Sampler} (hs : s.Endless) (seed : Option ℤ) (st : σ) :
    ∃ h st', weightGraph R g s seed st = (.ok h, s, st') ∧ h.Valid ∧ h.nodes = g.nodes ∧ (∀ u, h.neighbours u = g.neighbours u) ∧ WeightedBy h s := by
  obtain ⟨ws, st', e⟩ := samples_total R g.edges.length hs (startState R seed st)
  have hr : weightGraph R g s seed st = (.ok (weightEdges g fun i => ws.getD i 0), s, st') := by
    unfold weightGraph
    rw [e]
  obtain ⟨h1, h2, h3, h4, h5, ws', e', hl, hi⟩ := weightGraph_spec hg hr
  refine ⟨_, st', hr, h1, h2, h4, fun u v hv => ?_, fun u v hv => ?_⟩
  · have hy := samples_yield hR _ _ _ (show (takeSamples R g.edges.length s (startState R seed st)).1 = .ok ws' by rw [e'])
    rw [h4] at hv
    rcases ((edges_spec hg).1 u v).1 hv with hm | hm
    · obtain ⟨i, hi1, he⟩ := List.mem_iff_getElem.1 hm
      have := hi i hi1 (by omega)
      rw [he] at this
      exact ⟨_, this.1, this.2, hy _ (List.getElem_mem _)⟩
    · obtain ⟨i, hi1, he⟩ := List.mem_iff_getElem.1 hm
      have := hi i hi1 (by omega)
      rw [he] at this
      exact ⟨_, this.2, this.1, hy _ (List.getElem_mem _)⟩
  · rw [h4] at hv
    rw [h5 u v hv, hw]

theorem weightGraph_total {R : RandomModule σ} (hR : R.Good) {g : Graph ℕ} {n : ℕ} {E : ℕ → ℕ → Prop} (hg : IsGraph g n E) (hw : ∀ u v, g.weight u v = none) {s : Sampler} (hs : s.Endless)
    (seed : Option ℤ) (st : σ) :
    ∃ h st', weightGraph R g s seed st = (.ok h, s, st') ∧ IsGraph h n E ∧ WeightedBy h s := by
  obtain ⟨h, st', h1, h2, h3, h4, h5⟩ := weightGraph_any hR hg.1 hw hs seed st
  exact ⟨h, st', h1, ⟨h2, by rw [h3]; exact hg.2.1, fun u v => by rw [h4]; exact hg.2.2 u v⟩, h5⟩

/-- C107. An iterator of the caller that has fewer numbers left than the graph has edges: `StopIteration`, and the iterator is used up. -/
theorem weights_run_out (R : RandomModule σ) (g : Graph ℕ) (l : List ℝ) (seed : Option ℤ) (st : σ) (hl : l.length < g.edges.length) :
    weightGraph R g (.iter l) seed st = (.error .stopIteration, .iter [], startState R seed st) := by
  unfold weightGraph
  rw [takeSamples_iter, if_neg (by omega)]

/-! ### The families of graphs -/

theorem fromEmpty {n : ℕ} {es : List (ℕ × ℕ)} (hb : ∀ e ∈ es, e.1 < n ∧ e.2 < n) :
    IsGraph (addEdges (emptyGraph n) es) n (fun u v => (u, v) ∈ es ∨ (v, u) ∈ es) ∧ ∀ u v, (addEdges (emptyGraph n) es).weight u v = none := by
  obtain ⟨h1, h2, -, h4, h5⟩ := addEdges_spec es (emptyGraph n) (emptyGraph_valid n)
  refine ⟨⟨h1, ?_, fun u v => ?_⟩, fun u v => ?_⟩
  · rw [h4, emptyGraph_nodes]
    intro e he
    rw [emptyGraph_nodes]
    simpa using hb e he
  · rw [h2, emptyGraph_neighbours]
    simp
  · rw [h5, emptyGraph_eq]

theorem IsGraph.congr {g : Graph ℕ} {n : ℕ} {E F : ℕ → ℕ → Prop} (h : IsGraph g n E) (he : ∀ u v, E u v ↔ F u v) : IsGraph g n F :=
  ⟨h.1, h.2.1, fun u v => (h.2.2 u v).trans (he u v)⟩

theorem emptyGraph_isGraph (n : ℕ) : IsGraph (emptyGraph n) n (fun _ _ => False) ∧ ∀ u v, (emptyGraph n).weight u v = none :=
  ⟨⟨emptyGraph_valid n, emptyGraph_nodes n, fun u v => by rw [emptyGraph_neighbours]; simp⟩, fun u v => by rw [emptyGraph_eq]⟩

theorem addEdges_isGraph {g : Graph ℕ} {n : ℕ} {E : ℕ → ℕ → Prop} (h : IsGraph g n E) (hw : ∀ u v, g.weight u v = none) {es : List (ℕ × ℕ)} (hb : ∀ e ∈ es, e.1 < n ∧ e.2 < n) :
    IsGraph (addEdges g es) n (fun u v => E u v ∨ (u, v) ∈ es ∨ (v, u) ∈ es) ∧ ∀ u v, (addEdges g es).weight u v = none := by
  obtain ⟨h1, h2, -, h4, h5⟩ := addEdges_spec es g h.1
  refine ⟨⟨h1, ?_, fun u v => ?_⟩, fun u v => ?_⟩
  · rw [h4, h.2.1]
    intro e he
    rw [h.2.1]
    simpa using hb e he
  · rw [h2, h.2.2]
  · rw [h5, hw]

/-- Specification of caveman graphs: cliques of `k` consecutive nodes. -/
def CavemanEdge (l k u v : ℕ) : Prop := u ≠ v ∧ u < l * k ∧ v < l * k ∧ u / k = v / k

theorem caveman_isGraph (l k : ℕ) : IsGraph (caveman l k) (l * k) (CavemanEdge l k) ∧ ∀ u v, (caveman l k).weight u v = none := by
  unfold caveman
  by_cases hk : k > 1
  · rw [if_pos hk]
    have key : ∀ m ≤ l, IsGraph ((List.range m).foldl (fun g i => addEdges g (pairs (i * k) (i * k + k))) (emptyGraph (l * k))) (l * k)
          (fun u v => u ≠ v ∧ u < m * k ∧ v < m * k ∧ u / k = v / k) ∧
        ∀ u v, ((List.range m).foldl (fun g i => addEdges g (pairs (i * k) (i * k + k))) (emptyGraph (l * k))).weight u v = none := by
      intro m
      induction m with
      | zero =>
        intro _
        obtain ⟨h1, h2⟩ := emptyGraph_isGraph (l * k)
        exact ⟨h1.congr fun u v => by simp, h2⟩
      | succ m ih =>
        intro hm
        obtain ⟨h1, h2⟩ := ih (by omega)
        rw [List.range_succ, List.foldl_append, List.foldl_cons, List.foldl_nil]
        have hmk : m * k + k ≤ l * k := by
          have := Nat.mul_le_mul_right k hm
          rwa [Nat.succ_mul] at this
        obtain ⟨h3, h4⟩ := addEdges_isGraph h1 h2 (es := pairs (m * k) (m * k + k)) (by
          rintro ⟨a, b⟩ he
          rw [mem_pairs] at he
          dsimp only
          omega)
        refine ⟨h3.congr fun u v => ?_, h4⟩
        rw [mem_pairs, mem_pairs]
        have hdiv : ∀ x, m * k ≤ x → x < m * k + k → x / k = m := by
          intro x hx hx'
          rw [Nat.div_eq_iff (by omega)]
          constructor
          · exact hx
          · omega
        have hdiv' : ∀ x, x < m * k → x / k < m := fun x hx => (Nat.div_lt_iff_lt_mul (by omega)).2 hx
        rw [Nat.succ_mul]
        constructor
        · rintro (⟨a, b, c, d⟩ | ⟨a, b, c⟩ | ⟨a, b, c⟩)
          · exact ⟨a, by omega, by omega, d⟩
          · exact ⟨by omega, by omega, by omega, by rw [hdiv u a (by omega), hdiv v (by omega) c]⟩
          · exact ⟨by omega, by omega, by omega, by rw [hdiv u (by omega) (by omega), hdiv v (by omega) (by omega)]⟩
        · rintro ⟨a, b, c, d⟩
          by_cases hu : u < m * k
          · have hv : v < m * k := by
              by_contra hv
              have := hdiv v (by omega) c
              have := hdiv' u hu
              omega
            exact .inl ⟨a, hu, hv, d⟩
          · have hv : ¬ v < m * k := by
              intro hv
              have := hdiv u (by omega) b
              have := hdiv' v hv
              omega
            rcases lt_or_gt_of_ne a with h | h
            · exact .inr (.inl ⟨by omega, h, c⟩)
            · exact .inr (.inr ⟨by omega, h, b⟩)
    exact key l le_rfl
  · rw [if_neg hk]
    obtain ⟨h1, h2⟩ := emptyGraph_isGraph (l * k)
    refine ⟨h1.congr fun u v => ?_, h2⟩
    constructor
    · intro h; exact h.elim
    · rintro ⟨a, b, c, d⟩
      have : k = 0 ∨ k = 1 := by omega
      rcases this with rfl | rfl
      · simp at b
      · simp at d; exact a d

/-- C107. `generate_caveman_graph(l, k)`: `l` cliques of `k` nodes, no edges between them, weights from the sampler. -/
theorem caveman_spec {R : RandomModule σ} (hR : R.Good) (l k : ℕ) {s : Sampler} (hs : s.Endless) (seed : Option ℤ) (st : σ) :
    ∃ g st', cavemanGraph R l k s seed st = (.ok g, s, st') ∧ IsGraph g (l * k) (CavemanEdge l k) ∧ WeightedBy g s :=
  weightGraph_total hR (caveman_isGraph l k).1 (caveman_isGraph l k).2 hs seed st

theorem mem_steps (a n u v : ℕ) : (u, v) ∈ steps a n ↔ a ≤ u ∧ v = u + 1 ∧ v < a + n := by
  simp only [steps, List.mem_map, List.mem_range, Prod.mk.injEq]
  constructor
  · rintro ⟨i, hi, rfl, rfl⟩; omega
  · rintro ⟨h1, h2, h3⟩; exact ⟨u - a, by omega, by omega, by omega⟩

/-- Specification of ladders: node `i` of the first side and node `n + i` of the second side form rung `i`; rungs next to each other are joined on both sides. -/
def LadderEdge (n u v : ℕ) : Prop := ∃ i j, i < n ∧ j < n ∧
  ((i + 1 = j ∨ j + 1 = i) ∧ ((u = i ∧ v = j) ∨ (u = n + i ∧ v = n + j)) ∨ (i = j ∧ ((u = i ∧ v = n + j) ∨ (u = n + i ∧ v = j))))

theorem ladder_isGraph (n : ℕ) : IsGraph (ladder n) (2 * n) (LadderEdge n) ∧ ∀ u v, (ladder n).weight u v = none := by
  obtain ⟨a1, a2⟩ := emptyGraph_isGraph (2 * n)
  obtain ⟨b1, b2⟩ := addEdges_isGraph a1 a2 (es := steps 0 n) (by rintro ⟨a, b⟩ he; rw [mem_steps] at he; dsimp only; omega)
  obtain ⟨c1, c2⟩ := addEdges_isGraph b1 b2 (es := steps n n) (by rintro ⟨a, b⟩ he; rw [mem_steps] at he; dsimp only; omega)
  obtain ⟨d1, d2⟩ := addEdges_isGraph c1 c2 (es := (List.range n).map fun v => (v, v + n)) (by
    rintro ⟨a, b⟩ he
    simp only [List.mem_map, List.mem_range, Prod.mk.injEq] at he
    obtain ⟨x, hx, rfl, rfl⟩ := he
    dsimp only; omega)
  refine ⟨d1.congr fun u v => ?_, d2⟩
  simp only [mem_steps, List.mem_map, List.mem_range, Prod.mk.injEq]
  constructor
  · rintro (((h | h | h) | h | h) | ⟨i, hi, rfl, rfl⟩ | ⟨i, hi, rfl, rfl⟩)
    · exact h.elim
    · exact ⟨u, v, by omega, by omega, .inl ⟨by omega, .inl ⟨rfl, rfl⟩⟩⟩
    · exact ⟨u, v, by omega, by omega, .inl ⟨by omega, .inl ⟨rfl, rfl⟩⟩⟩
    · exact ⟨u - n, v - n, by omega, by omega, .inl ⟨by omega, .inr ⟨by omega, by omega⟩⟩⟩
    · exact ⟨u - n, v - n, by omega, by omega, .inl ⟨by omega, .inr ⟨by omega, by omega⟩⟩⟩
    · exact ⟨i, i, hi, hi, .inr ⟨rfl, .inl ⟨rfl, by omega⟩⟩⟩
    · exact ⟨i, i, hi, hi, .inr ⟨rfl, .inr ⟨by omega, rfl⟩⟩⟩
  · rintro ⟨i, j, hi, hj, ⟨h, ⟨rfl, rfl⟩ | ⟨rfl, rfl⟩⟩ | ⟨rfl, ⟨rfl, rfl⟩ | ⟨rfl, rfl⟩⟩⟩
    · rcases h with h | h
      · exact .inl (.inl (.inr (.inl (by omega))))
      · exact .inl (.inl (.inr (.inr (by omega))))
    · rcases h with h | h
      · exact .inl (.inr (.inl (by omega)))
      · exact .inl (.inr (.inr (by omega)))
    · exact .inr (.inl ⟨u, hi, rfl, by omega⟩)
    · exact .inr (.inr ⟨v, hi, rfl, by omega⟩)

/-- C107. `generate_ladder_graph(n)`: the ladder with `n` rungs. -/
theorem ladder_spec {R : RandomModule σ} (hR : R.Good) (n : ℕ) {s : Sampler} (hs : s.Endless) (seed : Option ℤ) (st : σ) :
    ∃ g st', ladderGraph R n s seed st = (.ok g, s, st') ∧ IsGraph g (2 * n) (LadderEdge n) ∧ WeightedBy g s :=
  weightGraph_total hR (ladder_isGraph n).1 (ladder_isGraph n).2 hs seed st

/-- Specification of barbells: two cliques of `m` nodes and one edge between them. -/
def BarbellEdge (m u v : ℕ) : Prop := (u ≠ v ∧ ((u < m ∧ v < m) ∨ (m ≤ u ∧ u < 2 * m ∧ m ≤ v ∧ v < 2 * m))) ∨ (u + 1 = m ∧ v = m) ∨ (u = m ∧ v + 1 = m)

theorem barbell_isGraph {m : ℕ} (hm : 2 ≤ m) : ∃ g, barbell m = .ok g ∧ g.Valid ∧ (∀ x, x ∈ g.nodes ↔ x < 2 * m) ∧ (∀ u v, v ∈ g.neighbours u ↔ BarbellEdge m u v) ∧ ∀ u v, g.weight u v = none := by
  obtain ⟨a1, a2⟩ := emptyGraph_isGraph m
  obtain ⟨b1, b2⟩ := addEdges_isGraph a1 a2 (es := pairs 0 m) (by rintro ⟨a, b⟩ he; rw [mem_pairs] at he; dsimp only; omega)
  obtain ⟨c1, c2, c3, -, c5⟩ := addEdges_spec (pairs m (2 * m)) _ b1.1
  refine ⟨_, by rw [barbell, if_neg (by omega)], addEdge_valid c1 _ _, fun x => ?_, fun u v => ?_, fun u v => ?_⟩
  · rw [addEdge_mem_nodes, c3, b1.2.1, List.mem_range]
    constructor
    · rintro ((h | ⟨⟨a, b⟩, he, h⟩) | h | h)
      · omega
      · rw [mem_pairs] at he; dsimp only at h; omega
      · omega
      · omega
    · intro h
      by_cases hx : x < m
      · exact .inl (.inl hx)
      · by_cases h1 : x = m
        · exact .inr (.inr h1)
        · exact .inl (.inr ⟨(m, x), by rw [mem_pairs]; omega, .inr rfl⟩)
  · rw [addEdge_mem, c2, b1.2.2]
    dsimp only
    rw [mem_pairs, mem_pairs, mem_pairs, mem_pairs]
    unfold BarbellEdge
    rw [ne_iff_lt_or_gt]
    constructor
    · rintro ((((h | h) | h) | h) | h)
      all_goals omega
    · rintro (⟨h | h, h'⟩ | h)
      all_goals omega
  · rw [addEdge_none_weight, c5, b2]

/-- C107. `generate_barbell_graph(m)`: for `m ≥ 2` two complete graphs with `m` nodes joined by one edge, weighted by the sampler; for smaller `m` an error of networkx. -/
theorem barbell_spec {R : RandomModule σ} (hR : R.Good) (m : ℕ) {s : Sampler} (hs : s.Endless) (seed : Option ℤ) (st : σ) :
    (2 ≤ m → ∃ g st', barbellGraph R m s seed st = (.ok g, s, st') ∧ g.Valid ∧ (∀ x, x ∈ g.nodes ↔ x < 2 * m) ∧ (∀ u v, v ∈ g.neighbours u ↔ BarbellEdge m u v) ∧ WeightedBy g s) ∧
    (m < 2 → barbellGraph R m s seed st = (.error .networkX, s, st)) := by
  constructor
  · intro hm
    obtain ⟨g, e, h1, h2, h3, h4⟩ := barbell_isGraph hm
    obtain ⟨h, st', a, b, c, d, f⟩ := weightGraph_any hR h1 h4 hs seed st
    exact ⟨h, st', by rw [barbellGraph, e]; exact a, b, fun x => by rw [c]; exact h2 x, fun u v => by rw [d]; exact h3 u v, f⟩
  · intro hm
    rw [barbellGraph, barbell, if_pos hm]

/-- Specification: what networkx promises for the edges of a random regular graph: no loops, all ends below `n`, and every node below `n` in an edge with exactly `d` others. -/
def RegularPairing (pairing : ℕ → ℕ → σ → List (ℕ × ℕ) × σ) (d n : ℕ) : Prop :=
  ∀ st, 0 < d → d < n → n * d % 2 = 0 → (∀ e ∈ (pairing d n st).1, e.1 ≠ e.2 ∧ e.1 < n ∧ e.2 < n) ∧
    ∀ u < n, ((List.range n).filter fun v => decide ((u, v) ∈ (pairing d n st).1 ∨ (v, u) ∈ (pairing d n st).1)).length = d

/-- C107. `generate_random_regular_graph(n, d)`: if `d < n` and `n · d` is even, a graph without loops on the nodes `0, …, n - 1` in which every node has `d` neighbours; else an error of networkx. -/
theorem regular_spec {R : RandomModule σ} (hR : R.Good) {pairing : ℕ → ℕ → σ → List (ℕ × ℕ) × σ} (n d : ℕ) (hp : RegularPairing pairing d n) {s : Sampler} (hs : s.Endless) (seed : Option ℤ) (st : σ) :
    (d < n ∧ n * d % 2 = 0 → ∃ g st', regularGraph R pairing n d s seed st = (.ok g, s, st') ∧ g.Valid ∧ (∀ x, x ∈ g.nodes ↔ x < n) ∧ (∀ u, u ∉ g.neighbours u) ∧
      (∀ u < n, (g.neighbours u).length = d) ∧ WeightedBy g s) ∧
    (¬ (d < n ∧ n * d % 2 = 0) → ∃ st', regularGraph R pairing n d s seed st = (.error .networkX, s, st')) := by
  constructor
  · rintro ⟨hd, hev⟩
    by_cases h0 : d = 0
    · obtain ⟨h1, h2⟩ := emptyGraph_isGraph n
      obtain ⟨h, st', a, b, c⟩ := weightGraph_total hR h1 h2 hs seed (afterState seed st (startState R seed st))
      refine ⟨h, st', ?_, b.1, fun x => by rw [b.2.1, List.mem_range], fun u hu => (b.2.2 u u).1 hu, fun u _ => ?_, c⟩
      · rw [regularGraph, randomRegular, if_neg (by omega), if_neg (by omega), if_pos h0]
        exact a
      · rw [List.length_eq_zero_iff.2 (List.eq_nil_iff_forall_not_mem.2 fun v hv => (b.2.2 u v).1 hv), h0]
    · obtain ⟨p1, p2⟩ := hp (startState R seed st) (by omega) hd hev
      obtain ⟨h1, h2, h3, -, h5⟩ := addEdges_spec (pairing d n (startState R seed st)).1 empty empty_valid
      obtain ⟨h, st', a, b, c, e, f⟩ := weightGraph_any hR h1 (fun u v => by rw [h5]; rfl) hs seed (afterState seed st (pairing d n (startState R seed st)).2)
      have hmem : ∀ u v, v ∈ h.neighbours u ↔ (u, v) ∈ (pairing d n (startState R seed st)).1 ∨ (v, u) ∈ (pairing d n (startState R seed st)).1 := by
        intro u v
        rw [e, h2]
        exact ⟨fun h => h.elim (fun h => nomatch h) id, .inr⟩
      refine ⟨h, st', ?_, b, fun x => ?_, fun u hu => ?_, fun u hu => ?_, f⟩
      · rw [regularGraph, randomRegular, if_neg (by omega), if_neg (by omega), if_neg h0]
        exact a
      · rw [c, h3]
        constructor
        · rintro (h | ⟨e, he, h⟩)
          · cases h
          · have := p1 e he; omega
        · intro hx
          have := p2 x hx
          obtain ⟨v, hv⟩ := List.exists_mem_of_length_pos (by omega : 0 < ((List.range n).filter fun v => decide ((x, v) ∈ (pairing d n (startState R seed st)).1 ∨ (v, x) ∈ (pairing d n (startState R seed st)).1)).length)
          rcases of_decide_eq_true (List.mem_filter.1 hv).2 with hv | hv
          · exact .inr ⟨_, hv, .inl rfl⟩
          · exact .inr ⟨_, hv, .inr rfl⟩
      · rcases (hmem u u).1 hu with h | h <;> exact (p1 _ h).1 rfl
      · rw [← p2 u hu]
        apply List.Perm.length_eq
        rw [List.perm_ext_iff_of_nodup (b.2.1 u) (List.nodup_range.filter _)]
        intro v
        rw [hmem, List.mem_filter, List.mem_range, decide_eq_true_eq]
        constructor
        · intro h
          refine ⟨?_, h⟩
          rcases h with h | h
          · exact (p1 _ h).2.2
          · exact (p1 _ h).2.1
        · exact fun h => h.2
  · intro h
    by_cases h1 : n * d % 2 ≠ 0
    · exact ⟨_, by rw [regularGraph, randomRegular, if_pos h1]⟩
    · exact ⟨_, by rw [regularGraph, randomRegular, if_neg h1, if_pos (by omega)]⟩

/-! ### Erdős-Rényi graphs -/

theorem gnp_spec (R : RandomModule σ) (n : ℕ) (p : ℝ) (st : σ) :
    ∃ es : List (ℕ × ℕ), es.Sublist (pairs 0 n) ∧ (gnp R n p st).1 = addEdges (emptyGraph n) es ∧ (gnp R n p st).1.edges = es ∧
      (p ≤ 0 → es = []) ∧ (1 ≤ p → es = pairs 0 n ∧ (gnp R n p st).2 = st) ∧
      (0 < p → p < 1 → (∀ e, e ∈ es ↔ ∃ k, (pairs 0 n)[k]? = some e ∧ draw R st k < p) ∧ (gnp R n p st).2 = advance R (n.choose 2) st) := by
  have hedges : ∀ es : List (ℕ × ℕ), es.Sublist (pairs 0 n) → (addEdges (emptyGraph n) es).edges = es := by
    intro es hs
    refine addEdges_edges (List.Pairwise.sublist hs (pairs_lex 0 n)) ?_
    rintro ⟨a, b⟩ he
    have := (mem_pairs 0 n a b).1 (hs.subset he)
    dsimp only; omega
  by_cases h0 : p ≤ 0
  · refine ⟨[], List.nil_sublist _, ?_, ?_, fun _ => rfl, fun h => by linarith, fun h => by linarith⟩
    · rw [gnp, if_pos h0]; rfl
    · rw [gnp, if_pos h0]; exact hedges [] (List.nil_sublist _)
  · by_cases h1 : 1 ≤ p
    · refine ⟨pairs 0 n, List.Sublist.refl _, ?_, ?_, fun h => absurd h h0, fun _ => ⟨rfl, ?_⟩, fun _ h => by linarith⟩
      · rw [gnp, if_neg h0, if_pos h1]
      · rw [gnp, if_neg h0, if_pos h1]; exact hedges _ (List.Sublist.refl _)
      · rw [gnp, if_neg h0, if_pos h1]
    · obtain ⟨g1, g2, g3⟩ := gnpLoop_spec R p (pairs 0 n) st
      refine ⟨(gnpLoop R p (pairs 0 n) st).1, g1, ?_, ?_, fun h => absurd h h0, fun h => absurd h h1, fun _ _ => ⟨g3, ?_⟩⟩
      · rw [gnp, if_neg h0, if_neg h1]
      · rw [gnp, if_neg h0, if_neg h1]; exact hedges _ g1
      · rw [gnp, if_neg h0, if_neg h1, ← pairs_length]; exact g2

/-- Specification: the pairs `(u, v)` with `u < v < n` which the numbers `U` connect: pair number `k`, in lexicographic order, is connected if `U k < p`; no number is needed if `p ≤ 0` or `p ≥ 1`. -/
def Connected (n : ℕ) (p : ℝ) (U : ℕ → ℝ) (e : ℕ × ℕ) : Prop := ∃ k, (pairs 0 n)[k]? = some e ∧ 0 < p ∧ (1 ≤ p ∨ U k < p)

/-- What `generate_random_graph_erdos_renyi` returns. -/
theorem erdosRenyi_general (R : RandomModule σ) (n : ℕ) (p : ℝ) {s : Sampler} (hs : s.Endless) (seed : Option ℤ) (st : σ) :
    ∃ (g : Graph ℕ) (es : List (ℕ × ℕ)) (st' : σ), erdosRenyi R n p s seed st = (.ok g, s, st') ∧ g.Valid ∧ g.nodes = List.range n ∧ g.edges = es ∧ es.Sublist (pairs 0 n) ∧
      (∀ e, e ∈ es ↔ Connected n p (draw R (startState R seed st)) e) ∧ (∀ u v, u < v → (v ∈ g.neighbours u ↔ (u, v) ∈ es)) ∧ (∀ u, u ∉ g.neighbours u) ∧
      (∀ u v, v ∉ g.neighbours u → g.weight u v = none) ∧
      ∃ ws : List ℝ, ws.length = es.length ∧
        takeSamples R es.length s (startState R seed (afterState seed st (gnp R n p (startState R seed st)).2)) = (.ok ws, s, st') ∧
        ∀ i (hi : i < es.length) (hi' : i < ws.length), g.weight es[i].1 es[i].2 = some ws[i] ∧ g.weight es[i].2 es[i].1 = some ws[i] := by
  obtain ⟨es, e1, e2, e3, e4, e5, e6⟩ := gnp_spec R n p (startState R seed st)
  have hb : ∀ e ∈ es, e.1 < e.2 ∧ e.2 < n := by
    rintro ⟨a, b⟩ he
    have := (mem_pairs 0 n a b).1 (e1.subset he)
    dsimp only; omega
  obtain ⟨hg, hw0⟩ := fromEmpty (n := n) (es := es) (fun e he => ⟨by have := hb e he; omega, (hb e he).2⟩)
  rw [← e2] at hg hw0
  obtain ⟨ws, st', e⟩ := samples_total R (gnp R n p (startState R seed st)).1.edges.length hs (startState R seed (afterState seed st (gnp R n p (startState R seed st)).2))
  have hr : erdosRenyi R n p s seed st = (.ok (weightEdges (gnp R n p (startState R seed st)).1 fun i => ws.getD i 0), s, st') := by
    unfold erdosRenyi weightGraph
    dsimp only
    rw [e]
  obtain ⟨h1, h2, h3, h4, h5, ws', e', hl, hi⟩ := weightGraph_spec hg.1 (show weightGraph R _ s seed _ = _ from hr)
  refine ⟨_, es, st', hr, h1, h2.trans hg.2.1, h3.trans e3, e1, fun x => ?_, fun u v huv => ?_, fun u hu => ?_, fun u v hv => ?_, ws', by rw [hl, e3], by rw [e3] at e'; exact e', fun i hi1 hi2 => ?_⟩
  · unfold Connected
    by_cases h0 : p ≤ 0
    · rw [e4 h0]
      simp only [List.not_mem_nil, false_iff, not_exists]
      rintro k ⟨-, h, -⟩; linarith
    · by_cases hp : 1 ≤ p
      · rw [(e5 hp).1, List.mem_iff_getElem?]
        exact exists_congr fun k => ⟨fun h => ⟨h, by linarith, .inl hp⟩, fun h => h.1⟩
      · rw [(e6 (by linarith) (by linarith)).1]
        refine exists_congr fun k => ⟨fun h => ⟨h.1, by linarith, .inr h.2⟩, ?_⟩
        rintro ⟨h, -, h' | h'⟩
        · exact absurd h' hp
        · exact ⟨h, h'⟩
  · rw [h4, hg.2.2]
    constructor
    · rintro (h | h)
      · exact h
      · have := hb _ h; dsimp only at this; omega
    · exact .inl
  · rw [h4, hg.2.2] at hu
    rcases hu with h | h <;> · have := hb _ h; dsimp only at this; omega
  · rw [h4] at hv; rw [h5 u v hv, hw0]
  · subst e3
    exact hi i hi1 hi2

/-- C107. `generate_random_graph_erdos_renyi(n, p)` always returns a graph with the nodes `0, …, n - 1` and without loops, whose edges are weighted by the sampler; two nodes are connected
according to the random number for this pair; there are no edges if `p ≤ 0` and all edges if `p ≥ 1`. -/
theorem erdos_renyi_spec {R : RandomModule σ} (hR : R.Good) (n : ℕ) (p : ℝ) {s : Sampler} (hs : s.Endless) (seed : Option ℤ) (st : σ) :
    ∃ g st', erdosRenyi R n p s seed st = (.ok g, s, st') ∧
      IsGraph g n (fun u v => Connected n p (draw R (startState R seed st)) (u, v) ∨ Connected n p (draw R (startState R seed st)) (v, u)) ∧ WeightedBy g s ∧
      (p ≤ 0 → ∀ u v, v ∉ g.neighbours u) ∧ (1 ≤ p → ∀ u v, v ∈ g.neighbours u ↔ u ≠ v ∧ u < n ∧ v < n) := by
  obtain ⟨g, es, st', h1, h2, h3, h4, h5, h6, h7, h8, h9, ws, w1, w2, w3⟩ := erdosRenyi_general R n p hs seed st
  have hmem : ∀ u v, v ∈ g.neighbours u ↔ (u, v) ∈ es ∨ (v, u) ∈ es := by
    intro u v
    rw [(edges_spec h2).1, h4]
  refine ⟨g, st', h1, ⟨h2, h3, fun u v => by rw [hmem, h6, h6]⟩, ⟨fun u v hv => ?_, h9⟩, fun hp u v hv => ?_, fun hp u v => ?_⟩
  · have hy := samples_yield hR _ _ _ (show (takeSamples R es.length s _).1 = .ok ws by rw [w2])
    rcases (hmem u v).1 hv with hm | hm
    · obtain ⟨i, hi, he⟩ := List.mem_iff_getElem.1 hm
      have := w3 i hi (by omega)
      rw [he] at this
      exact ⟨_, this.1, this.2, hy _ (List.getElem_mem _)⟩
    · obtain ⟨i, hi, he⟩ := List.mem_iff_getElem.1 hm
      have := w3 i hi (by omega)
      rw [he] at this
      exact ⟨_, this.2, this.1, hy _ (List.getElem_mem _)⟩
  · rw [hmem, h6, h6] at hv
    rcases hv with ⟨k, -, h, -⟩ | ⟨k, -, h, -⟩ <;> linarith
  · have hc : ∀ e, e ∈ es ↔ e ∈ pairs 0 n := by
      intro e
      rw [h6, List.mem_iff_getElem?]
      exact exists_congr fun k => ⟨fun h => h.1, fun h => ⟨h, by linarith, .inl hp⟩⟩
    rw [hmem, hc, hc, mem_pairs, mem_pairs]
    omega

/-! ### The distribution of Erdős-Rényi graphs -/

variable {Ω : Type} [MeasurableSpace Ω]

/-- Specification: the numbers `U 0, U 1, …` are uniform in `[0, 1)` and independent. -/
def UniformStream (P : Measure Ω) (U : Ω → ℕ → ℝ) : Prop := (∀ k, Uniform P fun ω => U ω k) ∧ iIndepFun (fun k ω => U ω k) P

theorem uniform_real {P : Measure Ω} {U : Ω → ℝ} (hU : Uniform P U) {B : Set ℝ} (hB : MeasurableSet B) : P (U ⁻¹' B) = volume (B ∩ Set.Ico 0 1) := by
  rw [← Measure.map_apply hU.measurable hB, hU.law, Measure.restrict_apply hB]

theorem uniform_lt {P : Measure Ω} {U : Ω → ℝ} (hU : Uniform P U) {p : ℝ} (h1 : p ≤ 1) : P (U ⁻¹' Set.Iio p) = ENNReal.ofReal p := by
  rw [uniform_real hU measurableSet_Iio]
  have : Set.Iio p ∩ Set.Ico 0 1 = Set.Ico 0 p := by
    ext x; simp only [Set.mem_inter_iff, Set.mem_Iio, Set.mem_Ico]
    constructor
    · rintro ⟨a, b, c⟩; exact ⟨b, a⟩
    · rintro ⟨a, b⟩; exact ⟨b, a, by linarith⟩
  rw [this, Real.volume_Ico, sub_zero]

theorem uniform_ge {P : Measure Ω} {U : Ω → ℝ} (hU : Uniform P U) {p : ℝ} (h0 : 0 ≤ p) : P (U ⁻¹' Set.Ici p) = ENNReal.ofReal (1 - p) := by
  rw [uniform_real hU measurableSet_Ici]
  have : Set.Ici p ∩ Set.Ico 0 1 = Set.Ico p 1 := by
    ext x; simp only [Set.mem_inter_iff, Set.mem_Ici, Set.mem_Ico]
    constructor
    · rintro ⟨a, b, c⟩; exact ⟨a, c⟩
    · rintro ⟨a, b⟩; exact ⟨a, by linarith, b⟩
  rw [this, Real.volume_Ico]

/-- The numbers that decide a pair to be an edge or not. -/
def decides (p : ℝ) (b : Prop) [Decidable b] : Set ℝ := if b then Set.Iio p else Set.Ici p

theorem measurable_decides (p : ℝ) (b : Prop) [Decidable b] : MeasurableSet (decides p b) := by
  unfold decides
  by_cases h : b
  · rw [if_pos h]; exact measurableSet_Iio
  · rw [if_neg h]; exact measurableSet_Ici

theorem mem_decides (p : ℝ) (b : Prop) [Decidable b] (x : ℝ) : x ∈ decides p b ↔ (x < p ↔ b) := by
  unfold decides
  by_cases h : b
  · rw [if_pos h]; simp [h]
  · rw [if_neg h]; simp [h]

theorem prod_pairs {n : ℕ} (A : Finset (ℕ × ℕ)) (hA : ∀ e ∈ A, e.1 < e.2 ∧ e.2 < n) (a b : ENNReal) :
    ∏ k ∈ Finset.range (pairs 0 n).length, (if (pairs 0 n).getD k (0, 0) ∈ A then a else b) = a ^ A.card * b ^ (n.choose 2 - A.card) := by
  have hsub : ∀ e ∈ A, e ∈ pairs 0 n := by
    rintro ⟨u, v⟩ he
    have := hA _ he
    dsimp only at this
    rw [mem_pairs]; omega
  have h1 : ∏ k ∈ Finset.range (pairs 0 n).length, (if (pairs 0 n).getD k (0, 0) ∈ A then a else b) = ((pairs 0 n).map fun e => if e ∈ A then a else b).prod := by
    rw [Finset.prod_range, ← List.prod_ofFn]
    congr 1
    apply List.ext_getElem
    · simp
    · intro i h1 h2
      rw [List.getElem_ofFn, List.getElem_map]
      rw [List.getD_eq_getElem]
  rw [h1, ← List.prod_toFinset _ (pairs_nodup 0 n), Finset.prod_ite, Finset.prod_const, Finset.prod_const]
  have h2 : (pairs 0 n).toFinset.filter (· ∈ A) = A := by
    ext e; simp only [Finset.mem_filter, List.mem_toFinset]
    exact ⟨fun h => h.2, fun h => ⟨hsub e h, h⟩⟩
  have h3 : ((pairs 0 n).toFinset.filter (· ∉ A)).card = n.choose 2 - A.card := by
    have := Finset.card_filter_add_card_filter_not (s := (pairs 0 n).toFinset) (· ∈ A)
    rw [h2, List.toFinset_card_of_nodup (pairs_nodup 0 n), pairs_length] at this
    omega
  rw [h2, h3]

/-- Specification: the call returned a graph with exactly the edges `A`. -/
def HasEdges (r : Except GErr (Graph ℕ) × Sampler × σ) (A : Finset (ℕ × ℕ)) : Prop := ∃ g, r.1 = .ok g ∧ ∀ u v, u < v → (v ∈ g.neighbours u ↔ (u, v) ∈ A)

theorem hasEdges_iff (R : RandomModule σ) (n : ℕ) (p : ℝ) {s : Sampler} (hs : s.Endless) (seed : Option ℤ) (st : σ) {A : Finset (ℕ × ℕ)} (hA : ∀ e ∈ A, e.1 < e.2 ∧ e.2 < n) :
    HasEdges (erdosRenyi R n p s seed st) A ↔ ∀ e, Connected n p (draw R (startState R seed st)) e ↔ e ∈ A := by
  obtain ⟨g, es, st', h1, h2, h3, h4, h5, h6, h7, h8, h9, -⟩ := erdosRenyi_general R n p hs seed st
  rw [HasEdges, h1]
  simp only [Except.ok.injEq, exists_eq_left']
  have hlt : ∀ e ∈ es, e.1 < e.2 := by
    rintro ⟨u, v⟩ he
    exact ((mem_pairs 0 n u v).1 (h5.subset he)).2.1
  constructor
  · rintro h ⟨u, v⟩
    rw [← h6]
    constructor
    · intro he; exact (h u v (hlt _ he)).1 ((h7 u v (hlt _ he)).2 he)
    · intro he; exact (h7 u v (hA _ he).1).1 ((h u v (hA _ he).1).2 he)
  · intro h u v huv
    rw [h7 u v huv, h6, h]

theorem connected_iff {n : ℕ} {p : ℝ} (h0 : 0 < p) (h1 : p < 1) (U : ℕ → ℝ) {A : Finset (ℕ × ℕ)} (hA : ∀ e ∈ A, e.1 < e.2 ∧ e.2 < n) :
    (∀ e, Connected n p U e ↔ e ∈ A) ↔ ∀ k ∈ Finset.range (pairs 0 n).length, U k ∈ decides p ((pairs 0 n).getD k (0, 0) ∈ A) := by
  have hnd := pairs_nodup 0 n
  constructor
  · intro h k hk
    rw [Finset.mem_range] at hk
    rw [mem_decides, ← h, List.getD_eq_getElem _ _ hk]
    constructor
    · intro hu; exact ⟨k, List.getElem?_eq_getElem hk, h0, .inr hu⟩
    · rintro ⟨j, hj, -, h' | h'⟩
      · linarith
      · have hj' : j < (pairs 0 n).length := by
          by_contra hc
          rw [List.getElem?_eq_none (by omega)] at hj; cases hj
        rw [List.getElem?_eq_getElem hj', Option.some.injEq] at hj
        rwa [(List.Nodup.getElem_inj_iff hnd).1 hj] at h'
  · intro h e
    constructor
    · rintro ⟨k, hk, -, h' | h'⟩
      · linarith
      · have hk' : k < (pairs 0 n).length := by
          by_contra hc
          rw [List.getElem?_eq_none (by omega)] at hk; cases hk
        have := (mem_decides _ _ _).1 (h k (Finset.mem_range.2 hk'))
        rw [List.getD_eq_getElem _ _ hk'] at this
        rw [List.getElem?_eq_getElem hk', Option.some.injEq] at hk
        rw [← hk]; exact this.1 h'
    · intro he
      obtain ⟨u, v⟩ := e
      have hb := hA _ he
      dsimp only at hb
      obtain ⟨k, hk, e'⟩ := List.mem_iff_getElem.1 ((mem_pairs 0 n u v).2 ⟨Nat.zero_le _, hb.1, hb.2⟩)
      have := (mem_decides _ _ _).1 (h k (Finset.mem_range.2 hk))
      rw [List.getD_eq_getElem _ _ hk, e'] at this
      exact ⟨k, by rw [List.getElem?_eq_getElem hk, e'], h0, .inr (this.2 he)⟩

/-- C107. The Erdős-Rényi distribution: if the numbers of the generator are uniform and independent, `generate_random_graph_erdos_renyi(n, p)` returns each graph on `n` nodes with `m` edges
with probability `p ^ m · (1 - p) ^ (n(n-1)/2 - m)`, whatever the sampler, with and without a seed. -/
theorem erdos_renyi_law (P : Measure Ω) [IsProbabilityMeasure P] {R : Ω → RandomModule σ} {seed : Option ℤ} {st : Ω → σ} (hU : UniformStream P fun ω => draw (R ω) (startState (R ω) seed (st ω)))
    (n : ℕ) {p : ℝ} (hp0 : 0 ≤ p) (hp1 : p ≤ 1) {s : Sampler} (hs : s.Endless) (A : Finset (ℕ × ℕ)) (hA : ∀ e ∈ A, e.1 < e.2 ∧ e.2 < n) :
    P.real {ω | HasEdges (erdosRenyi (R ω) n p s seed (st ω)) A} = p ^ A.card * (1 - p) ^ (n.choose 2 - A.card) := by
  have hset : {ω | HasEdges (erdosRenyi (R ω) n p s seed (st ω)) A} = {ω | ∀ e, Connected n p (draw (R ω) (startState (R ω) seed (st ω))) e ↔ e ∈ A} := by
    ext ω; exact hasEdges_iff (R ω) n p hs seed (st ω) hA
  rw [hset]
  have hsub : A ⊆ (pairs 0 n).toFinset := by
    rintro ⟨u, v⟩ he
    have := hA _ he
    dsimp only at this
    rw [List.mem_toFinset, mem_pairs]; omega
  have hcard : (pairs 0 n).toFinset.card = n.choose 2 := by rw [List.toFinset_card_of_nodup (pairs_nodup 0 n), pairs_length]
  rcases hp0.eq_or_lt with rfl | h0
  · have hno : ∀ (U : ℕ → ℝ) (e : ℕ × ℕ), ¬ Connected n 0 U e := by rintro U e ⟨k, -, h, -⟩; exact lt_irrefl _ h
    by_cases hAe : A = ∅
    · subst hAe
      have : {ω | ∀ e, Connected n 0 (draw (R ω) (startState (R ω) seed (st ω))) e ↔ e ∈ (∅ : Finset (ℕ × ℕ))} = Set.univ := by
        ext ω; simp [hno]
      rw [this]; simp
    · obtain ⟨e, he⟩ := Finset.nonempty_iff_ne_empty.2 hAe
      have : {ω | ∀ e, Connected n 0 (draw (R ω) (startState (R ω) seed (st ω))) e ↔ e ∈ A} = ∅ := by
        ext ω
        simp only [Set.mem_ofPred_eq, Set.mem_empty_iff_false, iff_false]
        exact fun h => hno _ e ((h e).2 he)
      rw [this, zero_pow (Finset.card_ne_zero_of_mem he)]; simp
  · rcases hp1.eq_or_lt with rfl | h1
    · have hall : ∀ (U : ℕ → ℝ) (e : ℕ × ℕ), Connected n 1 U e ↔ e ∈ (pairs 0 n).toFinset := by
        intro U e
        rw [List.mem_toFinset, List.mem_iff_getElem?]
        exact exists_congr fun k => ⟨fun h => h.1, fun h => ⟨h, h0, .inl le_rfl⟩⟩
      by_cases hAe : A = (pairs 0 n).toFinset
      · have : {ω | ∀ e, Connected n 1 (draw (R ω) (startState (R ω) seed (st ω))) e ↔ e ∈ A} = Set.univ := by
          ext ω; simp [hall, hAe]
        rw [this, hAe, hcard]; simp
      · have : {ω | ∀ e, Connected n 1 (draw (R ω) (startState (R ω) seed (st ω))) e ↔ e ∈ A} = ∅ := by
          ext ω
          simp only [Set.mem_ofPred_eq, Set.mem_empty_iff_false, iff_false, hall]
          exact fun h => hAe (Finset.ext fun e => (h e).symm)
        have hlt : A.card < n.choose 2 := by
          rw [← hcard]
          exact Finset.card_lt_card (Finset.ssubset_iff_subset_ne.2 ⟨hsub, hAe⟩)
        rw [this, sub_self, zero_pow (by omega)]; simp
    · have hset : {ω | ∀ e, Connected n p (draw (R ω) (startState (R ω) seed (st ω))) e ↔ e ∈ A} =
          ⋂ k ∈ Finset.range (pairs 0 n).length, (fun ω => draw (R ω) (startState (R ω) seed (st ω)) k) ⁻¹' decides p ((pairs 0 n).getD k (0, 0) ∈ A) := by
        ext ω
        rw [Set.mem_ofPred_eq, connected_iff h0 h1 _ hA]
        simp
      rw [measureReal_def, hset, hU.2.measure_inter_preimage_eq_mul (Finset.range (pairs 0 n).length) (fun k _ => measurable_decides p _)]
      have hf : ∀ k ∈ Finset.range (pairs 0 n).length, P ((fun ω => draw (R ω) (startState (R ω) seed (st ω)) k) ⁻¹' decides p ((pairs 0 n).getD k (0, 0) ∈ A)) =
          if (pairs 0 n).getD k (0, 0) ∈ A then ENNReal.ofReal p else ENNReal.ofReal (1 - p) := by
        intro k _
        by_cases hk : (pairs 0 n).getD k (0, 0) ∈ A
        · rw [if_pos hk, decides, if_pos hk, uniform_lt (hU.1 k) h1.le]
        · rw [if_neg hk, decides, if_neg hk, uniform_ge (hU.1 k) h0.le]
      rw [Finset.prod_congr rfl hf, prod_pairs A hA, ENNReal.toReal_mul, ENNReal.toReal_pow, ENNReal.toReal_pow, ENNReal.toReal_ofReal h0.le, ENNReal.toReal_ofReal (by linarith)]

/-- C107. All graphs with the same number of edges are equally likely. -/
theorem erdos_renyi_equally_likely (P : Measure Ω) [IsProbabilityMeasure P] {R : Ω → RandomModule σ} {seed : Option ℤ} {st : Ω → σ}
    (hU : UniformStream P fun ω => draw (R ω) (startState (R ω) seed (st ω))) (n : ℕ) {p : ℝ} (hp0 : 0 ≤ p) (hp1 : p ≤ 1) {s : Sampler} (hs : s.Endless)
    (A B : Finset (ℕ × ℕ)) (hA : ∀ e ∈ A, e.1 < e.2 ∧ e.2 < n) (hB : ∀ e ∈ B, e.1 < e.2 ∧ e.2 < n) (hc : A.card = B.card) :
    P {ω | HasEdges (erdosRenyi (R ω) n p s seed (st ω)) A} = P {ω | HasEdges (erdosRenyi (R ω) n p s seed (st ω)) B} := by
  have h := erdos_renyi_law P hU n hp0 hp1 hs A hA
  rw [hc, ← erdos_renyi_law P hU n hp0 hp1 hs B hB] at h
  exact (measureReal_eq_measureReal_iff).1 h

/-- Specification: the call returned a graph with exactly the edges `A`, and the weight of each edge `e` is in `B e`. -/
def HasWeights (r : Except GErr (Graph ℕ) × Sampler × σ) (A : Finset (ℕ × ℕ)) (B : ℕ × ℕ → Set ℝ) : Prop :=
  ∃ g, r.1 = .ok g ∧ (∀ u v, u < v → (v ∈ g.neighbours u ↔ (u, v) ∈ A)) ∧ ∀ e ∈ A, ∃ w ∈ B e, g.weight e.1 e.2 = some w

/-- The edges `A` in the order of the graph. -/
def inOrder (n : ℕ) (A : Finset (ℕ × ℕ)) : List (ℕ × ℕ) := (pairs 0 n).filter fun e => decide (e ∈ A)

theorem mem_inOrder {n : ℕ} {A : Finset (ℕ × ℕ)} (hA : ∀ e ∈ A, e.1 < e.2 ∧ e.2 < n) (e : ℕ × ℕ) : e ∈ inOrder n A ↔ e ∈ A := by
  rw [inOrder, List.mem_filter, decide_eq_true_eq]
  refine ⟨fun h => h.2, fun h => ⟨?_, h⟩⟩
  obtain ⟨u, v⟩ := e
  have := hA _ h
  dsimp only at this
  rw [mem_pairs]; omega

theorem inOrder_nodup (n : ℕ) (A : Finset (ℕ × ℕ)) : (inOrder n A).Nodup := (pairs_nodup 0 n).filter _

theorem inOrder_toFinset {n : ℕ} {A : Finset (ℕ × ℕ)} (hA : ∀ e ∈ A, e.1 < e.2 ∧ e.2 < n) : (inOrder n A).toFinset = A := by
  ext e; rw [List.mem_toFinset, mem_inOrder hA]

theorem prod_inOrder {n : ℕ} {A : Finset (ℕ × ℕ)} (hA : ∀ e ∈ A, e.1 < e.2 ∧ e.2 < n) (f : ℕ × ℕ → ENNReal) :
    ∏ k ∈ Finset.range (inOrder n A).length, f ((inOrder n A).getD k (0, 0)) = ∏ e ∈ A, f e := by
  rw [← inOrder_toFinset hA, List.prod_toFinset _ (inOrder_nodup n A), Finset.prod_range, ← List.prod_ofFn, inOrder_toFinset hA]
  congr 1
  apply List.ext_getElem
  · simp
  · intro i h1 h2
    rw [List.getElem_ofFn, List.getElem_map, List.getD_eq_getElem]

/-- Weights from `uniform_sampler(0, 1)`: which numbers of the global generator they are. -/
theorem hasWeights_iff (R : RandomModule σ) (n : ℕ) {p : ℝ} (h0 : 0 < p) (seed : Option ℤ) (st : σ) {A : Finset (ℕ × ℕ)} (hA : ∀ e ∈ A, e.1 < e.2 ∧ e.2 < n) (B : ℕ × ℕ → Set ℝ) :
    HasWeights (erdosRenyi R n p (.uniform 0 1) seed st) A B ↔ (∀ e, Connected n p (draw R (startState R seed st)) e ↔ e ∈ A) ∧
      ∀ k ∈ Finset.range (inOrder n A).length,
        draw R (startState R seed st) ((if seed = none ∧ p < 1 then (pairs 0 n).length else 0) + k) ∈ B ((inOrder n A).getD k (0, 0)) := by
  have hs : (Sampler.uniform 0 1).Endless := trivial
  obtain ⟨g, es, st', h1, h2, h3, h4, h5, h6, h7, h8, h9, ws, w1, w2, w3⟩ := erdosRenyi_general R n p hs seed st
  have hedge := hasEdges_iff R n p hs seed st hA
  rw [HasEdges, h1] at hedge
  simp only [Except.ok.injEq, exists_eq_left'] at hedge
  rw [HasWeights, h1]
  simp only [Except.ok.injEq, exists_eq_left']
  rw [hedge]
  refine and_congr_right fun hc => ?_
  have hes : es = inOrder n A := by
    refine lex_ext (List.Pairwise.sublist h5 (pairs_lex 0 n)) (List.Pairwise.sublist List.filter_sublist (pairs_lex 0 n)) fun e => ?_
    rw [h6, hc]
    exact (mem_inOrder hA e).symm
  subst hes
  -- the state in which the weights are drawn
  have hstart : startState R seed (afterState seed st (gnp R n p (startState R seed st)).2) =
      advance R (if seed = none ∧ p < 1 then (pairs 0 n).length else 0) (startState R seed st) := by
    cases seed with
    | some k => rw [if_neg (by simp)]; rfl
    | none =>
      obtain ⟨_, -, -, -, -, e5, e6⟩ := gnp_spec R n p st
      by_cases hp : p < 1
      · rw [if_pos ⟨rfl, hp⟩, pairs_length]
        exact (e6 h0 hp).2
      · rw [if_neg (fun h => hp h.2)]
        exact (e5 (not_lt.1 hp)).2
  rw [hstart, takeSamples_uniform] at w2
  have hws : ws = (List.range (inOrder n A).length).map fun i => draw R (startState R seed st) ((if seed = none ∧ p < 1 then (pairs 0 n).length else 0) + i) := by
    simp only [Prod.mk.injEq, Except.ok.injEq] at w2
    rw [← w2.1]
    refine List.map_congr_left fun i _ => ?_
    rw [draw_advance]; ring
  constructor
  · intro h k hk
    rw [Finset.mem_range] at hk
    rw [List.getD_eq_getElem _ _ hk]
    obtain ⟨w, hw, e⟩ := h _ ((mem_inOrder hA _).1 (List.getElem_mem hk))
    have := (w3 k hk (by omega)).1
    rw [e, Option.some.injEq] at this
    rw [this] at hw
    simpa [hws] using hw
  · intro h e he
    obtain ⟨k, hk, e'⟩ := List.mem_iff_getElem.1 ((mem_inOrder hA _).2 he)
    have := h k (Finset.mem_range.2 hk)
    rw [List.getD_eq_getElem _ _ hk, e'] at this
    refine ⟨_, this, ?_⟩
    have hw := (w3 k hk (by omega)).1
    rw [e'] at hw
    rw [hw]
    simp [hws]

/-- C107. Without a seed, the weights from `uniform_sampler(0, 1)` are uniform in `[0, 1)`, independent of each other and of the graph: the probability of a graph with the edges `A` and weights in
the sets `B` is the product over the edges of `p` times the size of `B e` in `[0, 1)`, and of `1 - p` over the other pairs. -/
theorem erdos_renyi_weights (P : Measure Ω) [IsProbabilityMeasure P] {R : Ω → RandomModule σ} {st : Ω → σ} (hU : UniformStream P fun ω => draw (R ω) (st ω))
    (n : ℕ) {p : ℝ} (h0 : 0 < p) (h1 : p < 1) (A : Finset (ℕ × ℕ)) (hA : ∀ e ∈ A, e.1 < e.2 ∧ e.2 < n) (B : ℕ × ℕ → Set ℝ) (hB : ∀ e, MeasurableSet (B e)) :
    P.real {ω | HasWeights (erdosRenyi (R ω) n p (.uniform 0 1) none (st ω)) A B} = (∏ e ∈ A, p * volume.real (B e ∩ Set.Ico 0 1)) * (1 - p) ^ (n.choose 2 - A.card) := by
  classical
  let C : ℕ → Set ℝ := fun k => if k < (pairs 0 n).length then decides p ((pairs 0 n).getD k (0, 0) ∈ A) else B ((inOrder n A).getD (k - (pairs 0 n).length) (0, 0))
  have hC : ∀ k, MeasurableSet (C k) := by
    intro k
    by_cases hk : k < (pairs 0 n).length
    · simp only [C, if_pos hk]; exact measurable_decides p _
    · simp only [C, if_neg hk]; exact hB _
  have hset : {ω | HasWeights (erdosRenyi (R ω) n p (.uniform 0 1) none (st ω)) A B} =
      ⋂ k ∈ Finset.range ((pairs 0 n).length + (inOrder n A).length), (fun ω => draw (R ω) (st ω) k) ⁻¹' C k := by
    ext ω
    rw [Set.mem_ofPred_eq, hasWeights_iff (R ω) n h0 none (st ω) hA B, if_pos ⟨rfl, h1⟩, connected_iff h0 h1 _ hA]
    simp only [Set.mem_iInter, Set.mem_preimage, Finset.mem_range]
    constructor
    · rintro ⟨a, b⟩ k hk
      by_cases hk' : k < (pairs 0 n).length
      · simp only [C, if_pos hk']; exact a k hk'
      · simp only [C, if_neg hk']
        have := b (k - (pairs 0 n).length) (by omega)
        rwa [Nat.add_sub_cancel' (by omega)] at this
    · intro h
      refine ⟨fun k hk => ?_, fun k hk => ?_⟩
      · have := h k (by omega)
        simp only [C, if_pos hk] at this
        exact this
      · have := h ((pairs 0 n).length + k) (by omega)
        simp only [C, if_neg (show ¬ (pairs 0 n).length + k < (pairs 0 n).length by omega), Nat.add_sub_cancel_left] at this
        exact this
  rw [measureReal_def, hset, hU.2.measure_inter_preimage_eq_mul _ (fun k _ => hC k), Finset.prod_range_add]
  have hf : ∀ k ∈ Finset.range (pairs 0 n).length, P ((fun ω => draw (R ω) (st ω) k) ⁻¹' C k) =
      if (pairs 0 n).getD k (0, 0) ∈ A then ENNReal.ofReal p else ENNReal.ofReal (1 - p) := by
    intro k hk
    simp only [C, if_pos (Finset.mem_range.1 hk)]
    by_cases hk : (pairs 0 n).getD k (0, 0) ∈ A
    · rw [if_pos hk, decides, if_pos hk, uniform_lt (hU.1 k) h1.le]
    · rw [if_neg hk, decides, if_neg hk, uniform_ge (hU.1 k) h0.le]
  have hg : ∀ k ∈ Finset.range (inOrder n A).length, P ((fun ω => draw (R ω) (st ω) ((pairs 0 n).length + k)) ⁻¹' C ((pairs 0 n).length + k)) =
      volume (B ((inOrder n A).getD k (0, 0)) ∩ Set.Ico 0 1) := by
    intro k _
    simp only [C, if_neg (show ¬ (pairs 0 n).length + k < (pairs 0 n).length by omega), Nat.add_sub_cancel_left]
    exact uniform_real (hU.1 _) (hB _)
  rw [Finset.prod_congr rfl hf, Finset.prod_congr rfl hg, prod_pairs A hA, prod_inOrder hA (fun e => volume (B e ∩ Set.Ico 0 1)), ENNReal.toReal_mul, ENNReal.toReal_mul, ENNReal.toReal_pow,
    ENNReal.toReal_pow, ENNReal.toReal_ofReal h0.le, ENNReal.toReal_ofReal (by linarith), ENNReal.toReal_prod, Finset.prod_mul_distrib, Finset.prod_const]
  simp only [measureReal_def]
  ring

/-- C107. Complete graphs with weights from `uniform_sampler(0, 1)`, with or without a seed: the weights are uniform in `[0, 1)` and independent of each other. -/
theorem complete_weights (P : Measure Ω) [IsProbabilityMeasure P] {R : Ω → RandomModule σ} {seed : Option ℤ} {st : Ω → σ} (hU : UniformStream P fun ω => draw (R ω) (startState (R ω) seed (st ω)))
    (n : ℕ) (B : ℕ × ℕ → Set ℝ) (hB : ∀ e, MeasurableSet (B e)) :
    P.real {ω | HasWeights (erdosRenyi (R ω) n 1 (.uniform 0 1) seed (st ω)) (pairs 0 n).toFinset B} = ∏ e ∈ (pairs 0 n).toFinset, volume.real (B e ∩ Set.Ico 0 1) := by
  have hA : ∀ e ∈ (pairs 0 n).toFinset, e.1 < e.2 ∧ e.2 < n := by
    rintro ⟨u, v⟩ he
    rw [List.mem_toFinset, mem_pairs] at he
    exact he.2
  have hset : {ω | HasWeights (erdosRenyi (R ω) n 1 (.uniform 0 1) seed (st ω)) (pairs 0 n).toFinset B} =
      ⋂ k ∈ Finset.range (inOrder n (pairs 0 n).toFinset).length,
        (fun ω => draw (R ω) (startState (R ω) seed (st ω)) k) ⁻¹' B ((inOrder n (pairs 0 n).toFinset).getD k (0, 0)) := by
    ext ω
    rw [Set.mem_ofPred_eq, hasWeights_iff (R ω) n one_pos seed (st ω) hA B, if_neg (by simp)]
    have hc : ∀ e, Connected n 1 (draw (R ω) (startState (R ω) seed (st ω))) e ↔ e ∈ (pairs 0 n).toFinset := by
      intro e
      rw [List.mem_toFinset, List.mem_iff_getElem?]
      exact exists_congr fun k => ⟨fun h => h.1, fun h => ⟨h, one_pos, .inl le_rfl⟩⟩
    rw [and_iff_right hc]
    simp
  rw [measureReal_def, hset, hU.2.measure_inter_preimage_eq_mul _ (fun k _ => hB _)]
  have hg : ∀ k ∈ Finset.range (inOrder n (pairs 0 n).toFinset).length,
      P ((fun ω => draw (R ω) (startState (R ω) seed (st ω)) k) ⁻¹' B ((inOrder n (pairs 0 n).toFinset).getD k (0, 0))) =
      volume (B ((inOrder n (pairs 0 n).toFinset).getD k (0, 0)) ∩ Set.Ico 0 1) := fun k _ => uniform_real (hU.1 _) (hB _)
  rw [Finset.prod_congr rfl hg, prod_inOrder hA (fun e => volume (B e ∩ Set.Ico 0 1)), ENNReal.toReal_prod]
  rfl

/-! ### Seeds -/

/-- C107. With a seed, the random weights are the very numbers that decided the edges: for every seed, every `0 < p < 1` and every state, if nodes 0 and 1 are connected then the weight of this edge is below `p`.
Without a seed, for two nodes, the weight is at least `p` with probability `p · (1 - p)`. -/
theorem seeded_weights_counterexample :
    (∀ (σ : Type) (R : RandomModule σ) (n : ℕ) (p : ℝ) (k : ℤ) (st : σ), 0 < p → p < 1 → ∀ g, (erdosRenyi R n p (.uniform 0 1) (some k) st).1 = .ok g → 1 ∈ g.neighbours 0 →
      ∃ w < p, g.weight 0 1 = some w) ∧
    ∀ (Ω σ : Type) [MeasurableSpace Ω] (P : Measure Ω) [IsProbabilityMeasure P] (R : Ω → RandomModule σ) (st : Ω → σ) (_ : UniformStream P fun ω => draw (R ω) (st ω)) (p : ℝ), 0 < p → p < 1 →
      P.real {ω | HasWeights (erdosRenyi (R ω) 2 p (.uniform 0 1) none (st ω)) {(0, 1)} fun _ => Set.Ici p} = p * (1 - p) := by
  constructor
  · intro σ R n p k st h0 h1 g hg h01
    have hs : (Sampler.uniform 0 1).Endless := trivial
    obtain ⟨g', es, st', e1, -, -, -, h5, h6, h7, -, -, ws, w1, w2, w3⟩ := erdosRenyi_general R n p hs (some k) st
    rw [e1] at hg
    simp only [Except.ok.injEq] at hg
    subst hg
    have hm : (0, 1) ∈ es := (h7 0 1 (by omega)).1 h01
    obtain ⟨j, hj, -, h | hd⟩ := (h6 _).1 hm
    · linarith
    -- the pair (0, 1) is the first of all pairs, and the first of the edges
    have hfirst : ∀ l : List (ℕ × ℕ), l.Pairwise Lex → (∀ e ∈ l, e.1 < e.2) → (0, 1) ∈ l → l[0]? = some (0, 1) := by
      intro l hl hlt hmem
      cases l with
      | nil => cases hmem
      | cons a l =>
        rcases List.mem_cons.1 hmem with h | h
        · simp [h]
        · have := (List.pairwise_cons.1 hl).1 _ h
          have h2 := hlt a (by simp)
          unfold Lex at this
          dsimp only at this
          omega
    have hn := (mem_pairs 0 n 0 1).1 (h5.subset hm)
    have hp0 : (pairs 0 n)[0]? = some (0, 1) := hfirst _ (pairs_lex 0 n) (by rintro ⟨a, b⟩ he; exact ((mem_pairs 0 n a b).1 he).2.1) (h5.subset hm)
    have hj0 : j = 0 := by
      have hjl : j < (pairs 0 n).length := by
        by_contra hc
        rw [List.getElem?_eq_none (by omega)] at hj; cases hj
      have h0l : 0 < (pairs 0 n).length := by omega
      rw [List.getElem?_eq_getElem hjl, Option.some.injEq] at hj
      rw [List.getElem?_eq_getElem h0l, Option.some.injEq] at hp0
      exact (List.Nodup.getElem_inj_iff (pairs_nodup 0 n)).1 (hj.trans hp0.symm)
    subst hj0
    have he0 : es[0]? = some (0, 1) := hfirst es (List.Pairwise.sublist h5 (pairs_lex 0 n)) (by rintro ⟨a, b⟩ he; exact ((mem_pairs 0 n a b).1 (h5.subset he)).2.1) hm
    have hel : 0 < es.length := List.length_pos_of_mem hm
    rw [List.getElem?_eq_getElem hel, Option.some.injEq] at he0
    have hw := (w3 0 hel (by omega)).1
    rw [he0] at hw
    rw [takeSamples_uniform] at w2
    simp only [Prod.mk.injEq, Except.ok.injEq] at w2
    refine ⟨_, ?_, hw⟩
    have : ws[0]'(by omega) = draw R (R.seed k) 0 := by
      simp only [← w2.1, List.getElem_map, List.getElem_range]
      show (0 : ℝ) + (1 - 0) * draw R (R.seed k) 0 = _
      ring
    rw [this]
    exact hd
  · intro Ω σ _ P _ R st hU p h0 h1
    rw [erdos_renyi_weights P hU 2 h0 h1 {(0, 1)} (by simp) (fun _ => Set.Ici p) (fun _ => measurableSet_Ici)]
    have : Set.Ici p ∩ Set.Ico 0 1 = Set.Ico p 1 := by
      ext x; simp only [Set.mem_inter_iff, Set.mem_Ici, Set.mem_Ico]
      constructor
      · rintro ⟨a, b, c⟩; exact ⟨a, c⟩
      · rintro ⟨a, b⟩; exact ⟨a, by linarith, b⟩
    simp only [this, Finset.prod_singleton, Finset.card_singleton]
    rw [measureReal_def, Real.volume_Ico, ENNReal.toReal_ofReal (by linarith)]
    simp

theorem weightGraph_seeded (R : RandomModule σ) (g : Graph ℕ) (s : Sampler) (k : ℤ) (st st' : σ) : weightGraph R g s (some k) st = weightGraph R g s (some k) st' := rfl

/-- C107. With a seed, `generate_graph_from_specs` returns the same graph with the same weights in every state of the program. -/
theorem specs_seeded (R : RandomModule σ) (pairing : ℕ → ℕ → σ → List (ℕ × ℕ) × σ) (d : Specs) {k : ℤ} (hk : d.seed = some k) (st st' : σ) :
    (fromSpecs R pairing d st).1 = (fromSpecs R pairing d st').1 := by
  obtain ⟨type, n, rw', seed, prob, degree, l, c, len, m⟩ := d
  dsimp only at hk
  subst hk
  unfold fromSpecs
  dsimp only
  cases type with
  | none => rfl
  | some type =>
    cases n with
    | none => rfl
    | some n =>
      dsimp only
      by_cases h1 : type = "erdos_renyi"
      · rw [if_pos h1, if_pos h1]
        cases prob with
        | none => rfl
        | some p => rfl
      rw [if_neg h1, if_neg h1]
      by_cases h2 : type = "regular"
      · rw [if_pos h2, if_pos h2]
        cases degree with
        | none => rfl
        | some d =>
          dsimp only
          unfold regularGraph
          have hs : startState R (some k) st = startState R (some k) st' := rfl
          rw [hs]
          rcases randomRegular pairing d n (startState R (some k) st') with ⟨_ | g, after⟩ <;> rfl
      rw [if_neg h2, if_neg h2]
      by_cases h3 : type = "complete"
      · rw [if_pos h3, if_pos h3]; rfl
      rw [if_neg h3, if_neg h3]
      by_cases h4 : type = "caveman"
      · rw [if_pos h4, if_pos h4]
        cases l <;> cases c <;> rfl
      rw [if_neg h4, if_neg h4]
      by_cases h5 : type = "ladder"
      · rw [if_pos h5, if_pos h5]
        cases len <;> rfl
      rw [if_neg h5, if_neg h5]
      by_cases h6 : type = "barbell"
      · rw [if_pos h6, if_pos h6]
        cases m with
        | none => rfl
        | some m =>
          dsimp only
          unfold barbellGraph
          rcases barbell m with _ | g <;> rfl
      rw [if_neg h6, if_neg h6]

/-- Specification: the weights which the specs ask for. -/
noncomputable def specSampler (d : Specs) : Sampler := if d.randomWeights = some true then .uniform 0 1 else .constant 1

/-- C107. `generate_graph_from_specs`: for each type the graph described by its keys, with weight 1 on each edge or with random weights in `[0, 1)` if asked for; `KeyError` for a missing key and
`NotImplementedError` for an unknown type. -/
theorem specs_spec {R : RandomModule σ} (hR : R.Good) (pairing : ℕ → ℕ → σ → List (ℕ × ℕ) × σ) (d : Specs) (st : σ) :
    (d.typeGraph = none ∨ d.numNodes = none → (fromSpecs R pairing d st).1 = .error .keyError) ∧
    ∀ type n, d.typeGraph = some type → d.numNodes = some n →
      (type = "complete" → ∃ g, (fromSpecs R pairing d st).1 = .ok g ∧ IsGraph g n (fun u v => u ≠ v ∧ u < n ∧ v < n) ∧ WeightedBy g (specSampler d)) ∧
      (type = "erdos_renyi" → (d.probability = none → (fromSpecs R pairing d st).1 = .error .keyError) ∧ ∀ p, d.probability = some p → ∃ g, (fromSpecs R pairing d st).1 = .ok g ∧
        IsGraph g n (fun u v => Connected n p (draw R (startState R d.seed st)) (u, v) ∨ Connected n p (draw R (startState R d.seed st)) (v, u)) ∧ WeightedBy g (specSampler d)) ∧
      (type = "regular" → (d.degree = none → (fromSpecs R pairing d st).1 = .error .keyError) ∧ ∀ k, d.degree = some k → RegularPairing pairing k n → k < n → n * k % 2 = 0 → ∃ g, (fromSpecs R pairing d st).1 = .ok g ∧
        g.Valid ∧ (∀ x, x ∈ g.nodes ↔ x < n) ∧ (∀ u, u ∉ g.neighbours u) ∧ (∀ u < n, (g.neighbours u).length = k) ∧ WeightedBy g (specSampler d)) ∧
      (type = "caveman" → (d.numberOfCliques = none ∨ d.sizeOfCliques = none → (fromSpecs R pairing d st).1 = .error .keyError) ∧
        ∀ l k, d.numberOfCliques = some l → d.sizeOfCliques = some k → ∃ g, (fromSpecs R pairing d st).1 = .ok g ∧ IsGraph g (l * k) (CavemanEdge l k) ∧ WeightedBy g (specSampler d)) ∧
      (type = "ladder" → (d.lengthOfLadder = none → (fromSpecs R pairing d st).1 = .error .keyError) ∧
        ∀ l, d.lengthOfLadder = some l → ∃ g, (fromSpecs R pairing d st).1 = .ok g ∧ IsGraph g (2 * l) (LadderEdge l) ∧ WeightedBy g (specSampler d)) ∧
      (type = "barbell" → (d.numberOfVertices = none → (fromSpecs R pairing d st).1 = .error .keyError) ∧ ∀ m, d.numberOfVertices = some m → 2 ≤ m → ∃ g, (fromSpecs R pairing d st).1 = .ok g ∧
        g.Valid ∧ (∀ x, x ∈ g.nodes ↔ x < 2 * m) ∧ (∀ u v, v ∈ g.neighbours u ↔ BarbellEdge m u v) ∧ WeightedBy g (specSampler d)) ∧
      (type ∉ ["complete", "erdos_renyi", "regular", "caveman", "ladder", "barbell"] → (fromSpecs R pairing d st).1 = .error .notImplemented) := by
  have hsampler : (if d.randomWeights.getD false = true then Sampler.uniform 0 1 else Sampler.constant 1) = specSampler d := by
    unfold specSampler
    rcases d.randomWeights with _ | _ | _ <;> rfl
  have hend : (specSampler d).Endless := by
    unfold specSampler
    by_cases h : d.randomWeights = some true
    · rw [if_pos h]; trivial
    · rw [if_neg h]; trivial
  constructor
  · rintro (h | h)
    · rw [fromSpecs, h]
    · rw [fromSpecs, h]; cases d.typeGraph <;> rfl
  · intro type n ht hn
    unfold fromSpecs
    rw [ht, hn]
    dsimp only
    rw [hsampler]
    refine ⟨?_, ?_, ?_, ?_, ?_, ?_, ?_⟩
    · rintro rfl
      obtain ⟨g, st', h1, h2, h3, -, h5⟩ := erdos_renyi_spec hR n 1 hend d.seed st
      rw [if_neg (by decide), if_neg (by decide), if_pos rfl, h1]
      exact ⟨g, rfl, ⟨h2.1, h2.2.1, h5 le_rfl⟩, h3⟩
    · rintro rfl
      rw [if_pos rfl]
      refine ⟨fun h => by rw [h], fun p h => ?_⟩
      obtain ⟨g, st', h1, h2, h3, -⟩ := erdos_renyi_spec hR n p hend d.seed st
      rw [h]
      dsimp only
      rw [h1]
      exact ⟨g, rfl, h2, h3⟩
    · rintro rfl
      rw [if_neg (by decide), if_pos rfl]
      refine ⟨fun h => by rw [h], fun k h hp hk hev => ?_⟩
      obtain ⟨g, st', h1, h2⟩ := (regular_spec hR n k hp hend d.seed st).1 ⟨hk, hev⟩
      rw [h]
      dsimp only
      rw [h1]
      exact ⟨g, rfl, h2⟩
    · rintro rfl
      rw [if_neg (by decide), if_neg (by decide), if_neg (by decide), if_pos rfl]
      refine ⟨fun h => ?_, fun l k h h' => ?_⟩
      · rcases h with h | h
        · rw [h]
        · rw [h]; cases d.numberOfCliques <;> rfl
      · obtain ⟨g, st', h1, h2⟩ := caveman_spec hR l k hend d.seed st
        rw [h, h']
        dsimp only
        rw [h1]
        exact ⟨g, rfl, h2⟩
    · rintro rfl
      rw [if_neg (by decide), if_neg (by decide), if_neg (by decide), if_neg (by decide), if_pos rfl]
      refine ⟨fun h => by rw [h], fun l h => ?_⟩
      obtain ⟨g, st', h1, h2⟩ := ladder_spec hR l hend d.seed st
      rw [h]
      dsimp only
      rw [h1]
      exact ⟨g, rfl, h2⟩
    · rintro rfl
      rw [if_neg (by decide), if_neg (by decide), if_neg (by decide), if_neg (by decide), if_neg (by decide), if_pos rfl]
      refine ⟨fun h => by rw [h], fun m h hm => ?_⟩
      obtain ⟨g, st', h1, h2⟩ := (barbell_spec hR m hend d.seed st).1 hm
      rw [h]
      dsimp only
      rw [h1]
      exact ⟨g, rfl, h2⟩
    · intro h
      simp only [List.mem_cons, List.not_mem_nil, or_false, not_or] at h
      rw [if_neg h.2.1, if_neg h.2.2.1, if_neg h.1, if_neg h.2.2.2.1, if_neg h.2.2.2.2.1, if_neg h.2.2.2.2.2]

/-- C107. The required key `num_nodes` does not determine the number of nodes: a ladder of length 1 with `num_nodes = 5` has two nodes. -/
theorem specs_nodes_counterexample {R : RandomModule σ} (hR : R.Good) (pairing : ℕ → ℕ → σ → List (ℕ × ℕ) × σ) (st : σ) :
    ∃ g, (fromSpecs R pairing { typeGraph := some "ladder", numNodes := some 5, lengthOfLadder := some 1 } st).1 = .ok g ∧ g.nodes = [0, 1] := by
  obtain ⟨g, h1, h2, -⟩ := ((((((specs_spec hR pairing { typeGraph := some "ladder", numNodes := some 5, lengthOfLadder := some 1 } st).2 "ladder" 5 rfl rfl).2).2).2).2.1 rfl).2 1 rfl
  exact ⟨g, h1, h2.2.1⟩

/-! ### The hypotheses can be met -/

/-- A module `random` whose state is the stream of the numbers it will return; seeds give the stream `f k`. -/
def streamModule (f : ℤ → ℕ → ℝ) : RandomModule (ℕ → ℝ) where
  seed := f
  random s := (s 0, fun k => s (k + 1))
  below _ s := (0, s)
  normal mu _ s := (mu, s)

theorem draw_streamModule (f : ℤ → ℕ → ℝ) (s : ℕ → ℝ) (k : ℕ) : draw (streamModule f) s k = s k := by
  induction k generalizing s with
  | zero => rfl
  | succ k ih => rw [← draw_succ, ih]; rfl

/-- There are independent uniform random numbers; so there is a generator as assumed in the theorems on distributions, with and without a seed. -/
example : ∃ (Ω : Type) (_ : MeasurableSpace Ω) (P : Measure Ω) (_ : IsProbabilityMeasure P) (R : Ω → RandomModule (ℕ → ℝ)) (st : Ω → ℕ → ℝ),
    (UniformStream P fun ω => draw (R ω) (startState (R ω) none (st ω))) ∧ UniformStream P fun ω => draw (R ω) (startState (R ω) (some 7) (st ω)) := by
  obtain ⟨Ω, i, P, hP, U, h1, h2⟩ := uniforms_exist ℕ
  have e : ∀ s : Option ℤ, (fun ω => draw (streamModule fun _ k => U k ω) (startState (streamModule fun _ k => U k ω) s fun k => U k ω)) = fun ω k => U k ω := by
    intro s
    funext ω k
    rw [draw_streamModule]
    cases s <;> rfl
  refine ⟨Ω, i, P, hP, fun ω => streamModule fun _ k => U k ω, fun ω k => U k ω, ?_, ?_⟩
  · rw [e]; exact ⟨h1, h2⟩
  · rw [e]; exact ⟨h1, h2⟩

/-- A module that keeps its promises, and a pairing for the triangle. -/
example : (⟨fun _ => (), fun _ => (1 / 2, ()), fun _ _ => (0, ()), fun mu _ _ => (mu, ())⟩ : RandomModule Unit).Good ∧ RegularPairing (fun _ _ (st : Unit) => ([(0, 1), (1, 2), (2, 0)], st)) 2 3 := by
  refine ⟨⟨fun _ => by norm_num, fun n _ h => h⟩, fun st _ _ _ => by cases st; decide⟩

end ZQ.Graph
