import Verif.Model.RandomGraph
import Verif.Props.Graph
import Mathlib.Algebra.BigOperators.Intervals
import Mathlib.Data.Nat.Choose.Basic
import Mathlib.Data.List.Sort
import Mathlib.Tactic.Tauto

/-! Adding edges to graphs; the order of edges; samples. -/

namespace ZQ.Graph

open ZQ ZQ.PyDict

variable {V : Type} [DecidableEq V]

/-! ### Adding nodes and edges -/

theorem addNode_neighbours (g : Graph V) (u x : V) : (addNode g u).neighbours x = g.neighbours x := by
  unfold addNode
  by_cases h : u ∈ g.nodes
  · rw [if_pos h]
  · rw [if_neg h]
    show (get? (PyDict.set g.adj u []) x).getD [] = (get? g.adj x).getD []
    rw [get?_set]
    by_cases hx : u = x
    · subst hx
      rw [if_pos rfl, (get?_eq_none_iff _ _).2 h]
      rfl
    · rw [if_neg hx]

theorem addNode_nodes (g : Graph V) (u : V) : (addNode g u).nodes = if u ∈ g.nodes then g.nodes else g.nodes ++ [u] := by
  unfold addNode
  by_cases h : u ∈ g.nodes
  · rw [if_pos h, if_pos h]
  · rw [if_neg h, if_neg h]
    show keys (PyDict.set g.adj u []) = _
    rw [keys_set]
    exact if_neg h

theorem addNode_mem (g : Graph V) (u x : V) : x ∈ (addNode g u).nodes ↔ x ∈ g.nodes ∨ x = u := by
  rw [addNode_nodes]
  by_cases h : u ∈ g.nodes
  · rw [if_pos h]
    exact ⟨.inl, fun h' => h'.elim id (fun e => e ▸ h)⟩
  · rw [if_neg h]; simp

theorem addNode_nodup {g : Graph V} (h : g.nodes.Nodup) (u : V) : (addNode g u).nodes.Nodup := by
  rw [addNode_nodes]
  by_cases hu : u ∈ g.nodes
  · rwa [if_pos hu]
  · rw [if_neg hu, List.nodup_append]
    exact ⟨h, by simp, fun a ha b hb e => hu (by rw [List.mem_singleton.1 hb] at e; exact e ▸ ha)⟩

theorem addNode_weight (g : Graph V) (u : V) : (addNode g u).weight = g.weight := by
  unfold addNode
  by_cases h : u ∈ g.nodes
  · rw [if_pos h]
  · rw [if_neg h]

/-- One more neighbour. -/
def consEnd (l : List V) (b : Prop) [Decidable b] (v : V) : List V := if b then (if v ∈ l then l else l ++ [v]) else l

theorem mem_consEnd (l : List V) (b : Prop) [Decidable b] (v x : V) : x ∈ consEnd l b v ↔ x ∈ l ∨ (b ∧ x = v) := by
  unfold consEnd
  by_cases hb : b
  · rw [if_pos hb]
    by_cases hv : v ∈ l
    · rw [if_pos hv]
      exact ⟨.inl, fun h => h.elim id (fun e => e.2 ▸ hv)⟩
    · rw [if_neg hv]; simp [hb]
  · rw [if_neg hb]; simp [hb]

theorem nodup_consEnd {l : List V} (h : l.Nodup) (b : Prop) [Decidable b] (v : V) : (consEnd l b v).Nodup := by
  unfold consEnd
  by_cases hb : b
  · rw [if_pos hb]
    by_cases hv : v ∈ l
    · rwa [if_pos hv]
    · rw [if_neg hv, List.nodup_append]
      exact ⟨h, by simp, fun a ha b hb e => hv (by rw [List.mem_singleton.1 hb] at e; exact e ▸ ha)⟩
  · rwa [if_neg hb]

theorem addEdge_neighbours (g : Graph V) (u v : V) (w : Option ℝ) (x : V) :
    (addEdge g u v w).neighbours x = consEnd (consEnd (g.neighbours x) (u = x) v) (v = x) u := by
  have e : ∀ y, (addNode (addNode g u) v).neighbours y = g.neighbours y := fun y => by rw [addNode_neighbours, addNode_neighbours]
  show (get? (addNeighbour (addNeighbour (addNode (addNode g u) v).adj u v) v u) x).getD [] = _
  rw [get?_addNeighbour, get?_addNeighbour]
  have e' : (get? (addNode (addNode g u) v).adj x).getD [] = g.neighbours x := e x
  rw [e']
  rfl

theorem addEdge_nodes (g : Graph V) (u v : V) (w : Option ℝ) : (addEdge g u v w).nodes = (addNode (addNode g u) v).nodes := by
  show keys (addNeighbour (addNeighbour (addNode (addNode g u) v).adj u v) v u) = _
  have hu : u ∈ keys (addNode (addNode g u) v).adj := (addNode_mem _ _ _).2 (.inl ((addNode_mem _ _ _).2 (.inr rfl)))
  have hv : v ∈ keys (addNode (addNode g u) v).adj := (addNode_mem _ _ _).2 (.inr rfl)
  have h1 := keys_addNeighbour _ u v hu
  rw [keys_addNeighbour _ _ _ (by rw [h1]; exact hv), h1]
  rfl

theorem addEdge_mem_nodes (g : Graph V) (u v : V) (w : Option ℝ) (x : V) : x ∈ (addEdge g u v w).nodes ↔ x ∈ g.nodes ∨ x = u ∨ x = v := by
  rw [addEdge_nodes, addNode_mem, addNode_mem, or_assoc]

theorem addEdge_nodes_same {g : Graph V} {u v : V} (hu : u ∈ g.nodes) (hv : v ∈ g.nodes) (w : Option ℝ) : (addEdge g u v w).nodes = g.nodes := by
  have h1 : (addNode g u).nodes = g.nodes := by rw [addNode_nodes, if_pos hu]
  rw [addEdge_nodes, addNode_nodes, h1, if_pos hv]

theorem addEdge_mem (g : Graph V) (u v : V) (w : Option ℝ) (x y : V) :
    y ∈ (addEdge g u v w).neighbours x ↔ y ∈ g.neighbours x ∨ (x = u ∧ y = v) ∨ (x = v ∧ y = u) := by
  rw [addEdge_neighbours, mem_consEnd, mem_consEnd, or_assoc, eq_comm (a := u), eq_comm (a := v) (b := x)]

theorem addEdge_none_weight (g : Graph V) (u v : V) : (addEdge g u v none).weight = g.weight := by
  funext a b
  have e : (addNode (addNode g u) v).weight = g.weight := by rw [addNode_weight, addNode_weight]
  show (if (a = u ∧ b = v) ∨ (a = v ∧ b = u) then newWeight none ((addNode (addNode g u) v).weight a b) else (addNode (addNode g u) v).weight a b) = _
  rw [e]
  exact ite_self _

theorem addEdge_valid {g : Graph V} (hg : g.Valid) (u v : V) : (addEdge g u v none).Valid := by
  obtain ⟨h1, h2, h3, h4⟩ := hg
  refine ⟨?_, fun x => ?_, fun x y h => ?_, fun x y => ?_⟩
  · rw [addEdge_nodes]
    exact addNode_nodup (addNode_nodup h1 _) _
  · rw [addEdge_neighbours]
    exact nodup_consEnd (nodup_consEnd (h2 x) _ _) _ _
  · rw [addEdge_mem] at h ⊢
    rcases h with h | ⟨rfl, rfl⟩ | ⟨rfl, rfl⟩
    · exact .inl (h3 _ _ h)
    · exact .inr (.inr ⟨rfl, rfl⟩)
    · exact .inr (.inl ⟨rfl, rfl⟩)
  · rw [addEdge_none_weight]; exact h4 x y

theorem addEdges_spec (es : List (ℕ × ℕ)) : ∀ (g : Graph ℕ), g.Valid →
    (addEdges g es).Valid ∧ (∀ u v, v ∈ (addEdges g es).neighbours u ↔ v ∈ g.neighbours u ∨ (u, v) ∈ es ∨ (v, u) ∈ es) ∧
      (∀ x, x ∈ (addEdges g es).nodes ↔ x ∈ g.nodes ∨ ∃ e ∈ es, x = e.1 ∨ x = e.2) ∧
      ((∀ e ∈ es, e.1 ∈ g.nodes ∧ e.2 ∈ g.nodes) → (addEdges g es).nodes = g.nodes) ∧ (addEdges g es).weight = g.weight := by
  induction es with
  | nil => intro g hg; exact ⟨hg, by simp [addEdges], by simp [addEdges], fun _ => rfl, rfl⟩
  | cons e es ih =>
    intro g hg
    obtain ⟨a, b⟩ := e
    have hstep : addEdges g ((a, b) :: es) = addEdges (addEdge g a b none) es := rfl
    obtain ⟨h1, h2, h3, h4, h5⟩ := ih (addEdge g a b none) (addEdge_valid hg a b)
    rw [hstep]
    refine ⟨h1, fun u v => ?_, fun x => ?_, fun h => ?_, ?_⟩
    · rw [h2, addEdge_mem, List.mem_cons, List.mem_cons, Prod.mk.injEq, Prod.mk.injEq]
      tauto
    · rw [h3, addEdge_mem_nodes]
      simp only [List.mem_cons, exists_eq_or_imp, or_assoc]
    · have hab := h (a, b) (by simp)
      rw [h4, addEdge_nodes_same hab.1 hab.2]
      intro e he
      rw [addEdge_nodes_same hab.1 hab.2]
      exact h e (by simp [he])
    · rw [h5, addEdge_none_weight]

theorem empty_valid : (empty : Graph V).Valid := ⟨List.nodup_nil, fun _ => List.nodup_nil, fun _ _ h => (by cases h), fun _ _ => rfl⟩

theorem emptyGraph_eq (n : ℕ) : emptyGraph n = ⟨(List.range n).map fun v => (v, []), fun _ _ => none⟩ := by
  have := addNode_fold (List.range n) List.nodup_range [] (by simp [keys]) (fun _ _ => none)
  exact this

theorem emptyGraph_nodes (n : ℕ) : (emptyGraph n).nodes = List.range n := by
  rw [emptyGraph_eq]
  simp [Graph.nodes, keys, Function.comp_def]

theorem emptyGraph_neighbours (n u : ℕ) : (emptyGraph n).neighbours u = [] := by
  rw [emptyGraph_eq]
  show (get? ((List.range n).map fun v => (v, [])) u).getD [] = []
  cases h : get? ((List.range n).map fun v => (v, ([] : List ℕ))) u with
  | none => rfl
  | some l =>
    have := mem_of_get? h
    obtain ⟨x, -, hx⟩ := List.mem_map.1 this
    exact (Prod.mk.injEq .. ▸ hx).2.symm

theorem emptyGraph_valid (n : ℕ) : (emptyGraph n).Valid := by
  refine ⟨by rw [emptyGraph_nodes]; exact List.nodup_range, fun v => by rw [emptyGraph_neighbours]; exact List.nodup_nil, fun u v h => ?_, fun u v => ?_⟩
  · rw [emptyGraph_neighbours] at h; cases h
  · rw [emptyGraph_eq]

/-! ### Pairs -/

theorem mem_pairs (a b u v : ℕ) : (u, v) ∈ pairs a b ↔ a ≤ u ∧ u < v ∧ v < b := by
  simp only [pairs, List.mem_flatMap, List.mem_range'_1, List.mem_map, Prod.mk.injEq]
  constructor
  · rintro ⟨x, hx, y, hy, rfl, rfl⟩; omega
  · rintro ⟨h1, h2, h3⟩; exact ⟨u, by omega, v, by omega, rfl, rfl⟩

/-- The order in which pairs are listed. -/
def Lex (e f : ℕ × ℕ) : Prop := e.1 < f.1 ∨ (e.1 = f.1 ∧ e.2 < f.2)

theorem range'_pairwise (a n : ℕ) : (List.range' a n).Pairwise (· < ·) := List.pairwise_lt_range' 

theorem pairs_lex (a b : ℕ) : (pairs a b).Pairwise Lex := by
  rw [pairs, List.pairwise_flatMap]
  constructor
  · intro u _
    rw [List.pairwise_map]
    exact (range'_pairwise _ _).imp fun h => .inr ⟨rfl, h⟩
  · refine (range'_pairwise _ _).imp ?_
    intro u u' h x hx y hy
    obtain ⟨_, _, rfl⟩ := List.mem_map.1 hx
    obtain ⟨_, _, rfl⟩ := List.mem_map.1 hy
    exact .inl h

theorem Lex.irrefl (e : ℕ × ℕ) : ¬ Lex e e := by rintro (h | ⟨-, h⟩) <;> omega

theorem Lex.trans {e f g : ℕ × ℕ} (h : Lex e f) (h' : Lex f g) : Lex e g := by
  unfold Lex at *; omega

theorem Lex.asymm {e f : ℕ × ℕ} (h : Lex e f) (h' : Lex f e) : False := Lex.irrefl e (h.trans h')

theorem Lex.nodup {l : List (ℕ × ℕ)} (h : l.Pairwise Lex) : l.Nodup := by
  refine List.Pairwise.imp ?_ h
  intro a b hab e
  rw [e] at hab
  exact Lex.irrefl _ hab

theorem pairs_nodup (a b : ℕ) : (pairs a b).Nodup := Lex.nodup (pairs_lex a b)

theorem pairs_length (n : ℕ) : (pairs 0 n).length = n.choose 2 := by
  rw [pairs, List.length_flatMap]
  simp only [List.length_map, List.length_range']
  rw [Nat.sub_zero, ← List.range_eq_range', Nat.choose_two_right, ← Finset.sum_range_id, ← Finset.sum_range_reflect]
  rw [Finset.sum, Finset.range_val, ← Multiset.coe_range, Multiset.map_coe, Multiset.sum_coe]
  congr 1
  exact List.map_congr_left fun u _ => by omega

/-- Two lists in strict order with the same members are the same. -/
theorem lex_ext {l m : List (ℕ × ℕ)} (hl : l.Pairwise Lex) (hm : m.Pairwise Lex) (h : ∀ e, e ∈ l ↔ e ∈ m) : l = m := by
  refine List.Perm.eq_of_pairwise (le := Lex) (fun a b _ _ h h' => (Lex.asymm h h').elim) hl hm ?_
  exact (List.perm_ext_iff_of_nodup (Lex.nodup hl) (Lex.nodup hm)).2 h

/-- The edges of a graph made from a list of pairs in order are this list. -/
theorem addEdges_edges {n : ℕ} {es : List (ℕ × ℕ)} (hl : es.Pairwise Lex) (hb : ∀ e ∈ es, e.1 < e.2 ∧ e.2 < n) : (addEdges (emptyGraph n) es).edges = es := by
  obtain ⟨hv, hm, -, hnodes, -⟩ := addEdges_spec es (emptyGraph n) (emptyGraph_valid n)
  have hN : (addEdges (emptyGraph n) es).nodes = List.range n := by
    rw [hnodes, emptyGraph_nodes]
    intro e he
    rw [emptyGraph_nodes]
    have := hb e he
    simp; omega
  have hidx : ∀ u, u < n → (List.range n).idxOf u = u := by
    intro u hu
    have := List.Nodup.idxOf_getElem (List.nodup_range (n := n)) u (by simpa using hu)
    simpa using this
  have hfold := linksFold (es.map fun e => (e.1, e.2, (none : Option ℝ))) []
    (by
      rw [List.nil_append, List.pairwise_map]
      refine List.Pairwise.imp_of_mem ?_ hl
      intro e f he hf hef
      have h1 := hb e he
      have h2 := hb f hf
      refine ⟨fun h => ?_, fun h => ?_⟩ <;> simp only [Prod.mk.injEq] at h <;> unfold Lex at hef <;> omega)
    (emptyGraph n)
    (by
      intro e he
      obtain ⟨f, hf, rfl⟩ := List.mem_map.1 he
      rw [emptyGraph_nodes]
      have := hb f hf
      simp; omega)
    (fun u => by rw [emptyGraph_neighbours]; rfl) (by simp) (fun a b _ => by rw [emptyGraph_eq])
  rw [List.foldl_map] at hfold
  have hnb : ∀ u, (addEdges (emptyGraph n) es).neighbours u = es.filterMap (otherEnd u) := by
    intro u
    have := hfold.2.1 u
    rw [List.nil_append, List.filterMap_map] at this
    exact this
  apply lex_ext _ hl
  · rintro ⟨u, v⟩
    rw [mem_edges hv.1, hm, hN, emptyGraph_neighbours]
    constructor
    · rintro ⟨h | h | h, hle⟩
      · cases h
      · exact h
      · have := hb _ h
        dsimp only at this
        rw [hidx u (by omega), hidx v (by omega)] at hle
        omega
    · intro h
      have := hb _ h
      dsimp only at this
      exact ⟨.inr (.inl h), by rw [hidx u (by omega), hidx v (by omega)]; omega⟩
  · rw [edges_eq hv.1, hN, List.pairwise_flatMap]
    constructor
    · intro u hu
      rw [List.pairwise_map, hnb, List.pairwise_filter, List.pairwise_filterMap]
      refine List.Pairwise.imp_of_mem ?_ hl
      intro e f he hf hef x hx y hy hxu hyu
      have h1 := hb e he
      have h2 := hb f hf
      have hun : u < n := by simpa using hu
      have key : ∀ g : ℕ × ℕ, g.1 < g.2 ∧ g.2 < n → ∀ z, otherEnd u g = some z → decide ((List.range n).idxOf u ≤ (List.range n).idxOf z) = true → g = (u, z) := by
        rintro ⟨g1, g2⟩ hg z hz hzu
        dsimp only at hg
        unfold otherEnd at hz
        dsimp only at hz
        by_cases c : g1 = u
        · rw [if_pos c, Option.some.injEq] at hz
          rw [c, hz]
        · rw [if_neg c] at hz
          by_cases c2 : g2 = u
          · rw [if_pos c2, Option.some.injEq] at hz
            rw [hidx u hun, hidx z (by omega), decide_eq_true_eq] at hzu
            omega
          · rw [if_neg c2] at hz; cases hz
      rw [key e h1 x hx hxu, key f h2 y hy hyu] at hef
      exact hef
    · refine List.Pairwise.imp ?_ List.pairwise_lt_range
      intro a b hab x hx y hy
      obtain ⟨_, _, rfl⟩ := List.mem_map.1 hx
      obtain ⟨_, _, rfl⟩ := List.mem_map.1 hy
      exact .inl hab

/-! ### Random numbers -/

variable {σ : Type}

/-- The state after `k` calls of `random()`. -/
def advance (R : RandomModule σ) (k : ℕ) (st : σ) : σ := (fun s => (R.random s).2)^[k] st

/-- The `k`-th of the numbers that `random()` will return. -/
def draw (R : RandomModule σ) (st : σ) (k : ℕ) : ℝ := (R.random (advance R k st)).1

theorem advance_succ (R : RandomModule σ) (k : ℕ) (st : σ) : advance R (k + 1) st = advance R k (R.random st).2 := rfl

theorem advance_add (R : RandomModule σ) (k l : ℕ) (st : σ) : advance R k (advance R l st) = advance R (l + k) st := by
  rw [advance, advance, advance, Nat.add_comm, Function.iterate_add_apply]

theorem draw_succ (R : RandomModule σ) (k : ℕ) (st : σ) : draw R (R.random st).2 k = draw R st (k + 1) := rfl

theorem draw_advance (R : RandomModule σ) (k l : ℕ) (st : σ) : draw R (advance R l st) k = draw R st (l + k) := by
  rw [draw, advance_add, draw]

theorem takeSamples_uniform (R : RandomModule σ) (lo hi : ℝ) : ∀ (k : ℕ) (st : σ),
    takeSamples R k (.uniform lo hi) st = (.ok ((List.range k).map fun i => lo + (hi - lo) * draw R st i), .uniform lo hi, advance R k st) := by
  intro k
  induction k with
  | zero => intro st; rfl
  | succ k ih =>
    intro st
    simp only [takeSamples, Sampler.next, ih]
    rw [List.range_succ_eq_map, List.map_cons, List.map_map]
    rfl

theorem takeSamples_constant (R : RandomModule σ) (v : ℝ) : ∀ (k : ℕ) (st : σ), takeSamples R k (.constant v) st = (.ok (List.replicate k v), .constant v, st) := by
  intro k
  induction k with
  | zero => intro st; rfl
  | succ k ih =>
    intro st
    simp only [takeSamples, Sampler.next, ih]
    rfl

theorem takeSamples_iter (R : RandomModule σ) : ∀ (k : ℕ) (l : List ℝ) (st : σ), takeSamples R k (.iter l) st =
    if k ≤ l.length then (.ok (l.take k), .iter (l.drop k), st) else (.error .stopIteration, .iter [], st) := by
  intro k
  induction k with
  | zero => intro l st; simp [takeSamples]
  | succ k ih =>
    intro l st
    cases l with
    | nil => simp [takeSamples, Sampler.next]
    | cons x l =>
      simp only [takeSamples, Sampler.next, ih]
      by_cases h : k ≤ l.length
      · simp [h]
      · simp [h]

theorem takeSamples_length (R : RandomModule σ) : ∀ (k : ℕ) (s : Sampler) (st : σ) {ws : List ℝ}, (takeSamples R k s st).1 = .ok ws → ws.length = k := by
  intro k
  induction k with
  | zero => intro s st ws h; simp only [takeSamples, Except.ok.injEq] at h; rw [← h]; rfl
  | succ k ih =>
    intro s st ws h
    rw [takeSamples] at h
    rcases e : s.next R st with ⟨_ | w, s', st'⟩
    · rw [e] at h; cases h
    · rw [e] at h
      dsimp only at h
      rcases e' : takeSamples R k s' st' with ⟨_ | vs, s'', st''⟩
      · rw [e'] at h; cases h
      · rw [e'] at h
        simp only [Except.ok.injEq] at h
        rw [← h, List.length_cons, ih s' st' (by rw [e'])]

theorem gnpLoop_spec (R : RandomModule σ) (p : ℝ) : ∀ (es : List (ℕ × ℕ)) (st : σ),
    (gnpLoop R p es st).1.Sublist es ∧ (gnpLoop R p es st).2 = advance R es.length st ∧
      ∀ e, e ∈ (gnpLoop R p es st).1 ↔ ∃ k, es[k]? = some e ∧ draw R st k < p := by
  intro es
  induction es with
  | nil => intro st; simp [gnpLoop, advance]
  | cons e es ih =>
    intro st
    obtain ⟨h1, h2, h3⟩ := ih (R.random st).2
    rw [gnpLoop]
    dsimp only
    have h3' : ∀ f, f ∈ (gnpLoop R p es (R.random st).2).1 ↔ ∃ k, (e :: es)[k + 1]? = some f ∧ draw R st (k + 1) < p := h3
    have h0 : draw R st 0 = (R.random st).1 := rfl
    refine ⟨?_, ?_, fun f => ?_⟩
    · by_cases c : (R.random st).1 < p
      · rw [if_pos c]; exact h1.cons_cons e
      · rw [if_neg c]; exact h1.cons e
    · rw [h2]; rfl
    · by_cases c : (R.random st).1 < p
      · rw [if_pos c, List.mem_cons, h3']
        constructor
        · rintro (rfl | ⟨k, hk⟩)
          · exact ⟨0, rfl, c⟩
          · exact ⟨k + 1, hk⟩
        · rintro ⟨_ | k, h, hk⟩
          · exact .inl (by simpa using h.symm)
          · exact .inr ⟨k, h, hk⟩
      · rw [if_neg c, h3']
        constructor
        · rintro ⟨k, hk⟩; exact ⟨k + 1, hk⟩
        · rintro ⟨_ | k, h, hk⟩
          · exact absurd hk c
          · exact ⟨k, h, hk⟩

end ZQ.Graph
