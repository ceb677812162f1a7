import Verif.Model.Graph
import Verif.Lemmas.PyDict
import Mathlib.Data.List.Infix
import Mathlib.Data.List.Nodup
import Mathlib.Tactic.Linarith

/-! C58: comparison of graphs; C75: edge weights, node numbering, saving and loading of graphs. -/

namespace ZQ.Graph

open ZQ ZQ.PyDict

variable {V : Type} [DecidableEq V]

/-! ## The edges of a graph -/

theorem edgesLoop_eq (adj : PyDict V (List V)) : ∀ (seen : List V), (keys adj).Nodup →
    edgesLoop seen adj = (keys adj).flatMap fun u =>
      (((get? adj u).getD []).filter fun v => decide (v ∉ seen ∧ (keys adj).idxOf u ≤ (keys adj).idxOf v)).map fun v => (u, v) := by
  induction adj with
  | nil => intro seen _; rfl
  | cons p rest ih =>
    obtain ⟨n, nbrs⟩ := p
    intro seen hn
    have hn' : n ∉ keys rest ∧ (keys rest).Nodup := List.nodup_cons.1 hn
    have hk : keys ((n, nbrs) :: rest) = n :: keys rest := rfl
    rw [edgesLoop, ih (n :: seen) hn'.2, hk, List.flatMap_cons]
    congr 1
    · have : get? ((n, nbrs) :: rest) n = some nbrs := by rw [get?, if_pos rfl]
      rw [this, Option.getD_some]
      congr 1
      apply List.filter_congr
      intro v _
      simp
    · apply List.flatMap_congr
      intro u hu
      have hun : n ≠ u := fun e => hn'.1 (e ▸ hu)
      have : get? ((n, nbrs) :: rest) u = get? rest u := by rw [get?, if_neg hun]
      rw [this]
      congr 1
      apply List.filter_congr
      intro v _
      apply decide_eq_decide.2
      rw [List.idxOf_cons_ne _ hun]
      by_cases hv : v = n
      · subst hv; simp
      · rw [List.idxOf_cons_ne _ (Ne.symm hv), List.mem_cons]
        simp [hv]

/-- The edges in terms of the positions of the nodes. -/
theorem edges_eq {g : Graph V} (hn : g.nodes.Nodup) :
    g.edges = g.nodes.flatMap fun u => ((g.neighbours u).filter fun v => decide (g.nodes.idxOf u ≤ g.nodes.idxOf v)).map fun v => (u, v) := by
  rw [Graph.edges, edgesLoop_eq _ _ hn]
  simp only [List.not_mem_nil, not_false_eq_true, true_and]
  rfl

theorem neighbour_node {g : Graph V} {u v : V} (h : v ∈ g.neighbours u) : u ∈ g.nodes := by
  rw [Graph.neighbours] at h
  rw [Graph.nodes, mem_keys_iff]
  cases e : get? g.adj u with
  | none => rw [e] at h; simp at h
  | some l => exact ⟨l, rfl⟩

theorem mem_edges {g : Graph V} (hn : g.nodes.Nodup) (u v : V) :
    (u, v) ∈ g.edges ↔ v ∈ g.neighbours u ∧ g.nodes.idxOf u ≤ g.nodes.idxOf v := by
  rw [edges_eq hn, List.mem_flatMap]
  constructor
  · rintro ⟨w, _, hw⟩
    obtain ⟨x, hx, he⟩ := List.mem_map.1 hw
    obtain ⟨h1, h2⟩ := List.mem_filter.1 hx
    rw [Prod.mk.injEq] at he
    obtain ⟨rfl, rfl⟩ := he
    exact ⟨h1, of_decide_eq_true h2⟩
  · rintro ⟨h1, h2⟩
    exact ⟨u, neighbour_node h1, List.mem_map.2 ⟨v, List.mem_filter.2 ⟨h1, decide_eq_true h2⟩, rfl⟩⟩

/-- `graph.edges` has every undirected edge exactly once, in one of its two directions. -/
theorem edges_spec {g : Graph V} (hg : g.Valid) :
    (∀ u v, v ∈ g.neighbours u ↔ (u, v) ∈ g.edges ∨ (v, u) ∈ g.edges) ∧ g.edges.Nodup ∧
    ∀ u v, (u, v) ∈ g.edges → (v, u) ∈ g.edges → u = v := by
  obtain ⟨hn, hd, hs, _⟩ := hg
  refine ⟨fun u v => ?_, ?_, fun u v h1 h2 => ?_⟩
  · rw [mem_edges hn, mem_edges hn]
    constructor
    · intro h
      rcases le_total (g.nodes.idxOf u) (g.nodes.idxOf v) with hle | hle
      · exact .inl ⟨h, hle⟩
      · exact .inr ⟨hs u v h, hle⟩
    · rintro (⟨h, _⟩ | ⟨h, _⟩)
      · exact h
      · exact hs v u h
  · rw [edges_eq hn, List.nodup_flatMap]
    constructor
    · intro u _
      exact ((hd u).filter _).map fun a b h => (Prod.mk.injEq .. ▸ h).2
    · refine hn.imp ?_
      intro a b hab x hxa hxb
      obtain ⟨_, _, rfl⟩ := List.mem_map.1 hxa
      obtain ⟨_, _, he⟩ := List.mem_map.1 hxb
      exact hab (Prod.mk.injEq .. ▸ he).1.symm
  · rw [mem_edges hn] at h1 h2
    have h := le_antisymm h1.2 h2.2
    exact (List.idxOf_inj (neighbour_node h1.1)).1 h

/-! ## C58: comparison -/

theorem any_zip_ne {α : Type} [DecidableEq α] (l m : List α) : (l.zip m).any (fun p => decide (p.1 ≠ p.2)) = false ↔ l <+: m ∨ m <+: l := by
  induction l generalizing m with
  | nil => simp
  | cons a l ih =>
    cases m with
    | nil => simp
    | cons b m =>
      rw [List.zip_cons_cons, List.any_cons, Bool.or_eq_false_iff, ih, List.cons_prefix_cons, List.cons_prefix_cons]
      simp only [ne_eq, decide_not, Bool.not_eq_false', decide_eq_true_eq]
      constructor
      · rintro ⟨rfl, h | h⟩
        · exact .inl ⟨rfl, h⟩
        · exact .inr ⟨rfl, h⟩
      · rintro (⟨rfl, h⟩ | ⟨rfl, h⟩)
        · exact ⟨rfl, .inl h⟩
        · exact ⟨rfl, .inr h⟩

/-- C58: exactly what `compare_graphs` decides: of the two sequences of nodes one is a prefix of the other, and of the two sequences of edges one is
a prefix of the other. -/
theorem compareGraphs_spec (g h : Graph V) :
    compareGraphs g h = true ↔ (g.nodes <+: h.nodes ∨ h.nodes <+: g.nodes) ∧ (g.edges <+: h.edges ∨ h.edges <+: g.edges) := by
  rw [← any_zip_ne, ← any_zip_ne]
  unfold compareGraphs
  cases (g.nodes.zip h.nodes).any (fun p => decide (p.1 ≠ p.2)) <;> cases (g.edges.zip h.edges).any (fun p => decide (p.1 ≠ p.2)) <;> simp

/-- C58: if the graphs have equally many nodes and edges and compare equal, they have the same nodes and the same edges.  Missing: graphs of
different size, weights, and equal graphs built in a different order (`compareGraphs_counterexample`). -/
theorem compareGraphs_partial {g h : Graph V} (hg : g.Valid) (hh : h.Valid) (hn : g.nodes.length = h.nodes.length)
    (he : g.edges.length = h.edges.length) (hc : compareGraphs g h = true) :
    g.nodes = h.nodes ∧ ∀ u v, v ∈ g.neighbours u ↔ v ∈ h.neighbours u := by
  have key : ∀ {α : Type} {l m : List α}, l.length = m.length → l <+: m ∨ m <+: l → l = m := by
    rintro α l m hl (h | h)
    · exact h.eq_of_length hl
    · exact (h.eq_of_length hl.symm).symm
  obtain ⟨h1, h2⟩ := (compareGraphs_spec g h).1 hc
  have e := key he h2
  exact ⟨key hn h1, fun u v => by rw [(edges_spec hg).1, (edges_spec hh).1, e]⟩

/-- C58: a graph compares equal to itself, whatever its weights are replaced by. -/
theorem compareGraphs_refl (g : Graph V) (w : V → V → Option ℝ) : compareGraphs g ⟨g.adj, w⟩ = true :=
  (compareGraphs_spec _ _).2 ⟨.inl (List.prefix_refl _), .inl (List.prefix_refl _)⟩

/-- The path `0 - 1` with a weight. -/
noncomputable def path2 (w : ℝ) : Graph ℕ := ⟨[(0, [1]), (1, [0])], fun _ _ => some w⟩

theorem path2_valid (w : ℝ) : (path2 w).Valid := by
  refine ⟨show ([0, 1] : List ℕ).Nodup by decide, fun v => ?_, fun u v h => ?_, fun _ _ => rfl⟩
  · show ((get? [(0, [1]), (1, [0])] v).getD [] : List ℕ).Nodup
    rw [get?, get?, get?]
    split
    · simp
    · split <;> simp
  · have hm : ∀ a b : ℕ, b ∈ (path2 w).neighbours a ↔ (a = 0 ∧ b = 1) ∨ (a = 1 ∧ b = 0) := by
      intro a b
      show b ∈ (get? [(0, [1]), (1, [0])] a).getD [] ↔ _
      rw [get?, get?, get?]
      by_cases h0 : 0 = a
      · subst h0; simp
      · by_cases h1 : 1 = a
        · subst h1; simp
        · rw [if_neg h0, if_neg h1]
          simp only [Option.getD_none, List.not_mem_nil, false_iff]
          omega
    rw [hm] at h ⊢
    omega

/-- C58 fails: the graph without nodes equals every graph; weights are not compared; and a graph differs from itself built in another order. -/
theorem compareGraphs_counterexample :
    (compareGraphs (empty : Graph ℕ) (path2 1) = true ∧ (empty : Graph ℕ).nodes ≠ (path2 1).nodes) ∧
    (compareGraphs (path2 1) (path2 2) = true ∧ (path2 1).weight 0 1 ≠ (path2 2).weight 0 1) ∧
    compareGraphs (path2 1) ⟨[(1, [0]), (0, [1])], fun _ _ => some 1⟩ = false := by
  refine ⟨⟨by decide, by decide⟩, ⟨?_, ?_⟩, ?_⟩
  · exact compareGraphs_refl (path2 1) _
  · show (some (1 : ℝ)) ≠ some 2
    simp
  · show compareGraphs _ _ = false
    decide

/-! ## C75: node numbers -/

/-- C75: the `i`-th node is mapped to `i`, and nothing else is in the dictionary. -/
theorem nodeDict_spec (g : Graph V) (hn : g.nodes.Nodup) :
    (∀ i (hi : i < g.nodes.length), get? (nodeDict g) g.nodes[i] = some i) ∧ keys (nodeDict g) = g.nodes := by
  have hk : (g.nodes.zipIdx.map Prod.fst) = g.nodes := List.zipIdx_map_fst _ _
  have he : nodeDict g = g.nodes.zipIdx := ofItems_eq_self (by rw [hk]; exact hn)
  rw [he]
  refine ⟨fun i hi => ?_, hk⟩
  refine get?_of_mem (by rw [keys, hk]; exact hn) ?_
  rw [List.mem_zipIdx_iff_getElem?]
  exact List.getElem?_eq_getElem hi

/-! ## C75: weights -/

theorem set_get_self (d : PyDict V (List V)) (k : V) (v : List V) (h : get? d k = some v) : PyDict.set d k v = d := by
  induction d with
  | nil => rw [get?] at h; cases h
  | cons p d ih =>
    obtain ⟨k', v'⟩ := p
    rw [get?] at h
    rw [PyDict.set]
    by_cases hk : k' = k
    · rw [if_pos hk] at h ⊢
      cases h; rfl
    · rw [if_neg hk] at h ⊢
      rw [ih h]

theorem addNeighbour_self (adj : PyDict V (List V)) (u v : V) (h : v ∈ (get? adj u).getD []) : addNeighbour adj u v = adj := by
  unfold addNeighbour
  dsimp only
  rw [if_pos h]
  cases e : get? adj u with
  | none => rw [e] at h; simp at h
  | some l => exact set_get_self adj u l e

/-- Adding an edge that is there changes its weight only. -/
theorem addEdge_existing {g : Graph V} {u v : V} (h1 : v ∈ g.neighbours u) (h2 : u ∈ g.neighbours v) (w : ℝ) :
    addEdge g u v (some w) = ⟨g.adj, fun a b => if (a = u ∧ b = v) ∨ (a = v ∧ b = u) then some w else g.weight a b⟩ := by
  have e1 : addNode g u = g := by rw [addNode, if_pos (neighbour_node h1)]
  have e2 : addNode g v = g := by rw [addNode, if_pos (neighbour_node h2)]
  unfold addEdge
  rw [e1, e2]
  dsimp only
  rw [addNeighbour_self g.adj u v h1, addNeighbour_self g.adj v u h2]
  rfl

theorem weightFold {g : Graph V} (hg : g.Valid) (samples : ℕ → ℝ) (es : List ((V × V) × ℕ)) (hsub : ∀ e ∈ es, e.1 ∈ g.edges)
    (hd : es.Pairwise fun e f => e.1 ≠ f.1) (g' : Graph V) (hadj : g'.adj = g.adj) :
    let r := es.foldl (fun acc e => addEdge acc e.1.1 e.1.2 (some (samples e.2))) g'
    r.adj = g.adj ∧ (∀ e ∈ es, r.weight e.1.1 e.1.2 = some (samples e.2) ∧ r.weight e.1.2 e.1.1 = some (samples e.2)) ∧
    ∀ a b, (∀ e ∈ es, (a, b) ≠ e.1 ∧ (b, a) ≠ e.1) → r.weight a b = g'.weight a b := by
  obtain ⟨hs1, _, hs3⟩ := edges_spec hg
  induction es generalizing g' with
  | nil => exact ⟨hadj, ⟨fun e he => absurd he List.not_mem_nil, fun _ _ _ => rfl⟩⟩
  | cons e es ih =>
    obtain ⟨⟨u, v⟩, i⟩ := e
    have hmem : (u, v) ∈ g.edges := hsub _ (List.mem_cons_self ..)
    have hnb : ∀ x, g'.neighbours x = g.neighbours x := fun x => by rw [Graph.neighbours, Graph.neighbours, hadj]
    have h1 : v ∈ g'.neighbours u := by rw [hnb]; exact (hs1 u v).2 (.inl hmem)
    have h2 : u ∈ g'.neighbours v := by rw [hnb]; exact (hs1 v u).2 (.inr hmem)
    rw [List.pairwise_cons] at hd
    rw [List.foldl_cons]
    have hstep := addEdge_existing h1 h2 (samples i)
    obtain ⟨r1, r2, r3⟩ := ih (fun e he => hsub e (List.mem_cons_of_mem _ he)) hd.2 (addEdge g' u v (some (samples i))) (by rw [hstep]; exact hadj)
    have hnot : ∀ f ∈ es, (u, v) ≠ f.1 ∧ (v, u) ≠ f.1 := by
      intro f hf
      refine ⟨hd.1 f hf, fun e => ?_⟩
      have hf' : f.1 ∈ g.edges := hsub f (List.mem_cons_of_mem _ hf)
      rw [← e] at hf'
      have := hs3 u v hmem hf'
      subst this
      exact hd.1 f hf e
    refine ⟨r1, fun e he => ?_, fun a b hab => ?_⟩
    · rcases List.mem_cons.1 he with rfl | he
      · constructor
        · rw [r3 u v hnot, hstep]
          exact if_pos (.inl ⟨rfl, rfl⟩)
        · rw [r3 v u fun f hf => ⟨(hnot f hf).2, (hnot f hf).1⟩, hstep]
          exact if_pos (.inr ⟨rfl, rfl⟩)
      · exact r2 e he
    · rw [r3 a b fun f hf => hab f (List.mem_cons_of_mem _ hf), hstep]
      obtain ⟨n1, n2⟩ := hab _ (List.mem_cons_self ..)
      refine if_neg ?_
      rintro (⟨rfl, rfl⟩ | ⟨rfl, rfl⟩)
      · exact n1 rfl
      · exact n2 rfl

/-- C75: weighting changes neither nodes nor edges; the `i`-th edge gets the `i`-th sample, in both directions, so each edge gets its own sample
and none is skipped. -/
theorem weightEdges_spec {g : Graph V} (hg : g.Valid) (samples : ℕ → ℝ) :
    (weightEdges g samples).nodes = g.nodes ∧ (weightEdges g samples).edges = g.edges ∧
    (∀ u, (weightEdges g samples).neighbours u = g.neighbours u) ∧
    (∀ i (hi : i < g.edges.length), (weightEdges g samples).weight g.edges[i].1 g.edges[i].2 = some (samples i) ∧
      (weightEdges g samples).weight g.edges[i].2 g.edges[i].1 = some (samples i)) ∧
    ∀ u v, v ∉ g.neighbours u → (weightEdges g samples).weight u v = g.weight u v := by
  obtain ⟨hs1, hs2, _⟩ := edges_spec hg
  have hmap : g.edges.zipIdx.map Prod.fst = g.edges := List.zipIdx_map_fst _ _
  obtain ⟨r1, r2, r3⟩ := weightFold hg samples g.edges.zipIdx
    (fun e he => by rw [← hmap]; exact List.mem_map.2 ⟨e, he, rfl⟩)
    (by
      have h := hs2
      rw [← hmap, List.Nodup, List.pairwise_map] at h
      exact h) g rfl
  have hw : weightEdges g samples = g.edges.zipIdx.foldl (fun acc e => addEdge acc e.1.1 e.1.2 (some (samples e.2))) g := rfl
  rw [← hw] at r1 r2 r3
  refine ⟨by rw [Graph.nodes, r1]; rfl, by rw [Graph.edges, r1]; rfl, fun u => by rw [Graph.neighbours, r1]; rfl, fun i hi => ?_, fun u v hv => ?_⟩
  · exact r2 (g.edges[i], i) (by rw [List.mem_zipIdx_iff_getElem?]; exact List.getElem?_eq_getElem hi)
  · refine r3 u v fun e he => ?_
    have hmem : e.1 ∈ g.edges := by rw [← hmap]; exact List.mem_map.2 ⟨e, he, rfl⟩
    constructor
    · intro h; exact hv ((hs1 u v).2 (.inl (h ▸ hmem)))
    · intro h; exact hv ((hs1 u v).2 (.inr (h ▸ hmem)))

/-! ## C75: saving and loading -/

/-- The other end of an edge at `u`. -/
def otherEnd (u : V) (e : V × V) : Option V := if e.1 = u then some e.2 else if e.2 = u then some e.1 else none

theorem addNode_fold (l : List V) (hl : l.Nodup) (acc : PyDict V (List V)) (hacc : ∀ v ∈ l, v ∉ keys acc) (w : V → V → Option ℝ) :
    l.foldl addNode ⟨acc, w⟩ = ⟨acc ++ l.map fun v => (v, []), w⟩ := by
  induction l generalizing acc with
  | nil => simp
  | cons v l ih =>
    rw [List.nodup_cons] at hl
    rw [List.foldl_cons]
    have hv : v ∉ keys acc := hacc v (List.mem_cons_self ..)
    have e : addNode (⟨acc, w⟩ : Graph V) v = ⟨acc ++ [(v, [])], w⟩ := by
      rw [addNode]
      refine (if_neg (show ¬ v ∈ (⟨acc, w⟩ : Graph V).nodes from hv)).trans ?_
      rw [set_of_not_mem hv]
    rw [e, ih hl.2, List.map_cons, List.append_assoc]
    · rfl
    · intro x hx hxk
      rw [keys, List.map_append, List.mem_append] at hxk
      rcases hxk with h | h
      · exact hacc x (List.mem_cons_of_mem _ hx) h
      · rw [List.map_cons, List.map_nil, List.mem_singleton] at h
        have h : x = v := h
        exact hl.1 (h ▸ hx)

theorem get?_addNeighbour (adj : PyDict V (List V)) (u v x : V) :
    (get? (addNeighbour adj u v) x).getD [] =
      if u = x then (if v ∈ (get? adj x).getD [] then (get? adj x).getD [] else (get? adj x).getD [] ++ [v]) else (get? adj x).getD [] := by
  unfold addNeighbour
  dsimp only
  rw [get?_set]
  by_cases h : u = x
  · subst h; rw [if_pos rfl, if_pos rfl]; rfl
  · rw [if_neg h, if_neg h]

theorem keys_addNeighbour (adj : PyDict V (List V)) (u v : V) (h : u ∈ keys adj) : keys (addNeighbour adj u v) = keys adj := by
  unfold addNeighbour
  dsimp only
  rw [keys_set, if_pos h]

/-- Loading a list of links, no undirected edge twice, whose ends are nodes. -/
theorem linksFold (ls : List (V × V × Option ℝ)) (done : List (V × V × Option ℝ))
    (hd : (done ++ ls).Pairwise fun e f => (e.1, e.2.1) ≠ (f.1, f.2.1) ∧ (e.1, e.2.1) ≠ (f.2.1, f.1)) (acc : Graph V)
    (hnode : ∀ e ∈ ls, e.1 ∈ acc.nodes ∧ e.2.1 ∈ acc.nodes)
    (hnb : ∀ u, acc.neighbours u = done.filterMap fun e => otherEnd u (e.1, e.2.1))
    (hw : ∀ e ∈ done, acc.weight e.1 e.2.1 = e.2.2 ∧ acc.weight e.2.1 e.1 = e.2.2)
    (hw0 : ∀ a b, (∀ e ∈ done, (a, b) ≠ (e.1, e.2.1) ∧ (b, a) ≠ (e.1, e.2.1)) → acc.weight a b = none) :
    let r := ls.foldl (fun acc l => addEdge acc l.1 l.2.1 l.2.2) acc
    r.nodes = acc.nodes ∧ (∀ u, r.neighbours u = (done ++ ls).filterMap fun e => otherEnd u (e.1, e.2.1)) ∧
    ∀ e ∈ done ++ ls, r.weight e.1 e.2.1 = e.2.2 ∧ r.weight e.2.1 e.1 = e.2.2 := by
  induction ls generalizing acc done with
  | nil => simpa using ⟨hnb, fun a b w h => hw (a, b, w) h⟩
  | cons l ls ih =>
    obtain ⟨u, v, w⟩ := l
    obtain ⟨hu, hv⟩ := hnode _ (List.mem_cons_self ..)
    rw [List.foldl_cons]
    have e1 : addNode acc u = acc := by rw [addNode, if_pos hu]
    have e2 : addNode acc v = acc := by rw [addNode, if_pos hv]
    have hdone : ∀ e ∈ done, (e.1, e.2.1) ≠ (u, v) ∧ (e.1, e.2.1) ≠ (v, u) := by
      intro e he
      exact (List.pairwise_append.1 hd).2.2 e he _ (List.mem_cons_self ..)
    have hstep : addEdge acc u v w = ⟨addNeighbour (addNeighbour acc.adj u v) v u,
        fun a b => if (a = u ∧ b = v) ∨ (a = v ∧ b = u) then newWeight w (acc.weight a b) else acc.weight a b⟩ := by
      unfold addEdge
      rw [e1, e2]
    have hkeys : keys (addNeighbour (addNeighbour acc.adj u v) v u) = keys acc.adj := by
      have h1 : keys (addNeighbour acc.adj u v) = keys acc.adj := keys_addNeighbour _ _ _ hu
      rw [keys_addNeighbour _ _ _ (by rw [h1]; exact hv), h1]
    -- the new neighbours are new
    have hnew : ∀ a b, ((a = u ∧ b = v) ∨ (a = v ∧ b = u)) → b ∉ acc.neighbours a := by
      intro a b hab hb
      rw [hnb, List.mem_filterMap] at hb
      obtain ⟨e, he, ho⟩ := hb
      obtain ⟨n1, n2⟩ := hdone e he
      unfold otherEnd at ho
      dsimp only at ho
      by_cases h1 : e.1 = a
      · rw [if_pos h1, Option.some.injEq] at ho
        rcases hab with ⟨rfl, rfl⟩ | ⟨rfl, rfl⟩
        · exact n1 (by rw [h1, ho])
        · exact n2 (by rw [h1, ho])
      · rw [if_neg h1] at ho
        by_cases h2 : e.2.1 = a
        · rw [if_pos h2, Option.some.injEq] at ho
          rcases hab with ⟨rfl, rfl⟩ | ⟨rfl, rfl⟩
          · exact n2 (by rw [h2, ho])
          · exact n1 (by rw [h2, ho])
        · rw [if_neg h2] at ho; cases ho
    have hnb' : ∀ x, (addEdge acc u v w).neighbours x = (done ++ [(u, v, w)]).filterMap fun e => otherEnd x (e.1, e.2.1) := by
      intro x
      rw [List.filterMap_append, ← hnb x, hstep]
      show (get? (addNeighbour (addNeighbour acc.adj u v) v u) x).getD [] = _
      rw [get?_addNeighbour, get?_addNeighbour]
      show (if v = x then (if u ∈ (if u = x then (if v ∈ acc.neighbours x then acc.neighbours x else acc.neighbours x ++ [v]) else acc.neighbours x) then
          (if u = x then (if v ∈ acc.neighbours x then acc.neighbours x else acc.neighbours x ++ [v]) else acc.neighbours x) else
          (if u = x then (if v ∈ acc.neighbours x then acc.neighbours x else acc.neighbours x ++ [v]) else acc.neighbours x) ++ [u]) else
          (if u = x then (if v ∈ acc.neighbours x then acc.neighbours x else acc.neighbours x ++ [v]) else acc.neighbours x)) = _
      rw [List.filterMap_cons, List.filterMap_nil]
      unfold otherEnd
      dsimp only
      by_cases hux : u = x
      · subst hux
        have n1 : v ∉ acc.neighbours u := hnew u v (.inl ⟨rfl, rfl⟩)
        simp only [if_true, n1, if_false]
        by_cases hvu : v = u
        · subst hvu
          simp
        · simp only [hvu, if_false]
      · simp only [hux, if_false]
        by_cases hvx : v = x
        · subst hvx
          have n2 : u ∉ acc.neighbours v := hnew v u (.inr ⟨rfl, rfl⟩)
          simp [n2]
        · simp [hvx]
    have hwt : ∀ a b, (addEdge acc u v w).weight a b = if (a = u ∧ b = v) ∨ (a = v ∧ b = u) then w else acc.weight a b := by
      intro a b
      rw [hstep]
      dsimp only
      by_cases hab : (a = u ∧ b = v) ∨ (a = v ∧ b = u)
      · rw [if_pos hab, if_pos hab]
        cases w with
        | some x => rfl
        | none =>
          refine hw0 a b fun e he => ?_
          obtain ⟨n1, n2⟩ := hdone e he
          rcases hab with ⟨rfl, rfl⟩ | ⟨rfl, rfl⟩
          · exact ⟨fun h => n1 h.symm, fun h => n2 h.symm⟩
          · exact ⟨fun h => n2 h.symm, fun h => n1 h.symm⟩
      · rw [if_neg hab, if_neg hab]
    have hd' : ((done ++ [(u, v, w)]) ++ ls).Pairwise fun e f => (e.1, e.2.1) ≠ (f.1, f.2.1) ∧ (e.1, e.2.1) ≠ (f.2.1, f.1) := by
      rw [List.append_assoc]; exact hd
    have hnodes : (addEdge acc u v w).nodes = acc.nodes := by rw [hstep]; exact hkeys
    obtain ⟨r1, r2, r3⟩ := ih (done ++ [(u, v, w)]) hd' (addEdge acc u v w)
      (fun e he => by rw [hnodes]; exact hnode e (List.mem_cons_of_mem _ he)) hnb'
      (fun e he => by
        rw [hwt, hwt]
        rcases List.mem_append.1 he with he | he
        · obtain ⟨n1, n2⟩ := hdone e he
          have m1 : ¬ ((e.1 = u ∧ e.2.1 = v) ∨ (e.1 = v ∧ e.2.1 = u)) := by
            rintro (⟨h1, h2⟩ | ⟨h1, h2⟩)
            · exact n1 (by rw [h1, h2])
            · exact n2 (by rw [h1, h2])
          have m2 : ¬ ((e.2.1 = u ∧ e.1 = v) ∨ (e.2.1 = v ∧ e.1 = u)) := by
            rintro (⟨h1, h2⟩ | ⟨h1, h2⟩)
            · exact n2 (by rw [h1, h2])
            · exact n1 (by rw [h1, h2])
          rw [if_neg m1, if_neg m2]
          exact hw e he
        · rw [List.mem_singleton.1 he]
          exact ⟨if_pos (.inl ⟨rfl, rfl⟩), if_pos (.inr ⟨rfl, rfl⟩)⟩)
      (fun a b hab => by
        rw [hwt]
        obtain ⟨n1, n2⟩ := hab _ (List.mem_append_right _ (List.mem_singleton.2 rfl))
        rw [if_neg]
        · exact hw0 a b fun e he => hab e (List.mem_append_left _ he)
        · rintro (⟨rfl, rfl⟩ | ⟨rfl, rfl⟩)
          · exact n1 rfl
          · exact n2 rfl)
    refine ⟨r1.trans hnodes, fun x => ?_, fun e he => ?_⟩
    · rw [r2 x, List.append_assoc]; rfl
    · refine r3 e ?_
      rw [List.append_assoc]; exact he

theorem flatMap_single {α β : Type} [DecidableEq α] (l : List α) (hl : l.Nodup) (u : α) (hu : u ∈ l) (f : α → List β) (h : ∀ w ∈ l, w ≠ u → f w = []) :
    l.flatMap f = f u := by
  induction l with
  | nil => cases hu
  | cons a l ih =>
    rw [List.nodup_cons] at hl
    rw [List.flatMap_cons]
    rcases List.mem_cons.1 hu with rfl | hu
    · have : l.flatMap f = [] := by
        rw [List.flatMap_eq_nil_iff]
        intro w hw
        exact h w (List.mem_cons_of_mem _ hw) fun e => hl.1 (e ▸ hw)
      rw [this, List.append_nil]
    · rw [h a (List.mem_cons_self ..) (fun e => hl.1 (e ▸ hu)), List.nil_append, ih hl.2 hu fun w hw => h w (List.mem_cons_of_mem _ hw)]

/-- C75: a graph that is saved and loaded has the same nodes and edges, in the same order, and the same weights; `compare_graphs` says so. -/
theorem graph_roundtrip {g : Graph V} (hg : g.Valid) :
    (loadGraph (saveGraph g)).nodes = g.nodes ∧ (loadGraph (saveGraph g)).edges = g.edges ∧
    (∀ u v, v ∈ (loadGraph (saveGraph g)).neighbours u ↔ v ∈ g.neighbours u) ∧
    (∀ u v, v ∈ g.neighbours u → (loadGraph (saveGraph g)).weight u v = g.weight u v) ∧
    compareGraphs (loadGraph (saveGraph g)) g = true := by
  obtain ⟨hs1, hs2, hs3⟩ := edges_spec hg
  obtain ⟨hn, hd, hs, hsym⟩ := hg
  have hstart : g.nodes.foldl addNode (empty : Graph V) = ⟨g.nodes.map fun v => (v, []), fun _ _ => none⟩ := by
    have := addNode_fold g.nodes hn [] (fun _ _ h => by cases h) fun _ _ => none
    rw [List.nil_append] at this
    exact this
  have hstartnodes : (⟨g.nodes.map fun v => (v, []), fun _ _ => none⟩ : Graph V).nodes = g.nodes := by
    show (g.nodes.map fun v => (v, ([] : List V))).map Prod.fst = g.nodes
    rw [List.map_map]
    exact List.map_id _
  have hends : ∀ e ∈ g.edges, e.1 ∈ g.nodes ∧ e.2 ∈ g.nodes := by
    rintro ⟨u, v⟩ he
    have h := (hs1 u v).2 (.inl he)
    exact ⟨neighbour_node h, neighbour_node (hs u v h)⟩
  obtain ⟨r1, r2, r3⟩ := linksFold (g.edges.map fun e => (e.1, e.2, g.weight e.1 e.2)) []
    (by
      rw [List.nil_append, List.pairwise_map]
      refine List.Pairwise.imp_of_mem ?_ hs2
      rintro ⟨a, b⟩ ⟨c, d⟩ ha hc hne
      refine ⟨hne, fun e => hne ?_⟩
      dsimp only at e
      rw [Prod.mk.injEq] at e
      obtain ⟨rfl, rfl⟩ := e
      have := hs3 a b ha hc
      rw [this])
    ⟨g.nodes.map fun v => (v, []), fun _ _ => none⟩
    (fun e he => by
      obtain ⟨f, hf, rfl⟩ := List.mem_map.1 he
      rw [hstartnodes]
      exact hends f hf)
    (fun u => by
      show (get? (g.nodes.map fun v => (v, [])) u).getD [] = []
      cases e : get? (g.nodes.map fun v => (v, ([] : List V))) u with
      | none => rfl
      | some l =>
        obtain ⟨_, _, h⟩ := List.mem_map.1 (mem_of_get? e)
        rw [Prod.mk.injEq] at h
        rw [← h.2]; rfl)
    (fun e he => by cases he) (fun _ _ _ => rfl)
  have hload : loadGraph (saveGraph g) = (g.edges.map fun e => (e.1, e.2, g.weight e.1 e.2)).foldl (fun acc l => addEdge acc l.1 l.2.1 l.2.2)
      ⟨g.nodes.map fun v => (v, []), fun _ _ => none⟩ := by
    rw [← hstart]; rfl
  rw [← hload] at r1 r2 r3
  rw [hstartnodes] at r1
  have hnb : ∀ u, (loadGraph (saveGraph g)).neighbours u = g.edges.filterMap (otherEnd u) := by
    intro u
    rw [r2 u, List.nil_append, List.filterMap_map]
    rfl
  have hedges : (loadGraph (saveGraph g)).edges = g.edges := by
    rw [edges_eq (by rw [r1]; exact hn), r1, edges_eq hn]
    apply List.flatMap_congr
    intro u hu
    congr 1
    rw [hnb u, edges_eq hn, List.filterMap_flatMap, List.filter_flatMap, flatMap_single g.nodes hn u hu]
    · rw [List.filterMap_map]
      have : (otherEnd u ∘ fun v => (u, v)) = some := by
        funext v; show (if u = u then some v else _) = some v; rw [if_pos rfl]
      rw [this, List.filterMap_some, List.filter_filter]
      simp
    · intro w hw hwu
      rw [List.filter_eq_nil_iff]
      intro x hx
      obtain ⟨⟨a, b⟩, hab, ho⟩ := List.mem_filterMap.1 hx
      obtain ⟨v, hv, he⟩ := List.mem_map.1 hab
      rw [Prod.mk.injEq] at he
      obtain ⟨rfl, rfl⟩ := he
      have hle := of_decide_eq_true (List.mem_filter.1 hv).2
      unfold otherEnd at ho
      dsimp only at ho
      rw [if_neg hwu] at ho
      by_cases hvu : v = u
      · rw [if_pos hvu, Option.some.injEq] at ho
        subst ho hvu
        intro hc
        have := le_antisymm hle (of_decide_eq_true hc)
        exact hwu ((List.idxOf_inj hw).1 this)
      · rw [if_neg hvu] at ho; cases ho
  refine ⟨r1, hedges, fun u v => ?_, fun u v h => ?_, ?_⟩
  · rw [hnb, List.mem_filterMap, hs1]
    constructor
    · rintro ⟨⟨a, b⟩, hab, ho⟩
      unfold otherEnd at ho
      dsimp only at ho
      by_cases h1 : a = u
      · rw [if_pos h1, Option.some.injEq] at ho
        exact .inl (h1 ▸ ho ▸ hab)
      · rw [if_neg h1] at ho
        by_cases h2 : b = u
        · rw [if_pos h2, Option.some.injEq] at ho
          exact .inr (h2 ▸ ho ▸ hab)
        · rw [if_neg h2] at ho; cases ho
    · rintro (h | h)
      · exact ⟨_, h, if_pos rfl⟩
      · refine ⟨_, h, ?_⟩
        unfold otherEnd
        dsimp only
        by_cases hvu : v = u
        · rw [if_pos hvu, hvu]
        · rw [if_neg hvu, if_pos rfl]
  · rcases (hs1 u v).1 h with h | h
    · exact (r3 _ (List.mem_map.2 ⟨_, h, rfl⟩)).1
    · rw [hsym u v]
      exact (r3 _ (List.mem_map.2 ⟨_, h, rfl⟩)).2
  · rw [compareGraphs_spec, r1, hedges]
    exact ⟨.inl (List.prefix_refl _), .inl (List.prefix_refl _)⟩

/-- A weighted path of two nodes meets the hypotheses, and has an edge. -/
example : (path2 3).Valid ∧ (path2 3).edges = [(0, 1)] := ⟨path2_valid 3, by decide⟩

end ZQ.Graph
