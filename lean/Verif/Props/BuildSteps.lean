import Verif.Model.BuildSteps
import Verif.Props.CircuitSteps
import Verif.Props.Ansatz
import Verif.Props.Generators
import Verif.Props.Layouts
import Verif.Lemmas.Workflow

/-!
# C124: steps that build circuits
-/

namespace ZQ.BuildSteps

open ZQ ZQ.Circuits ZQ.Gates ZQ.Serde ZQ.CircSteps ZQ.Ansatz ZQ.Layouts ZQ.Files ZQ.Workflow ZQ.Results

variable {V σ : Type}

/-- Specification: the circuit can be saved and loaded again (C11 says which circuits can). -/
def Storable (C : Codec) (eq : Expr → Expr → Bool) (c : Circuit) : Prop := ∃ d, circuitToDict C eq c = .ok d ∧ circuitFromDict C d = .ok c

theorem circuitFile_load {C : Codec} {eq : Expr → Expr → Bool} {c : Circuit} (h : Storable C eq c) : ∃ f, circuitFile C eq c = .ok f ∧ loadCircuit C f = .ok c := by
  obtain ⟨d, h1, h2⟩ := h
  exact ⟨.circuit d, by rw [circuitFile, h1]; rfl, h2⟩

/-! ### Ansatzes -/

/-- Specification: the circuit `d` is the circuit `c` with the value `ps[i]` in place of the symbol `symbols[i]`. -/
def Bound (c : Circuit) (symbols : List String) (ps : List ℂ) (d : Circuit) : Prop :=
  d.n = c.n ∧ d.freeSymbols = [] ∧ d.ops.map GateOp.qubits = c.ops.map GateOp.qubits ∧
    List.Forall₂ (fun op op' => ∀ ρ ρ' : String → ℂ, (∀ (i : ℕ) s p, symbols[i]? = some s → ps[i]? = some p → ρ' s = p) → (∀ s, s ∉ symbols → ρ' s = ρ s) →
      (op'.gate.matrix ρ).Same (op.gate.matrix ρ')) c.ops d.ops

/-- C124. `build_ansatz_circuit` with parameters stores the circuit of the ansatz with the i-th parameter in place of the i-th symbol, in increasing order; a wrong number of parameters is a
`ValueError`. Without parameters it stores the circuit with its symbols. -/
theorem ansatz_step {C : Codec} {eq : Expr → Expr → Bool} (K : Class V) (hkey : K.sortKey = Sorting.naturalKey ∨ K.sortKey = Sorting.naturalKeyRevlex) (hs : K.supports = true)
    (st : St V) (hcoh : Coherent K st) (c : Circuit) (hg : K.generate (value K st) none = .ok c) (hb : Bindable c) :
    (∀ ps : List ℂ,
      (ps.length ≠ c.freeSymbols.length → ansatzStep C eq K st (some ps) = .error .valueError) ∧
      (ps.length = c.freeSymbols.length → ∃ symbols : List String, symbols.Perm c.freeSymbols ∧
        symbols.Pairwise (fun a b => Sorting.keyLt (K.sortKey b.toList) (K.sortKey a.toList) = some false) ∧
        ∃ d, Bound c symbols ps d ∧ (Storable C eq d → ∃ f, ansatzStep C eq K st (some ps) = .ok f ∧ loadCircuit C f = .ok d))) ∧
    (Storable C eq c → ∃ f, ansatzStep C eq K st none = .ok f ∧ loadCircuit C f = .ok c) := by
  constructor
  · intro ps
    obtain ⟨symbols, t1, t2, t3, t4⟩ := executable_spec K hkey hs st hcoh c hg hb ps
    constructor
    · intro hl
      rw [ansatzStep, t3 (by rw [t1.length_eq]; exact Ne.symm hl)]
      rfl
    · intro hl
      obtain ⟨d, d1, d2, d3, d4, d5⟩ := t4 (by rw [t1.length_eq]; exact hl.symm)
      refine ⟨symbols, t1, t2, d, ⟨d2, d3, d4, d5⟩, fun hd => ?_⟩
      obtain ⟨f, f1, f2⟩ := circuitFile_load hd
      refine ⟨f, ?_, f2⟩
      rw [ansatzStep, d1]
      exact f1
  · intro hc
    obtain ⟨f, f1, f2⟩ := circuitFile_load hc
    refine ⟨f, ?_, f2⟩
    have := (parametrizedCircuit_spec K st hcoh).1
    rw [if_pos hs, hg] at this
    rw [ansatzStep, if_pos hs, this]
    exact f1

/-- C124. An ansatz that does not support symbols: without parameters the step fails, with parameters it stores the circuit generated for them; the number of parameters is not known. -/
theorem ansatz_step_numeric {C : Codec} {eq : Expr → Expr → Bool} (K : Class V) (hs : K.supports = false) (st : St V) :
    ansatzStep C eq K st none = .error .runtimeError ∧
      (∀ ps c, K.generate (value K st) (some ps) = .ok c → Storable C eq c → ∃ f, ansatzStep C eq K st (some ps) = .ok f ∧ loadCircuit C f = .ok c) ∧
      ∀ (N : NpUniform σ) lo hi seed rng, ansatzParamsStep N K st lo hi seed rng = .error .notImplemented := by
  refine ⟨by rw [ansatzStep, if_neg (by simp [hs])], fun ps c hc hst => ?_, fun N lo hi seed rng => ?_⟩
  · obtain ⟨f, f1, f2⟩ := circuitFile_load hst
    refine ⟨f, ?_, f2⟩
    rw [ansatzStep, ((executable_other K st).2 hs ps).1, hc]
    exact f1
  · rw [ansatzParamsStep, ((executable_other K st).2 hs []).2]

/-- C124. The two steps agree: the random parameters of an ansatz are as many as its symbols, lie between the bounds, are decided by the seed, and `build_ansatz_circuit` stores the circuit
with the i-th of them in place of the i-th symbol. -/
theorem random_ansatz {C : Codec} {eq : Expr → Expr → Bool} (N : NpUniform σ)
    (hN : ∀ a b n st, a ≤ b → (N.uniform a b n st).1.length = n ∧ ∀ x ∈ (N.uniform a b n st).1, a ≤ x ∧ x ≤ b)
    (K : Class V) (hkey : K.sortKey = Sorting.naturalKey ∨ K.sortKey = Sorting.naturalKeyRevlex) (hs : K.supports = true)
    (st : St V) (hcoh : Coherent K st) (c : Circuit) (hg : K.generate (value K st) none = .ok c) (hb : Bindable c) {lo hi : ℝ} (hlo : lo ≤ hi) (seed : Option ℤ) (rng : σ) :
    ∃ ps, ansatzParamsStep N K st lo hi seed rng = .ok ps ∧ ps.length = c.freeSymbols.length ∧ (∀ x ∈ ps, lo ≤ x ∧ x ≤ hi) ∧
      (seed.isSome → ∀ rng', ansatzParamsStep N K st lo hi seed rng' = .ok ps) ∧
      ∃ symbols : List String, symbols.Perm c.freeSymbols ∧ symbols.Pairwise (fun a b => Sorting.keyLt (K.sortKey b.toList) (K.sortKey a.toList) = some false) ∧
        ∃ d, Bound c symbols (ps.map Complex.ofReal) d ∧
          (Storable C eq d → ∃ f, ansatzStep C eq K st (some (ps.map Complex.ofReal)) = .ok f ∧ loadCircuit C f = .ok d) := by
  obtain ⟨ps, p1, p2, p3, p4⟩ := (random_params N hN hlo seed rng c.freeSymbols.length 0).2.2.1
  have hp : ∀ rng', ansatzParamsStep N K st lo hi seed rng' = randomParams N (some c.freeSymbols.length) none lo hi seed rng' := by
    intro rng'
    rw [ansatzParamsStep, numberOfParams_spec K hs st hcoh c hg]
  refine ⟨ps, (hp rng).trans p1, p3, p4, ?_, ?_⟩
  · intro hsd rng'
    obtain ⟨z, rfl⟩ := Option.isSome_iff_exists.1 hsd
    rw [hp, ← p1]
    rfl
  · exact ((ansatz_step K hkey hs st hcoh c hg hb).1 _).2 (by rw [List.length_map]; exact p3)

/-- C124. The steps with the ansatz of `mock_objects.py`, `L` layers on `n` qubits: with the parameters `p_0, …, p_{L-1}` the file holds `RX(p_0)` on every qubit, then `RX(p_1)` on every qubit, and so
on. It needs of the storage of expressions only that numbers can be read back. -/
theorem mock_step {C : Codec} {printable : Expr → Prop} {reserved : String → Prop} (hC : C.Good printable reserved) (hp : ∀ z : ℂ, printable (.num z)) {eq : Expr → Expr → Bool}
    (L n : ℕ) (hn : 0 < n) (st : St ℤ) (hcoh : Coherent mockClass st) (hL : value mockClass st "number_of_layers" = L) (hs : value mockClass st "problem_size" = n) (ps : List ℂ) :
    (ps.length ≠ L → 0 < L → ansatzStep C eq mockClass st (some ps) = .error .valueError) ∧
    (ps.length = L → 0 < L → ∃ f, ansatzStep C eq mockClass st (some ps) = .ok f ∧ loadCircuit C f = .ok ⟨layersOf n (ps.map Expr.num), n⟩) := by
  have hg : mockClass.generate (value mockClass st) none = _ := mockGenerate_none (value mockClass st) L n hL hs
  by_cases hL0 : L = 0
  · exact ⟨fun _ h => by omega, fun _ h => by omega⟩
  rw [if_neg hL0] at hg
  have hspec := executable_spec mockClass (Or.inr rfl) rfl st hcoh _ hg (mock_bindable L n hn) ps
  have hnum := numberOfParams_spec mockClass rfl st hcoh _ hg
  have hlen : Circuit.freeSymbols ⟨layersOf n ((List.range L).map fun i => .sym (theta i)), n⟩ = (List.range L).map theta := mock_freeSymbols L n n hn
  obtain ⟨symbols, t1, -, t3, t4⟩ := hspec
  have hsl : symbols.length = L := by rw [t1.length_eq, hlen, List.length_map, List.length_range]
  refine ⟨fun h _ => ?_, fun h _ => ?_⟩
  · rw [ansatzStep, t3 (by rw [hsl]; exact Ne.symm h)]
    rfl
  · obtain ⟨d, d1, d2, -⟩ := t4 (by rw [hsl]; exact h.symm)
    obtain ⟨-, k, e⟩ := mock_spec L n hn st hcoh hL hs ps h
    rw [e] at d1
    obtain rfl := Except.ok.inj d1
    obtain rfl : k = n := d2
    have hst : Storable C eq ⟨layersOf k (ps.map Expr.num), k⟩ := by
      refine circuit_roundtrip_builtin hC eq _ (fun h0 => absurd h0 (by show k ≠ 0; omega)) (fun op hop => ?_) (fun op hop => ?_)
      · obtain ⟨a, ha, h⟩ := List.mem_flatMap.1 hop
        obtain ⟨q, -, rfl⟩ := List.mem_map.1 h
        obtain ⟨z, -, rfl⟩ := List.mem_map.1 ha
        exact Or.inr ⟨by simp [parametricGates], by simp, fun p hp' => by rw [List.mem_singleton.1 hp']; exact hp z⟩
      · obtain ⟨a, -, h⟩ := List.mem_flatMap.1 hop
        obtain ⟨q, -, rfl⟩ := List.mem_map.1 h
        exact builtin_wf _ (by simp [builtinGates, parametricGates]) _
    obtain ⟨f, f1, f2⟩ := circuitFile_load hst
    refine ⟨f, ?_, f2⟩
    rw [ansatzStep, e]
    exact f1

/-- An ansatz of 12 layers on 3 qubits. -/
example : ∃ st : St ℤ, Coherent mockClass st ∧ value mockClass st "number_of_layers" = (12 : ℕ) ∧ value mockClass st "problem_size" = (3 : ℕ) :=
  ⟨setProp "problem_size" 3 (setProp "number_of_layers" 12 ⟨fun _ => none, none⟩), (by intro c hc; cases hc), rfl, rfl⟩

/-! ### Random circuits -/

/-- C124. `create_random_circuit` for two or more qubits stores a circuit of exactly the number of gates asked for, on no more than the qubits asked for; with a seed the file depends on nothing else. -/
theorem random_circuit_step {τ : Type} {C : Codec} {printable : Expr → Prop} {reserved : String → Prop} (hC : C.Good printable reserved) (hp : ∀ θ : ℝ, printable (.num (θ : ℂ)))
    {eq : Expr → Expr → Bool} (newRng : ℤ → τ) (entropy : τ) {G : Gen τ} (hG : Lawful G) (n k : ℕ) (hn : 2 ≤ n) (seed : Option ℤ) :
    (∃ f c, randomCircuitStep C eq newRng entropy G n k seed = .ok f ∧ loadCircuit C f = .ok c ∧ c.ops.length = k ∧ c.n ≤ n ∧ ∀ op ∈ c.ops, Picked n op) ∧
      (seed.isSome → ∀ entropy', randomCircuitStep C eq newRng entropy' G n k seed = randomCircuitStep C eq newRng entropy G n k seed) := by
  constructor
  · have key : ∃ st, randomCircuitStep C eq newRng entropy G n k seed = (createRandomCircuit G n k st >>= circuitFile C eq) := ⟨_, rfl⟩
    obtain ⟨st, hst⟩ := key
    rcases random_circuit hG n k st with ⟨c, h1, h2, h3, -, h5⟩ | ⟨-, h, -⟩
    · obtain ⟨f, f1, f2⟩ := circuitFile_load ((random_circuit_runs hG h1).2 C printable reserved hC hp eq)
      refine ⟨f, c, ?_, f2, h2, h5, h3⟩
      rw [hst, h1]
      exact f1
    · omega
  · intro hs entropy'
    obtain ⟨z, rfl⟩ := Option.isSome_iff_exists.1 hs
    rfl

/-! ### Ancilla qubits -/

/-- C124. `add_ancilla_register_to_circuit` stores the circuit on `k` more qubits, with one operation on each of the new qubits, that do nothing: its operator is the one of the circuit on the
larger register. A circuit that cannot be loaded is an error. -/
theorem ancilla_step {C : Codec} {eq : Expr → Expr → Bool} (k : ℕ) (c : Circuit) :
    (∃ new : List GateOp, new.map GateOp.qubits = (List.range k).map (fun i => [c.n + i]) ∧
      (∀ ρ, opsOperator (c.n + k) ρ (c.ops ++ new) = opsOperator (c.n + k) ρ c.ops) ∧
      (Storable C eq ⟨c.ops ++ new, c.n + k⟩ → ∃ f, ancillaStep C eq k (.ok c) = .ok f ∧ loadCircuit C f = .ok ⟨c.ops ++ new, c.n + k⟩)) ∧
    ∀ e, ancillaStep C eq k (.error e) = .error e := by
  refine ⟨?_, fun e => rfl⟩
  obtain ⟨new, n1, n2, -, -⟩ := ancilla_spec c k (fun _ => 0)
  refine ⟨new, n2, fun ρ => ?_, fun hst => ?_⟩
  · obtain ⟨new', m1, -, -, m4⟩ := ancilla_spec c k ρ
    have hnn : new' = new := by
      have := n1.symm.trans m1
      simp only [Except.ok.injEq, Circuit.mk.injEq, List.append_cancel_left_eq, and_true] at this
      exact this.symm
    subst hnn
    have : ∀ l : List (Matrix (Fin (c.n + k) → Bool) (Fin (c.n + k) → Bool) ℂ), (∀ x ∈ l, x = 1) → l.prod = 1 := fun l hl => List.prod_eq_one hl
    rw [opsOperator, List.reverse_append, List.map_append, List.prod_append, this _ (by
      intro x hx
      obtain ⟨o, ho, rfl⟩ := List.mem_map.1 hx
      exact m4 o (List.mem_reverse.1 ho)), one_mul]
    rfl
  · obtain ⟨f, f1, f2⟩ := circuitFile_load hst
    refine ⟨f, ?_, f2⟩
    show (addAncillaRegister c k >>= circuitFile C eq) = _
    rw [n1]
    exact f1

/-! ### Layers -/

theorem pair_plain (l : List (ℕ × ℕ)) : ∀ g ∈ l.map pairData, ∀ x ∈ g, Plain x := by
  intro g hg x hx
  obtain ⟨e, -, rfl⟩ := List.mem_map.1 hg
  rcases List.mem_cons.1 hx with rfl | hx
  · exact (by rw [Plain, dumps])
  · rw [List.mem_singleton] at hx; subst hx; exact (by rw [Plain, dumps])

theorem layers_dump (l : List (List (ℕ × ℕ))) : ∃ j, dumps (record (.layers (l.map fun l => l.map pairData))) = .ok j := by
  have h1 : ∀ l : List (List (ℕ × ℕ)), dumpsList ((l.map fun l => l.map pairData).map fun layer => .list (layer.map .tup)) =
      .ok ((l.map fun l => l.map pairData).map fun layer => .list (layer.map .list)) := by
    intro l
    induction l with
    | nil => rfl
    | cons x l ih =>
      rw [List.map_cons, List.map_cons, dumpsList, dumps, dumpsList_tups (pair_plain x), ih]
      rfl
  refine ⟨.dict [("layers".toList, .list ((l.map fun l => l.map pairData).map fun layer => .list (layer.map .list))), ("schema".toList, txt "zapata-v1-circuit_layers")], ?_⟩
  show dumps (layersRecord _) = _
  rw [layersRecord, dumps, dumpsItems, dumps, h1, dumpsItems, txt, dumps]
  rfl

theorem connectivity_dump (l : List (ℕ × ℕ)) : ∃ j, dumps (record (.connectivity (l.map pairData))) = .ok j := by
  refine ⟨.dict [("connectivity".toList, .list ((l.map pairData).map .list)), ("schema".toList, txt "zapata-v1-circuit_connectivity")], ?_⟩
  show dumps (connectivityRecord _) = _
  rw [connectivityRecord, dumps, dumpsItems, dumps, dumpsList_tups (pair_plain l), dumpsItems, txt, dumps]
  rfl

theorem save_any {fs : FS} {name : String} {a : Artefact} {j : Data} (hj : dumps (record a) = .ok j) :
    ∃ fs', save fs name a = .ok fs' ∧ Holds fs' name.toList a ∧ ∀ p, p ≠ name.toList → fs' p = fs p := by
  obtain ⟨h1, h2⟩ := saveTo_holds fs (.str name.toList) a (p := name.toList) rfl hj
  refine ⟨(saveTo fs (.str name.toList) a).1, ?_, ⟨j, hj, h2⟩, fun p hp => saveTo_other fs _ a fun h => hp h.symm⟩
  rw [save]
  cases h : saveTo fs (.str name.toList) a with
  | mk f o =>
    rw [h] at h1
    dsimp only at h1
    subst h1
    rfl

/-- Specification: a pair of qubits in a file. -/
def stored (e : ℕ × ℕ) : List Data := [Data.num e.1, Data.num e.2]

theorem stored_eq : pairData = stored := rfl

/-- C124. When the layout exists, the two files hold its layers and its connectivity and no other file changes. -/
theorem layers_stored (fs : FS) (x : ℕ) (y : Option ℕ) (t : String) (L : Layout) (h : buildOptional x y t = .ok (some L)) :
    ∃ fs', layersStep fs x y t = .ok fs' ∧
      loadLayers fs' (.str "circuit-layers.json".toList) = .ok (L.layers.map fun l => l.map stored) ∧
      loadConnectivity fs' (.str "circuit-connectivity.json".toList) = .ok (L.connectivity.map stored) ∧
      ∀ p, p ≠ "circuit-layers.json".toList → p ≠ "circuit-connectivity.json".toList → fs' p = fs p := by
  obtain ⟨j1, hj1⟩ := layers_dump L.layers
  obtain ⟨j2, hj2⟩ := connectivity_dump L.connectivity
  obtain ⟨fs1, a1, ⟨k, a2, a3⟩, a4⟩ := save_any (fs := fs) (name := "circuit-layers.json") hj1
  obtain ⟨fs2, b1, b2, b3⟩ := save_any (fs := fs1) (name := "circuit-connectivity.json") hj2
  rw [← stored_eq]
  refine ⟨fs2, ?_, ?_, ?_, fun p hp hq => (b3 p hq).trans (a4 p hp)⟩
  · rw [layersStep, h]
    dsimp only
    rw [a1]
    exact b1
  · refine load_layers ?_ ⟨k, a2, (b3 _ (by decide)).trans a3⟩
    intro layer hl
    obtain ⟨l, -, rfl⟩ := List.mem_map.1 hl
    exact pair_plain l
  · exact load_connectivity (pair_plain _) b2

/-- C124. `build_circuit_layers_and_connectivity` for a chain of `x` qubits: the layers of the chain are stored, whatever the second dimension. They pair each qubit with the next one once, no
qubit twice in one layer. -/
theorem chain_step (fs : FS) (x : ℕ) (y : Option ℕ) :
    ∃ (fs' : FS) (layers : List (List (ℕ × ℕ))) (pairs : List (ℕ × ℕ)), layersStep fs x y "nearest-neighbor" = .ok fs' ∧
      loadLayers fs' (.str "circuit-layers.json".toList) = .ok (layers.map fun l => l.map stored) ∧
      loadConnectivity fs' (.str "circuit-connectivity.json".toList) = .ok (pairs.map stored) ∧
      layers.flatten = pairs ∧ pairs.Nodup ∧ (∀ a b, (a, b) ∈ pairs ↔ b = a + 1 ∧ b < x) ∧ ∀ layer ∈ layers, (qubitsOf layer).Nodup := by
  have h : buildOptional x y "nearest-neighbor" = .ok (some (nearestNeighbors x)) := by cases y <;> rfl
  obtain ⟨fs', h1, h2, h3, -⟩ := layers_stored fs x y _ _ h
  obtain ⟨-, l2, l3⟩ := nearest_layers x
  obtain ⟨c1, c2⟩ := nearest_connectivity x
  exact ⟨fs', _, _, h1, h2, h3, l2, c1, c2, l3⟩

/-- C124. The same for a grid of `x` by `y` qubits, both at least 1: eight layers of disjoint pairs of the grid are stored, that together meet every pair twice. -/
theorem grid_step (fs : FS) (x y : ℕ) (hx : 1 ≤ x) (hy : 1 ≤ y) :
    ∃ (fs' : FS) (layers : List (List (ℕ × ℕ))) (pairs : List (ℕ × ℕ)), layersStep fs x (some y) "sycamore" = .ok fs' ∧
      loadLayers fs' (.str "circuit-layers.json".toList) = .ok (layers.map fun l => l.map stored) ∧
      loadConnectivity fs' (.str "circuit-connectivity.json".toList) = .ok (pairs.map stored) ∧
      layers.length = 8 ∧ (∀ layer ∈ layers, (qubitsOf layer).Nodup) ∧ layers.flatten.Perm (pairs ++ pairs) ∧ pairs.Nodup ∧
      ∀ a b, (a, b) ∈ pairs ↔ ∃ r c r' c', a = r * x + c ∧ b = r' * x + c' ∧ r < y ∧ r' < y ∧ c < x ∧ c' < x ∧
        r % 2 = 1 ∧ (r' = r + 1 ∨ r = r' + 1) ∧ (c' = c ∨ c' = c + 1) := by
  obtain ⟨L, hL⟩ := (sycamore_ok_iff x y).2 ⟨hx, hy⟩
  have h : buildOptional x (some y) "sycamore" = .ok (some L) := by
    show (sycamore x y).map some = _
    rw [hL]; rfl
  obtain ⟨fs', h1, h2, h3, -⟩ := layers_stored fs x (some y) _ _ h
  obtain ⟨l1, l2⟩ := sycamore_layers x y L hL
  obtain ⟨c1, c2⟩ := sycamore_connectivity x y L hL
  obtain ⟨p1, p2⟩ := sycamore_cover x y L hL
  refine ⟨fs', L.layers, L.connectivity, h1, h2, h3, l1, fun l hl => (l2 l hl).2, ?_, c1, c2⟩
  refine List.Perm.trans ?_ (List.Perm.append p1 p2)
  obtain ⟨cc, ls⟩ := L
  match ls, l1 with
  | [a, b, c, d, e, f, g, i], _ =>
    rw [List.perm_iff_count]
    intro q
    simp only [List.flatten_cons, List.flatten_nil, List.flatMap_cons, List.flatMap_nil, List.count_append, List.append_nil]
    simp
    omega

/-- C124. What the step refuses: any other kind of layers, and a grid without its second dimension, are `TypeError`s, and an empty grid is an error; nothing is returned. -/
theorem layers_rejects (fs : FS) (x : ℕ) (y : Option ℕ) (t : String) :
    (t ≠ "sycamore" → t ≠ "nearest-neighbor" → layersStep fs x y t = .error (.py .typeError)) ∧
      layersStep fs x none "sycamore" = .error (.py .typeError) ∧
      ∀ y, (x = 0 ∨ y = 0) → ∃ e, layersStep fs x (some y) "sycamore" = .error (.py e) := by
  refine ⟨fun h1 h2 => ?_, rfl, fun y h => ?_⟩
  · have : buildOptional x y t = .ok none := by
      cases y with
      | none => rw [buildOptional, if_neg h1, build, if_neg h1, if_neg h2]
      | some y => rw [buildOptional, build, if_neg h1, if_neg h2]
    rw [layersStep, this]
  · have hn : ¬ ∃ L, sycamore x y = .ok L := fun hL => by have := (sycamore_ok_iff x y).1 hL; omega
    cases hs : sycamore x y with
    | ok L => exact absurd ⟨L, hs⟩ hn
    | error e =>
      refine ⟨e, ?_⟩
      have : buildOptional x (some y) "sycamore" = .error e := by
        show (sycamore x y).map some = _
        rw [hs]; rfl
      rw [layersStep, this]

end ZQ.BuildSteps
