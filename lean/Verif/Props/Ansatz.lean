import Verif.Model.Ansatz
import Verif.Props.Sorting
import Verif.Props.Circuit
import Verif.Lemmas.ExceptList

/-!
# C33, C70: ansatzes
-/

namespace ZQ.Ansatz

open ZQ ZQ.Circuits ZQ.Gates ZQ.Est

variable {V : Type}

/-! ### C33 -/

/-- Specification: the values of the properties after a history of uses. Only assignments and the attributes stored by methods matter. -/
def values : List (Use V) → (String → V) → String → V
  | [], f => f
  | .assign name v :: us, f => values us fun n => if n = name then v else f n
  | .method writes _ :: us, f => values us (writes.foldl (fun f w n => if n = w.1 then w.2 else f n) f)
  | _ :: us, f => values us f

theorem value_eq (K : Class V) (st : St V) (name : String) : value K st name = (st.attrs name).getD (K.default name) := by
  unfold value getProp
  cases st.attrs name <;> rfl

theorem value_getProp (K : Class V) (n : String) (st : St V) : value K (getProp K n st).2 = value K st ∧ (getProp K n st).2.cache = st.cache := by
  unfold getProp
  cases h : st.attrs n with
  | some v => exact ⟨rfl, rfl⟩
  | none =>
    refine ⟨?_, rfl⟩
    funext m
    rw [value_eq, value_eq]
    dsimp only
    by_cases e : m = n
    · subst e; rw [if_pos rfl, h]; rfl
    · rw [if_neg e]

theorem value_reads (K : Class V) (ns : List String) (st : St V) :
    value K (ns.foldl (fun st n => (getProp K n st).2) st) = value K st ∧ (ns.foldl (fun st n => (getProp K n st).2) st).cache = st.cache := by
  induction ns generalizing st with
  | nil => exact ⟨rfl, rfl⟩
  | cons n ns ih =>
    obtain ⟨h1, h2⟩ := ih (getProp K n st).2
    obtain ⟨h3, h4⟩ := value_getProp K n st
    exact ⟨h1.trans h3, h2.trans h4⟩

theorem value_setAttr (K : Class V) (name : String) (v : V) (st : St V) : value K (setAttr name v st) = fun n => if n = name then v else value K st n := by
  funext n
  rw [value_eq, value_eq]
  unfold setAttr
  dsimp only
  by_cases e : n = name
  · rw [if_pos e, if_pos e]; rfl
  · rw [if_neg e, if_neg e]

theorem value_writes (K : Class V) (writes : List (String × V)) (st : St V) :
    value K (writes.foldl (fun st w => setAttr w.1 w.2 st) st) = writes.foldl (fun f w n => if n = w.1 then w.2 else f n) (value K st) ∧
      (writes.foldl (fun st w => setAttr w.1 w.2 st) st).cache = st.cache := by
  induction writes generalizing st with
  | nil => exact ⟨rfl, rfl⟩
  | cons w ws ih =>
    obtain ⟨h1, h2⟩ := ih (setAttr w.1 w.2 st)
    refine ⟨?_, h2⟩
    rw [List.foldl_cons, List.foldl_cons, h1, value_setAttr]

/-- A cached circuit is the one generated from the current values. -/
def Coherent (K : Class V) (st : St V) : Prop := ∀ c, st.cache = some c → K.supports = true ∧ K.generate (value K st) none = .ok c

theorem parametrizedCircuit_spec (K : Class V) (st : St V) (h : Coherent K st) :
    (parametrizedCircuit K st).1 = (if K.supports then K.generate (value K st) none else .error .notImplemented) ∧
      Coherent K (parametrizedCircuit K st).2 ∧ value K (parametrizedCircuit K st).2 = value K st := by
  unfold parametrizedCircuit
  cases hc : st.cache with
  | some c =>
    obtain ⟨h1, h2⟩ := h c hc
    dsimp only
    rw [if_pos h1, h2]
    exact ⟨rfl, h, rfl⟩
  | none =>
    dsimp only
    by_cases hs : K.supports = true
    · rw [if_pos hs, if_pos hs]
      unfold generate
      obtain ⟨e1, e2⟩ := value_reads K K.reads st
      cases hg : K.generate (value K st) none with
      | error e =>
        dsimp only
        refine ⟨rfl, ?_, e1⟩
        intro c hc'
        rw [e2, hc] at hc'
        cases hc'
      | ok c =>
        dsimp only
        have hv : value K { K.reads.foldl (fun st n => (getProp K n st).2) st with cache := some c } = value K st := by
          rw [← e1]; funext n; rw [value_eq, value_eq]
        refine ⟨rfl, ?_, hv⟩
        intro c' hc'
        cases hc'
        rw [hv]
        exact ⟨hs, hg⟩
    · rw [if_neg hs, if_neg hs]
      exact ⟨rfl, h, rfl⟩

theorem numberOfParams_state (K : Class V) (st : St V) (h : Coherent K st) :
    Coherent K (numberOfParams K st).2 ∧ value K (numberOfParams K st).2 = value K st := by
  obtain ⟨-, h2, h3⟩ := parametrizedCircuit_spec K st h
  unfold numberOfParams
  by_cases hs : K.supports = true
  · rw [if_pos hs]
    cases hp : parametrizedCircuit K st with
    | mk o st' =>
      rw [hp] at h2 h3
      cases o with
      | error e => exact ⟨h2, h3⟩
      | ok c => exact ⟨h2, h3⟩
  · rw [if_neg hs]
    exact ⟨h, rfl⟩

theorem executable_state (K : Class V) (ps : Option (List ℂ)) (st : St V) (h : Coherent K st) :
    Coherent K (getExecutableCircuit K ps st).2 ∧ value K (getExecutableCircuit K ps st).2 = value K st := by
  obtain ⟨-, h2, h3⟩ := parametrizedCircuit_spec K st h
  unfold getExecutableCircuit
  cases ps with
  | none => exact ⟨h, rfl⟩
  | some ps =>
    dsimp only
    by_cases hs : K.supports = true
    · rw [if_pos hs]
      cases hp : parametrizedCircuit K st with
      | mk o st' =>
        rw [hp] at h2 h3
        cases o with
        | error e => exact ⟨h2, h3⟩
        | ok c =>
          dsimp only at h2 h3 ⊢
          cases hso : sortSymbols K.sortKey c.freeSymbols with
          | error e => exact ⟨h2, h3⟩
          | ok symbols =>
            dsimp only
            cases hm : createSymbolsMap symbols ps with
            | error e => exact ⟨h2, h3⟩
            | ok m =>
              dsimp only
              obtain ⟨-, h5, h6⟩ := parametrizedCircuit_spec K st' h2
              cases hp' : parametrizedCircuit K st' with
              | mk o st'' =>
                rw [hp'] at h5 h6
                cases o with
                | error e => exact ⟨h5, h6.trans h3⟩
                | ok c => exact ⟨h5, h6.trans h3⟩
    · rw [if_neg hs]
      obtain ⟨e1, e2⟩ := value_reads K K.reads st
      refine ⟨?_, e1⟩
      intro c hc
      unfold generate at hc
      rw [e2] at hc
      exact absurd (h c hc).1 hs

/-- A decorated method that stores attributes and then raises. -/
def Use.FailingMethod : Use V → Prop
  | .method writes raises => writes ≠ [] ∧ raises = true
  | _ => False

theorem history_spec (K : Class V) (uses : List (Use V)) (hu : ∀ u ∈ uses, ¬ u.FailingMethod) (st : St V) (h : Coherent K st) :
    Coherent K (uses.foldl (step K) st) ∧ value K (uses.foldl (step K) st) = values uses (value K st) := by
  induction uses generalizing st with
  | nil => exact ⟨h, rfl⟩
  | cons u uses ih =>
    have ih := ih fun u' hu' => hu u' (by simp [hu'])
    have hu0 := hu u (by simp)
    rw [List.foldl_cons]
    cases u with
    | assign name v =>
      have hv : value K (step K st (.assign name v)) = fun n => if n = name then v else value K st n := by
        rw [← value_setAttr]; funext n; rw [value_eq, value_eq]; rfl
      obtain ⟨e1, e2⟩ := ih (step K st (.assign name v)) (by intro c hc; cases hc)
      exact ⟨e1, by rw [e2, hv]; rfl⟩
    | readProp name =>
      obtain ⟨v1, v2⟩ := value_getProp K name st
      obtain ⟨e1, e2⟩ := ih (getProp K name st).2 (by intro c hc; rw [v2] at hc; rw [v1]; exact h c hc)
      exact ⟨e1, e2.trans (by rw [v1]; rfl)⟩
    | readCircuit =>
      obtain ⟨-, v1, v2⟩ := parametrizedCircuit_spec K st h
      obtain ⟨e1, e2⟩ := ih _ v1
      exact ⟨e1, e2.trans (by rw [v2]; rfl)⟩
    | numberOfParams =>
      obtain ⟨v1, v2⟩ := numberOfParams_state K st h
      obtain ⟨e1, e2⟩ := ih _ v1
      exact ⟨e1, e2.trans (by rw [v2]; rfl)⟩
    | executable ps =>
      obtain ⟨v1, v2⟩ := executable_state K ps st h
      obtain ⟨e1, e2⟩ := ih _ v1
      exact ⟨e1, e2.trans (by rw [v2]; rfl)⟩
    | method writes raises =>
      obtain ⟨v1, v2⟩ := value_writes K writes st
      have hcoh : Coherent K (callMethod writes raises st) ∧ value K (callMethod writes raises st) = writes.foldl (fun f w n => if n = w.1 then w.2 else f n) (value K st) := by
        unfold callMethod
        cases raises with
        | false =>
          refine ⟨(by intro c hc; cases hc), ?_⟩
          rw [← v1]; funext n; rw [value_eq, value_eq]; rfl
        | true =>
          have hw : writes = [] := by
            by_contra hne
            exact hu0 ⟨hne, rfl⟩
          subst hw
          exact ⟨h, rfl⟩
      obtain ⟨e1, e2⟩ := ih _ hcoh.1
      exact ⟨e1, e2.trans (by rw [hcoh.2]; rfl)⟩

/-- The values of the properties of a fresh ansatz. -/
def initialValues (K : Class V) (layers : ℤ) : String → V := fun n => if n = "number_of_layers" then K.ofInt layers else K.default n

theorem init_spec (K : Class V) (layers : ℤ) : (layers < 0 → init K layers = .error .valueError) ∧
    (0 ≤ layers → ∃ st, init K layers = .ok st ∧ Coherent K st ∧ value K st = initialValues K layers) := by
  refine ⟨fun h => by rw [init, if_pos h], fun h => ?_⟩
  refine ⟨_, by rw [init, if_neg (by omega)], (by intro c hc; cases hc), ?_⟩
  funext n
  rw [value_eq]
  unfold initialValues setProp setAttr
  dsimp only
  by_cases e : n = "number_of_layers"
  · rw [if_pos e, if_pos e]; rfl
  · rw [if_neg e, if_neg e]; rfl

/-- C33. After every history of property assignments, reads, circuit reads and decorated methods (that do not fail after changing something), reading the
parametrized circuit gives exactly the circuit generated from the current property values (`NotImplementedError` if the ansatz does not support it), and each
property has the value last stored, or its default. -/
theorem ansatz_coherent (K : Class V) (layers : ℤ) (st : St V) (hi : init K layers = .ok st) (uses : List (Use V)) (hu : ∀ u ∈ uses, ¬ u.FailingMethod) :
    (parametrizedCircuit K (uses.foldl (step K) st)).1 =
        (if K.supports then K.generate (values uses (initialValues K layers)) none else .error .notImplemented) ∧
      ∀ name, (getProp K name (uses.foldl (step K) st)).1 = values uses (initialValues K layers) name := by
  have hl : 0 ≤ layers := by
    by_contra h
    rw [(init_spec K layers).1 (by omega)] at hi
    cases hi
  obtain ⟨st', h1, h2, h3⟩ := (init_spec K layers).2 hl
  rw [h1] at hi
  have hi : st' = st := by simpa using hi
  subst hi
  obtain ⟨e1, e2⟩ := history_spec K uses hu st' h2
  rw [h3] at e2
  refine ⟨?_, fun name => by rw [← e2]; rfl⟩
  rw [(parametrizedCircuit_spec K _ e1).1, e2]

/-- C33. A negative number of layers is rejected. -/
theorem ansatz_init_rejects (K : Class V) (layers : ℤ) (h : layers < 0) : init K layers = .error .valueError := (init_spec K layers).1 h

/-- C33, negation of the unrestricted claim. A decorated method that changes a property and then raises leaves the old circuit in the cache. -/
theorem ansatz_failing_method_counterexample :
    ∃ (K : Class ℤ) (st : St ℤ) (uses : List (Use ℤ)), init K 1 = .ok st ∧
      (parametrizedCircuit K (uses.foldl (step K) st)).1.map (fun c => c.n) = .ok 1 ∧
      (K.generate (values uses (initialValues K 1)) none).map (fun c => c.n) = .ok 2 := by
  refine ⟨⟨true, fun _ => 0, id, fun f _ => .ok ⟨[], (f "number_of_layers").toNat⟩, [], Sorting.naturalKeyRevlex⟩, _, [.readCircuit, .method [("number_of_layers", 2)] true], rfl, ?_, ?_⟩
  · rfl
  · rfl

/-! ### C70: parameters of an ansatz -/

theorem createSymbolsMap_spec (symbols : List String) (ps : List ℂ) :
    (symbols.length = ps.length → ∃ m, createSymbolsMap symbols ps = .ok m ∧ m.map Prod.fst = symbols ∧
      ∀ (i : ℕ) s p, symbols[i]? = some s → ps[i]? = some p → m[i]? = some (s, Expr.num p)) ∧
    (symbols.length ≠ ps.length → createSymbolsMap symbols ps = .error .valueError) := by
  refine ⟨fun h => ⟨_, by rw [createSymbolsMap, if_neg (by simp [h])], ?_, ?_⟩, fun h => by rw [createSymbolsMap, if_pos h]⟩
  · rw [List.map_fst_zip]; simp [h]
  · intro i s p h1 h2
    rw [List.getElem?_zip_eq_some]
    exact ⟨h1, by rw [List.getElem?_map, h2]; rfl⟩

theorem lookup_of_getElem {m : Expr.SymMap} (hn : (m.map Prod.fst).Nodup) {i : ℕ} {s : String} {e : Expr} (h : m[i]? = some (s, e)) : m.lookup s = some e := by
  induction m generalizing i with
  | nil => cases h
  | cons kv m ih =>
    obtain ⟨k, v⟩ := kv
    rw [List.map_cons, List.nodup_cons] at hn
    cases i with
    | zero =>
      rw [List.getElem?_cons_zero] at h
      cases h
      simp [List.lookup]
    | succ i =>
      rw [List.getElem?_cons_succ] at h
      have hne : s ≠ k := by
        rintro rfl
        exact hn.1 (List.mem_map.2 ⟨_, List.mem_of_getElem? h, rfl⟩)
      rw [List.lookup_cons]
      have : (s == k) = false := by simpa using hne
      rw [this]
      exact ih hn.2 h

theorem sortSymbols_alternating (key : List Char → List Sorting.Item) (hk : ∀ x, Sorting.Alternating (key x)) (symbols : List String) :
    ∃ out, sortSymbols key symbols = .ok out ∧ out.Perm symbols ∧
      out.Pairwise (fun a b => Sorting.keyLt (key b.toList) (key a.toList) = some false) := by
  obtain ⟨l, h1, h2, h3, -⟩ := Sorting.sortedBy_alternating key hk (symbols.map String.toList)
  refine ⟨l.map String.ofList, by rw [sortSymbols, h1]; rfl, ?_, ?_⟩
  · have := h2.map String.ofList
    rw [List.map_map] at this
    have hid : (String.ofList ∘ String.toList) = id := by funext s; simp
    rwa [hid, List.map_id] at this
  · rw [List.pairwise_map]
    refine h3.imp ?_
    intro a b h
    simpa using h

theorem sortSymbols_spec (key : List Char → List Sorting.Item) (hkey : key = Sorting.naturalKey ∨ key = Sorting.naturalKeyRevlex) (symbols : List String) :
    ∃ out, sortSymbols key symbols = .ok out ∧ out.Perm symbols ∧
      out.Pairwise (fun a b => Sorting.keyLt (key b.toList) (key a.toList) = some false) :=
  sortSymbols_alternating key (Sorting.natural_alternating key hkey) symbols

/-- The hypotheses under which binding has its meaning (C04, C09). -/
def Bindable (c : Circuit) : Prop :=
  c.Inv ∧ ∀ op ∈ c.ops, op.gate.Reachable ∧ op.gate.WF ∧ ∀ m, op.gate.AllBase fun b ps => b.ByValue ps ∧ b.ByValue (ps.map (Expr.subSymbols m))

/-- Specification: the factory gates of a gate have unitary matrices. -/
def UnitaryAt (ρ : String → ℂ) (g : Gate) : Prop :=
  g.AllBase fun b ps => (b.factory.matrix ps ρ).onBits b.numQubits ∈ Matrix.unitaryGroup (Fin b.numQubits → Bool) ℂ

theorem allBase_and {P Q R : Base → List Expr → Prop} (h : ∀ b ps, P b ps → Q b ps → R b ps) (g : Gate) (hp : g.AllBase P) (hq : g.AllBase Q) :
    g.AllBase R := by
  induction g with
  | factory b ps => exact h b ps hp hq
  | ctrl g k ih => exact ih hp hq
  | dag g ih => exact ih hp hq

theorem allBase_shape (g : Gate) (h : g.WF) : g.AllBase fun b _ => b.GoodShape := by
  induction g with
  | factory b ps => exact h.1
  | ctrl g k ih => exact ih h.2
  | dag g ih => exact ih h

theorem allBase_withParams {P Q : Base → List Expr → Prop} (f : List Expr → List Expr) (h : ∀ b ps, P b ps → Q b (f ps)) (g : Gate) (hp : g.AllBase P) :
    (g.withParams (f g.params)).AllBase Q := by
  induction g with
  | factory b ps => exact h b ps hp
  | ctrl g k ih => exact ih hp
  | dag g ih => exact ih hp

theorem bind_unitary (g g' : Gate) (hr : g.Reachable) (hw : g.WF) (m : Expr.SymMap) (hm : SelfMap m)
    (hv : g.AllBase fun b ps => b.ByValue ps ∧ b.ByValue (ps.map (Expr.subSymbols m))) (hb : g.bind m = .ok g') (ρ : String → ℂ)
    (hu : UnitaryAt (updateEnv ρ m) g) : UnitaryAt ρ g' := by
  rw [Gate.normal_bind (Gate.reachable_normal hr)] at hb
  cases hb
  have h1 := allBase_and (R := fun b ps => (b.GoodShape ∧ b.ByValue ps ∧ b.ByValue (ps.map (Expr.subSymbols m))) ∧
    (b.factory.matrix ps (updateEnv ρ m)).onBits b.numQubits ∈ Matrix.unitaryGroup (Fin b.numQubits → Bool) ℂ) (fun b ps h1 h2 => ⟨h1, h2⟩) g
    (allBase_and (R := fun b ps => b.GoodShape ∧ b.ByValue ps ∧ b.ByValue (ps.map (Expr.subSymbols m))) (fun b ps h1 h2 => ⟨h1, h2⟩) g (allBase_shape g hw) hv) hu
  refine allBase_withParams (fun ps => ps.map (Expr.subSymbols m)) ?_ g h1
  rintro b ps ⟨⟨hs, v1, v2⟩, hun⟩
  have := (factory_bind_value b ps m ρ hm.1 hm.2 v1 v2).onBits b.numQubits (hs _ _).1 (hs _ _).2
  rw [this]
  exact hun

/-- Binding the i-th value to the i-th symbol of a list that contains all free symbols of a circuit: no symbol is left, qubits and number of operations are
kept, and each gate's matrix is the original one at those values. -/
theorem bind_values (c : Circuit) (hb : Bindable c) (symbols : List String) (hnd : symbols.Nodup) (hsub : ∀ s ∈ c.freeSymbols, s ∈ symbols) (ps : List ℂ)
    (h : symbols.length = ps.length) :
    ∃ d, (createSymbolsMap symbols ps).bind c.bind = .ok d ∧ d.n = c.n ∧ d.freeSymbols = [] ∧
      d.ops.map GateOp.qubits = c.ops.map GateOp.qubits ∧
      List.Forall₂ (fun op op' => op'.gate.WF ∧ op'.gate.numQubits = op.gate.numQubits ∧
        ∀ ρ ρ' : String → ℂ, (∀ (i : ℕ) s p, symbols[i]? = some s → ps[i]? = some p → ρ' s = p) → (∀ s, s ∉ symbols → ρ' s = ρ s) →
        (op'.gate.matrix ρ).Same (op.gate.matrix ρ') ∧ (UnitaryAt ρ' op.gate → UnitaryAt ρ op'.gate)) c.ops d.ops := by
  obtain ⟨m, e1, e2, e3⟩ := (createSymbolsMap_spec symbols ps).1 h
  obtain ⟨d, b1, b2, b3, b4, b5⟩ := circuit_bind_spec c hb.1 (fun op hop => (hb.2 op hop).1) m
  have hmn : ∀ kv ∈ m, ∃ v, kv.2 = Expr.num v := by
    intro kv hkv
    rw [createSymbolsMap, if_neg (by simp [h])] at e1
    cases e1
    have := (List.of_mem_zip (a := kv.1) (b := kv.2) hkv).2
    obtain ⟨p, -, hp⟩ := List.mem_map.1 this
    exact ⟨p, hp.symm⟩
  have hself : SelfMap m := by
    refine ⟨by rw [e2]; exact hnd, ?_⟩
    intro kv hkv s hs'
    obtain ⟨v, hv⟩ := hmn kv hkv
    rw [hv] at hs'
    simp [Expr.free] at hs'
  refine ⟨d, by rw [e1]; exact b1, b2, ?_, b4, ?_⟩
  · refine circuit_bind_all c d hb.1 (fun op hop => (hb.2 op hop).1) m hmn ?_ b1
    intro s hs'
    rw [e2]
    exact hsub s hs'
  · clear b1 b2 b3 b4
    have henv : ∀ ρ ρ' : String → ℂ, (∀ (i : ℕ) s p, symbols[i]? = some s → ps[i]? = some p → ρ' s = p) → (∀ s, s ∉ symbols → ρ' s = ρ s) → ρ' = updateEnv ρ m := by
      intro ρ ρ' h1 h2
      funext s
      unfold updateEnv
      by_cases hm : s ∈ symbols
      · obtain ⟨i, hi⟩ := List.getElem?_of_mem hm
        have hlt : i < ps.length := by
          have := (List.getElem?_eq_some_iff.1 hi).1
          omega
        have hp : ps[i]? = some ps[i] := List.getElem?_eq_getElem hlt
        rw [lookup_of_getElem (by rw [e2]; exact hnd) (e3 i s _ hi hp), h1 i s _ hi hp]
        rfl
      · have : m.lookup s = none := by
          rw [List.lookup_eq_none_iff]
          intro kv hkv
          have : kv.1 ∈ symbols := by rw [← e2]; exact List.mem_map_of_mem hkv
          have hne : s ≠ kv.1 := by
            rintro rfl
            exact hm this
          simpa using hne
        rw [this, h2 s hm]
    have hb2 := hb.2
    generalize c.ops = ops at b5 hb2
    generalize d.ops = ops' at b5
    induction b5 with
    | nil => exact .nil
    | @cons op op' ops ops' hop _ ih =>
      refine .cons ?_ (ih fun o ho => hb2 o (by simp [ho]))
      obtain ⟨r, w, v⟩ := hb2 op (by simp)
      obtain ⟨g', f1, fw, fn, f2⟩ := bind_matrix op.gate w m hself (v m)
      rw [hop] at f1
      cases f1
      refine ⟨fw, fn, fun ρ ρ' h1 h2 => ?_⟩
      rw [henv ρ ρ' h1 h2]
      exact ⟨f2 ρ, bind_unitary op.gate op'.gate r w m hself (v m) hop ρ⟩

/-- C70. `get_executable_circuit` puts the i-th parameter in place of the i-th free symbol of the parametrized circuit, in increasing order of the symbols:
no symbol is left, qubits and number of operations are kept, and each gate's matrix is the original one at those values. A wrong number of parameters is
a `ValueError`. -/
theorem executable_spec (K : Class V) (hkey : K.sortKey = Sorting.naturalKey ∨ K.sortKey = Sorting.naturalKeyRevlex) (hs : K.supports = true)
    (st : St V) (hcoh : Coherent K st) (c : Circuit) (hg : K.generate (value K st) none = .ok c) (hb : Bindable c) (ps : List ℂ) :
    ∃ symbols : List String, symbols.Perm c.freeSymbols ∧
      symbols.Pairwise (fun a b => Sorting.keyLt (K.sortKey b.toList) (K.sortKey a.toList) = some false) ∧
      (symbols.length ≠ ps.length → (getExecutableCircuit K (some ps) st).1 = .error .valueError) ∧
      (symbols.length = ps.length → ∃ d, (getExecutableCircuit K (some ps) st).1 = .ok d ∧ d.n = c.n ∧ d.freeSymbols = [] ∧
        d.ops.map GateOp.qubits = c.ops.map GateOp.qubits ∧
        List.Forall₂ (fun op op' => ∀ ρ ρ' : String → ℂ, (∀ (i : ℕ) s p, symbols[i]? = some s → ps[i]? = some p → ρ' s = p) → (∀ s, s ∉ symbols → ρ' s = ρ s) →
          (op'.gate.matrix ρ).Same (op.gate.matrix ρ')) c.ops d.ops) := by
  obtain ⟨symbols, s1, s2, s3⟩ := sortSymbols_spec K.sortKey hkey c.freeSymbols
  have hnd : symbols.Nodup := s2.nodup_iff.2 (circuit_free_symbols c).1
  obtain ⟨p1, p2, p3⟩ := parametrizedCircuit_spec K st hcoh
  rw [if_pos hs, hg] at p1
  obtain ⟨q1, -, -⟩ := parametrizedCircuit_spec K _ p2
  rw [if_pos hs, p3, hg] at q1
  have hrun : (getExecutableCircuit K (some ps) st).1 = (createSymbolsMap symbols ps).bind c.bind := by
    unfold getExecutableCircuit
    dsimp only
    rw [if_pos hs]
    cases hp : parametrizedCircuit K st with
    | mk o st' =>
      rw [hp] at p1 q1
      dsimp only at p1 q1
      subst p1
      dsimp only
      rw [s1]
      dsimp only
      cases createSymbolsMap symbols ps with
      | error e => rfl
      | ok m =>
        dsimp only
        cases hp' : parametrizedCircuit K st' with
        | mk o st'' =>
          rw [hp'] at q1
          dsimp only at q1
          subst q1
          rfl
  obtain ⟨-, m2⟩ := createSymbolsMap_spec symbols ps
  refine ⟨symbols, s2, s3, fun h => by rw [hrun, m2 h]; rfl, fun h => ?_⟩
  obtain ⟨d, b1, b2, b3, b4, b5⟩ := bind_values c hb symbols hnd (fun s hs' => s2.mem_iff.2 hs') ps h
  exact ⟨d, by rw [hrun]; exact b1, b2, b3, b4, b5.imp fun op op' h ρ ρ' h1 h2 => (h.2.2 ρ ρ' h1 h2).1⟩

/-- C70. Other cases of `get_executable_circuit`: no parameters is an error; an ansatz without parametrized circuits generates the circuit directly. -/
theorem executable_other (K : Class V) (st : St V) :
    (getExecutableCircuit K none st).1 = .error .runtimeError ∧
      (K.supports = false → ∀ ps, (getExecutableCircuit K (some ps) st).1 = K.generate (value K st) (some ps) ∧
        (numberOfParams K st).1 = .error .notImplemented) := by
  refine ⟨rfl, fun h ps => ⟨?_, ?_⟩⟩
  · unfold getExecutableCircuit
    dsimp only
    rw [if_neg (by simp [h])]
    rfl
  · rw [numberOfParams, if_neg (by simp [h])]

/-- C70. `number_of_params` is the number of free symbols of the parametrized circuit. -/
theorem numberOfParams_spec (K : Class V) (hs : K.supports = true) (st : St V) (hcoh : Coherent K st) (c : Circuit) (hg : K.generate (value K st) none = .ok c) :
    (numberOfParams K st).1 = .ok c.freeSymbols.length := by
  obtain ⟨p1, -, -⟩ := parametrizedCircuit_spec K st hcoh
  rw [if_pos hs, hg] at p1
  unfold numberOfParams
  rw [if_pos hs]
  cases hp : parametrizedCircuit K st with
  | mk o st' =>
    rw [hp] at p1
    dsimp only at p1
    subst p1
    rfl

/-! ### The ansatz of `mock_objects.py` -/

theorem theta_numeral (i : ℕ) : Sorting.Numeral (Nat.toDigits 10 i) i := by
  refine ⟨Nat.toDigits_ne_nil, ?_, ?_⟩
  · rw [List.all_eq_true]
    intro c hc
    exact Nat.isDigit_of_mem_toDigits (by omega) (by omega) hc
  · have := Nat.ofDigitChars_ten_toDigits (n := i)
    rw [Nat.ofDigitChars_eq_foldl] at this
    exact this

theorem theta_toList (i : ℕ) : (theta i).toList = "theta_".toList ++ Nat.toDigits 10 i := by
  rw [theta, String.toList_append, Nat.toList_repr]

theorem theta_lt (i j : ℕ) : Sorting.keyLt (Sorting.naturalKeyRevlex (theta i).toList) (Sorting.naturalKeyRevlex (theta j).toList) = some (decide (i < j)) := by
  rw [theta_toList, theta_toList]
  have := (Sorting.indexed_order "theta_".toList "theta_".toList _ _ i j (by decide) (by decide) (theta_numeral i) (theta_numeral j)).2
  rw [this]
  have h0 : Sorting.charsLt "theta_".toList "theta_".toList = false := by decide
  rw [h0]
  simp

theorem theta_injective : Function.Injective theta := by
  intro i j h
  have h1 := theta_lt i j
  have h2 := theta_lt j i
  rw [h] at h1 h2
  rw [h1] at h2
  simp only [Option.some.injEq, decide_eq_decide] at h2
  omega

/-- Specification: the circuit of the mock ansatz, layer by layer, with given angles. -/
noncomputable def layersOf (n : ℕ) (angles : List Expr) : List GateOp :=
  angles.flatMap fun a => (List.range n).map fun q => ⟨rxGate a, [q]⟩

theorem foldlM_append (ops : List GateOp) : ∀ (c : Circuit), (∀ op ∈ ops, ∃ q, op.qubits = [q]) →
    ops.foldlM (fun c op => append c (.op op)) c = .ok ⟨c.ops ++ ops, (ops.flatMap GateOp.qubits).foldl (fun n q => max n (q + 1)) c.n⟩ := by
  induction ops with
  | nil => intro c _; simp [pure, Except.pure]
  | cons op ops ih =>
    intro c h
    obtain ⟨q, hq⟩ := h op (by simp)
    rw [List.foldlM_cons, append_op c op q (by rw [hq]; rfl)]
    show ops.foldlM _ _ = _
    rw [ih _ (fun o ho => h o (by simp [ho]))]
    simp [hq]

theorem foldl_max_le (l : List ℕ) (a n : ℕ) (ha : a ≤ n) (h : ∀ q ∈ l, q < n) : l.foldl (fun n q => max n (q + 1)) a ≤ n := by
  induction l generalizing a with
  | nil => exact ha
  | cons q l ih => exact ih _ (by have := h q (by simp); dsimp only; omega) (fun x hx => h x (by simp [hx]))

theorem le_foldl_max (l : List ℕ) (a : ℕ) : a ≤ l.foldl (fun n q => max n (q + 1)) a ∧ ∀ q ∈ l, q + 1 ≤ l.foldl (fun n q => max n (q + 1)) a := by
  induction l generalizing a with
  | nil => simp
  | cons q l ih =>
    obtain ⟨h1, h2⟩ := ih (max a (q + 1))
    rw [List.foldl_cons]
    refine ⟨by omega, ?_⟩
    intro x hx
    rcases List.mem_cons.1 hx with rfl | hx
    · omega
    · exact h2 x hx

theorem mockGenerate_none (get : String → ℤ) (L n : ℕ) (hL : get "number_of_layers" = L) (hn : get "problem_size" = n) :
    mockGenerate get none = .ok ⟨layersOf n ((List.range L).map fun i => .sym (theta i)), if L = 0 then 0 else n⟩ := by
  have hops : ((List.range (get "number_of_layers").toNat).map theta).flatMap (fun s => (List.range (get "problem_size").toNat).map fun q => (⟨rxGate (.sym s), [q]⟩ : GateOp)) =
      layersOf n ((List.range L).map fun i => .sym (theta i)) := by
    rw [hL, hn, layersOf, List.flatMap_map, List.flatMap_map]
    rfl
  unfold mockGenerate
  dsimp only
  rw [hops]
  show ((Circuit.make [] none).bind fun start => ((layersOf n ((List.range L).map fun i => .sym (theta i))).foldlM (fun c op => append c (.op op)) start).bind _) = _
  have h0 : Circuit.make [] none = .ok ⟨[], 0⟩ := rfl
  rw [h0]
  show ((layersOf n ((List.range L).map fun i => .sym (theta i))).foldlM (fun c op => append c (.op op)) ⟨[], 0⟩).bind _ = _
  have hq : ∀ op ∈ layersOf n ((List.range L).map fun i => .sym (theta i)), ∃ q, op.qubits = [q] ∧ q < n := by
    intro op hop
    obtain ⟨a, -, h⟩ := List.mem_flatMap.1 hop
    obtain ⟨q, hq, rfl⟩ := List.mem_map.1 h
    exact ⟨q, rfl, List.mem_range.1 hq⟩
  rw [foldlM_append _ _ (fun op hop => by obtain ⟨q, h, -⟩ := hq op hop; exact ⟨q, h⟩)]
  show Except.ok _ = Except.ok _
  rw [List.nil_append]
  congr 2
  by_cases h : L = 0
  · subst h; rfl
  · rw [if_neg h]
    apply le_antisymm
    · apply foldl_max_le _ _ _ (Nat.zero_le _)
      intro q hmem
      obtain ⟨op, hop, hq'⟩ := List.mem_flatMap.1 hmem
      obtain ⟨q', e, hlt⟩ := hq op hop
      rw [e] at hq'
      simp at hq'
      omega
    · cases n with
      | zero => omega
      | succ n =>
        refine (le_foldl_max _ 0).2 n ?_
        refine List.mem_flatMap.2 ⟨⟨rxGate (.sym (theta 0)), [n]⟩, ?_, by simp⟩
        refine List.mem_flatMap.2 ⟨.sym (theta 0), List.mem_map.2 ⟨0, List.mem_range.2 (by omega), rfl⟩, ?_⟩
        exact List.mem_map.2 ⟨n, List.mem_range.2 (by omega), rfl⟩

theorem addSymbol_new (acc l : List String) (h : (acc ++ l).Nodup) : l.foldl Circuit.addSymbol acc = acc ++ l := by
  induction l generalizing acc with
  | nil => simp
  | cons s l ih =>
    have hs : s ∉ acc := by
      rw [List.nodup_append] at h
      intro hm
      exact h.2.2 s hm s (by simp) rfl
    rw [List.foldl_cons, Circuit.addSymbol, if_neg hs, ih (acc ++ [s]) (by simpa using h)]
    simp

theorem addSymbol_old (acc l : List String) (h : ∀ s ∈ l, s ∈ acc) : l.foldl Circuit.addSymbol acc = acc := by
  induction l with
  | nil => rfl
  | cons s l ih => rw [List.foldl_cons, Circuit.addSymbol, if_pos (h s (by simp)), ih (fun x hx => h x (by simp [hx]))]

theorem mock_freeSymbols (L n k : ℕ) (hn : 0 < n) :
    (⟨layersOf n ((List.range L).map fun i => .sym (theta i)), k⟩ : Circuit).freeSymbols = (List.range L).map theta := by
  rw [freeSymbols_eq]
  have hfl : (layersOf n ((List.range L).map fun i => .sym (theta i))).flatMap GateOp.freeSymbols =
      ((List.range L).map theta).flatMap fun s => List.replicate n s := by
    rw [layersOf, List.flatMap_map, List.flatMap_map, List.flatMap_assoc]
    congr 1
    funext i
    rw [List.flatMap_map]
    have : ∀ m : ℕ, (List.range m).flatMap (fun q => GateOp.freeSymbols ⟨rxGate (.sym (theta i)), [q]⟩) = List.replicate m (theta i) := by
      intro m
      induction m with
      | zero => rfl
      | succ m ih =>
        rw [List.range_succ, List.flatMap_append, ih, List.replicate_succ', List.flatMap_singleton]
        simp [GateOp.freeSymbols, Gate.freeSymbols, rxGate, Gate.params, Expr.getFreeSymbols, Expr.free]
    exact this n
  rw [hfl]
  have hnd : ((List.range L).map theta).Nodup := (List.nodup_range).map theta_injective
  have key : ∀ (l acc : List String), (acc ++ l).Nodup → (l.flatMap fun s => List.replicate n s).foldl Circuit.addSymbol acc = acc ++ l := by
    intro l
    induction l with
    | nil => intro acc _; simp
    | cons s l ih =>
      intro acc h
      obtain ⟨m, rfl⟩ : ∃ m, n = m + 1 := ⟨n - 1, by omega⟩
      have hs : s ∉ acc := by
        rw [List.nodup_append] at h
        intro hm
        exact h.2.2 s hm s (by simp) rfl
      rw [List.flatMap_cons, List.foldl_append, List.replicate_succ, List.foldl_cons, Circuit.addSymbol, if_neg hs,
        addSymbol_old (acc ++ [s]) (List.replicate m s) (by intro x hx; simp [List.eq_of_mem_replicate hx]), ih (acc ++ [s]) (by simpa using h)]
      simp
  simpa using key _ [] (by simpa using hnd)

theorem sort_thetas (L : ℕ) : sortSymbols Sorting.naturalKeyRevlex ((List.range L).map theta) = .ok ((List.range L).map theta) := by
  obtain ⟨out, h1, h2, h3⟩ := sortSymbols_spec Sorting.naturalKeyRevlex (.inr rfl) ((List.range L).map theta)
  rw [h1]
  congr 1
  refine List.Perm.eq_of_pairwise (le := fun a b => Sorting.keyLt (Sorting.naturalKeyRevlex b.toList) (Sorting.naturalKeyRevlex a.toList) = some false) ?_ h3 ?_ h2
  · intro a b ha hb hab hba
    rw [h2.mem_iff] at ha
    obtain ⟨i, -, rfl⟩ := List.mem_map.1 ha
    obtain ⟨j, -, rfl⟩ := List.mem_map.1 hb
    rw [theta_lt] at hab hba
    simp only [Option.some.injEq, decide_eq_false_iff_not] at hab hba
    have : i = j := by omega
    rw [this]
  · rw [List.pairwise_map]
    refine List.pairwise_lt_range.imp ?_
    intro i j h
    rw [theta_lt]
    simp
    omega

/-- C70. For the ansatz of `mock_objects.py` with `L` layers on `n > 0` qubits, after any history leading to these values: it has `L` parameters, and
the executable circuit for the parameters `p_0, …, p_{L-1}` consists of `RX(p_0)` on every qubit, then `RX(p_1)` on every qubit, and so on - also for ten and
more layers, where the alphabetical order of the symbols is different. -/
theorem mock_spec (L n : ℕ) (hn : 0 < n) (st : St ℤ) (hcoh : Coherent mockClass st) (hL : value mockClass st "number_of_layers" = L)
    (hp : value mockClass st "problem_size" = n) (ps : List ℂ) (hps : ps.length = L) :
    (numberOfParams mockClass st).1 = .ok L ∧
      ∃ k, (getExecutableCircuit mockClass (some ps) st).1 = .ok ⟨layersOf n (ps.map Expr.num), k⟩ := by
  have hg : mockClass.generate (value mockClass st) none = _ := mockGenerate_none (value mockClass st) L n hL hp
  obtain ⟨p1, p2, p3⟩ := parametrizedCircuit_spec mockClass st hcoh
  have hsup : mockClass.supports = true := rfl
  rw [if_pos hsup, hg] at p1
  obtain ⟨q1, -, -⟩ := parametrizedCircuit_spec mockClass _ p2
  rw [if_pos hsup, p3, hg] at q1
  refine ⟨?_, if L = 0 then 0 else n, ?_⟩
  · rw [numberOfParams_spec mockClass rfl st hcoh _ hg, mock_freeSymbols L n _ hn]
    simp
  · obtain ⟨m, e1, e2, e3⟩ := (createSymbolsMap_spec ((List.range L).map theta) ps).1 (by simp [hps])
    have hbind : ∀ c : Circuit, c = ⟨layersOf n ((List.range L).map fun i => .sym (theta i)), if L = 0 then 0 else n⟩ →
        c.bind m = .ok ⟨layersOf n (ps.map Expr.num), if L = 0 then 0 else n⟩ := by
      rintro c rfl
      have hops : (layersOf n ((List.range L).map fun i => .sym (theta i))).mapM (fun op => op.bind m) = Except.ok (layersOf n (ps.map Expr.num)) := by
        rw [ZQ.mapM_ok_iff, layersOf, layersOf, List.flatMap_map, List.flatMap_map]
        have hps' : ps = (List.range L).map fun i => ps.getD i 0 := by
          apply List.ext_getElem?
          intro i
          rw [List.getElem?_map]
          by_cases hi : i < L
          · rw [List.getElem?_range hi, List.getElem?_eq_getElem (by omega)]
            simp [List.getD_eq_getElem?_getD, List.getElem?_eq_getElem (show i < ps.length by omega)]
          · rw [List.getElem?_eq_none (by omega), List.getElem?_eq_none (by simp; omega)]; rfl
        conv in (ps.flatMap _) => rw [hps']
        rw [List.flatMap_map]
        have hb : ∀ i ∈ List.range L, ∀ q, GateOp.bind ⟨rxGate (.sym (theta i)), [q]⟩ m = .ok ⟨rxGate (.num (ps.getD i 0)), [q]⟩ := by
          intro i hi q
          have hi := List.mem_range.1 hi
          have hl := lookup_of_getElem (m := m) (by rw [e2]; exact (List.nodup_range).map theta_injective)
            (e3 i (theta i) (ps.getD i 0) (by rw [List.getElem?_map, List.getElem?_range hi]; rfl)
              (by simp [List.getD_eq_getElem?_getD, List.getElem?_eq_getElem (show i < ps.length by omega)]))
          show Except.ok (⟨.factory _ [Expr.subSymbols m (.sym (theta i))], [q]⟩ : GateOp) = _
          rw [Expr.subSymbols, Expr.getD, hl]
          rfl
        generalize List.range L = is at hb
        induction is with
        | nil => exact .nil
        | cons i is ih =>
          rw [List.flatMap_cons, List.flatMap_cons]
          refine List.rel_append ?_ (ih fun j hj => hb j (by simp [hj]))
          rw [List.forall₂_map_left_iff, List.forall₂_map_right_iff, List.forall₂_same]
          intro q _
          exact hb i (by simp) q
      unfold Circuit.bind
      rw [hops]
      show Circuit.make (layersOf n (ps.map Expr.num)) (some (((if L = 0 then 0 else n : ℕ)) : ℚ)) = _
      apply make_natCast
      intro h
      by_cases hL0 : L = 0
      · have : ps = [] := List.length_eq_zero_iff.1 (by omega)
        rw [this]; rfl
      · rw [if_neg hL0] at h; omega
    unfold getExecutableCircuit
    dsimp only
    rw [if_pos hsup]
    cases hp : parametrizedCircuit mockClass st with
    | mk o st' =>
      rw [hp] at p1 q1
      dsimp only at p1 q1
      subst p1
      dsimp only
      rw [mock_freeSymbols L n _ hn]
      have : sortSymbols mockClass.sortKey ((List.range L).map theta) = .ok ((List.range L).map theta) := sort_thetas L
      rw [this]
      dsimp only
      rw [e1]
      dsimp only
      cases hp' : parametrizedCircuit mockClass st' with
      | mk o st'' =>
        rw [hp'] at q1
        dsimp only at q1
        subst q1
        exact hbind _ rfl

/-- Non-vacuity: a mock ansatz with 12 layers on 3 qubits, reached by construction and a later change of the number of layers. -/
example : ∃ st, mockInit 2 3 = .ok st ∧ Coherent mockClass (step mockClass (step mockClass st .readCircuit) (.assign "number_of_layers" 12)) ∧
    value mockClass (step mockClass (step mockClass st .readCircuit) (.assign "number_of_layers" 12)) "number_of_layers" = (12 : ℕ) ∧
    value mockClass (step mockClass (step mockClass st .readCircuit) (.assign "number_of_layers" 12)) "problem_size" = (3 : ℕ) := by
  refine ⟨_, rfl, (by intro c hc; cases hc), ?_, ?_⟩
  · rfl
  · have hcoh : Coherent mockClass (setProp "problem_size" 3 (setProp "number_of_layers" 2 { setProp "number_of_layers" (mockClass.ofInt 2) (⟨fun _ => none, none⟩ : St ℤ) with cache := none })) := by
      intro c hc; cases hc
    have h := (parametrizedCircuit_spec mockClass _ hcoh).2.2
    have h2 := congrFun (value_setAttr mockClass "number_of_layers" 12 (parametrizedCircuit mockClass
      (setProp "problem_size" 3 (setProp "number_of_layers" 2 { setProp "number_of_layers" (mockClass.ofInt 2) (⟨fun _ => none, none⟩ : St ℤ) with cache := none }))).2) "problem_size"
    rw [h] at h2
    exact h2

/-- Non-vacuity of `executable_spec`: the circuits of the mock ansatz can be bound. -/
theorem mock_bindable (L n : ℕ) (hn : 0 < n) : Bindable ⟨layersOf n ((List.range L).map fun i => .sym (theta i)), n⟩ := by
  refine ⟨fun h => absurd h (by simp; omega), ?_⟩
  intro op hop
  obtain ⟨a, -, h⟩ := List.mem_flatMap.1 hop
  obtain ⟨q, -, rfl⟩ := List.mem_map.1 h
  exact ⟨.factory _ _, builtin_wf _ (by simp [builtinGates, parametricGates]) _, fun m => ⟨trivial, trivial⟩⟩

end ZQ.Ansatz
