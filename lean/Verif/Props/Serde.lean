import Verif.Spec.Serde
import Verif.Lemmas.ExceptList
import Verif.Lemmas.Circuit
import Verif.Lemmas.GateBind
import Mathlib.Tactic.FinCases

/-!
# C11: circuit serialization
-/

namespace ZQ.Serde

open Gates Circuits

variable {C : Codec} {printable : Expr → Prop} {reserved : String → Prop}

theorem lookup_fixed (b : Base) (hb : b ∈ fixedGates) : lookupGlobal b.name = some (.fixed b) := by
  simp only [fixedGates, List.mem_cons, List.not_mem_nil, or_false] at hb
  rcases hb with rfl | rfl | rfl | rfl | rfl | rfl | rfl | rfl | rfl | rfl | rfl <;>
    simp [lookupGlobal, fixedGates, List.find?]

theorem lookup_parametric (b : Base) (hb : b ∈ parametricGates) : lookupGlobal b.name = some (.proto b) := by
  simp only [parametricGates, List.mem_cons, List.not_mem_nil, or_false] at hb
  rcases hb with rfl | rfl | rfl | rfl | rfl | rfl | rfl | rfl | rfl | rfl | rfl <;>
    simp [lookupGlobal, fixedGates, parametricGates, List.find?]

theorem lookup_control : lookupGlobal "Control" = none ∧ lookupGlobal "Dagger" = none := by
  constructor <;> simp [lookupGlobal, fixedGates, parametricGates, List.find?, otherGlobals]

theorem find_unique (defs : List CustomDef) (huniq : ∀ a ∈ defs, ∀ b ∈ defs, a.gateName = b.gateName → a = b) (d : CustomDef) (hd : d ∈ defs) :
    defs.find? (fun a => a.gateName == d.gateName) = some d := by
  cases h : defs.find? (fun a => a.gateName == d.gateName) with
  | none =>
    rw [List.find?_eq_none] at h
    exact absurd (by simp) (h d hd)
  | some a =>
    have h1 := List.find?_some h
    have h2 := List.mem_of_find?_eq_some h
    rw [huniq a h2 d hd (by simpa using h1)]

/-- Gates round-trip. -/
theorem gate_roundtrip (hC : C.Good printable reserved) (defs : List CustomDef)
    (huniq : ∀ a ∈ defs, ∀ b ∈ defs, a.gateName = b.gateName → a = b) (hdefs : ∀ d ∈ defs, lookupGlobal d.gateName = none)
    (g : Gate) (hg : Serializable printable reserved defs g) : gateFromDict C defs (gateToDict C g) = .ok g := by
  induction g with
  | factory b ps =>
    rcases hg with ⟨hb, rfl⟩ | ⟨hb, hne, hp⟩ | ⟨d, hd, rfl, hp, h1, h2⟩
    · show gateFromDict C defs (.leaf b.name _ _) = _
      unfold gateFromDict
      rw [lookup_fixed b hb]
      rfl
    · show gateFromDict C defs (.leaf b.name _ _) = _
      unfold gateFromDict
      rw [lookup_parametric b hb, if_neg hne]
      cases ps with
      | nil => exact absurd rfl hne
      | cons p ps =>
        show Except.ok (Gate.factory b _) = Except.ok _
        congr 2
        rw [← List.map_cons, List.map_map]
        conv_rhs => rw [← List.map_id (p :: ps)]
        apply List.map_congr_left
        intro q hq
        apply hC.roundtrip q _ (hp q hq)
        intro s hs
        left
        have hmem : s ∈ (Gate.factory b (p :: ps)).freeSymbols := (Expr.mem_getFreeSymbols _ _).2 ⟨q, hq, hs⟩
        rw [if_neg (List.ne_nil_of_mem hmem)]
        show s ∈ List.mergeSort _ _
        rwa [(List.mergeSort_perm _ _).mem_iff]
    · show gateFromDict C defs (.leaf d.gateName _ _) = _
      unfold gateFromDict
      rw [hdefs d hd]
      show customInstance C defs d.gateName _ = _
      unfold customInstance
      rw [find_unique defs huniq d hd]
      cases ps with
      | nil => rfl
      | cons p ps =>
        rw [if_neg (by simp)]
        show Except.ok (Gate.factory (baseOf d) (C.de (C.ser p) d.paramsOrdering :: (ps.map C.ser).map fun q => C.de q [])) = _
        rw [hC.roundtrip p _ (hp p (by simp)) (h1 p (by simp)), List.map_map]
        congr 3
        conv_rhs => rw [← List.map_id ps]
        apply List.map_congr_left
        intro q hq
        exact hC.roundtrip q _ (hp q (by simp [hq])) (fun s hs => Or.inr (h2 q hq s hs))
  | ctrl g k ih =>
    show gateFromDict C defs (.wrap "Control" _ _) = _
    unfold gateFromDict
    rw [lookup_control.1, ih hg.2]
    show (if (k : ℤ) < 1 then _ else _) = _
    rw [if_neg (by have := hg.1; omega)]
    rfl
  | dag g ih =>
    show gateFromDict C defs (.wrap "Dagger" _ _) = _
    unfold gateFromDict
    rw [lookup_control.2, ih hg]
    rfl

theorem def_roundtrip (hC : C.Good printable reserved) (d : CustomDef) (hd : GoodDef printable reserved d) :
    defFromDict C (defToDict C d) = .ok d := by
  obtain ⟨rows, hrect, hmk⟩ := hd.made
  have hrows : exprMatrix rows = d.matrix := by
    unfold mkDef at hmk
    split at hmk
    · cases hmk
    · split at hmk
      · cases hmk
      · injection hmk with hmk
        rw [← hmk]
  unfold defFromDict
  show mkDef d.gateName (exprMatrix _) d.paramsOrdering = _
  rw [← hmk]
  congr 2
  show (((List.range d.matrix.rows).map fun i => (List.range d.matrix.cols).map fun j => C.ser (d.matrix.e i j)).map
    fun row => row.map fun s => C.de s d.paramsOrdering) = rows
  apply List.ext_getElem
  · simp [← hrows, exprMatrix]
  · intro i h1 h2
    simp only [List.getElem_map, List.getElem_range]
    have hi : i < d.matrix.rows := by rw [← hrows]; exact h2
    have hcols : d.matrix.cols = rows[i].length := by
      rw [← hrows]; exact (hrect _ (List.getElem_mem h2)).symm
    apply List.ext_getElem
    · simp [hcols]
    · intro j h3 h4
      simp only [List.getElem_map, List.getElem_range]
      have hj : j < d.matrix.cols := by rw [hcols]; exact h4
      obtain ⟨p, f⟩ := hd.entries i hi j hj
      rw [hC.roundtrip _ _ p f, ← hrows]
      simp [exprMatrix, List.getD, h2, h4]

theorem collect_fold (eq : Expr → Expr → Bool) (all : List CustomDef) (hrefl : ∀ d ∈ all, defEq eq d d = true)
    (huniq : ∀ a ∈ all, ∀ b ∈ all, a.gateName = b.gateName → a = b) (ds acc : List CustomDef)
    (h1 : ∀ d ∈ acc, d ∈ all) (h2 : ∀ d ∈ ds, d ∈ all) :
    ∃ out, ds.foldlM (collectStep eq) acc = .ok out ∧ ∀ d, d ∈ out ↔ d ∈ acc ∨ d ∈ ds := by
  induction ds generalizing acc with
  | nil => exact ⟨acc, rfl, by simp⟩
  | cons d ds ih =>
    have hd := h2 d (by simp)
    rw [List.foldlM_cons]
    unfold collectStep
    cases hf : acc.find? (fun a => a.gateName == d.gateName) with
    | none =>
      obtain ⟨out, e, m⟩ := ih (acc ++ [d]) (by
        intro x hx
        rcases List.mem_append.1 hx with h | h
        · exact h1 x h
        · rw [List.mem_singleton.1 h]; exact hd) (fun x hx => h2 x (by simp [hx]))
      refine ⟨out, e, ?_⟩
      intro x
      rw [m x]
      simp [or_assoc]
    | some a =>
      have ha := List.mem_of_find?_eq_some hf
      have hn := List.find?_some hf
      have : a = d := huniq a (h1 a ha) d hd (by simpa using hn)
      subst this
      dsimp only
      rw [if_pos (hrefl a hd)]
      obtain ⟨out, e, m⟩ := ih acc h1 (fun x hx => h2 x (by simp [hx]))
      refine ⟨out, e, ?_⟩
      intro x
      rw [m x]
      constructor
      · rintro (h | h)
        · exact Or.inl h
        · exact Or.inr (by simp [h])
      · rintro (h | h)
        · exact Or.inl h
        · rcases List.mem_cons.1 h with rfl | h
          · exact Or.inl ha
          · exact Or.inr h

/-- Collecting definitions succeeds and returns exactly the directly used definitions, when equal names mean equal definitions. -/
theorem collect_spec (eq : Expr → Expr → Bool) (c : Circuit) (hrefl : ∀ d ∈ c.ops.filterMap customDefOf, defEq eq d d = true)
    (huniq : ∀ a ∈ c.ops.filterMap customDefOf, ∀ b ∈ c.ops.filterMap customDefOf, a.gateName = b.gateName → a = b) :
    ∃ defs, collect eq c = .ok defs ∧ ∀ d, d ∈ defs ↔ d ∈ c.ops.filterMap customDefOf := by
  obtain ⟨out, e, m⟩ := collect_fold eq _ hrefl huniq (c.ops.filterMap customDefOf) [] (by simp) (fun _ h => h)
  refine ⟨out.mergeSort (fun a b => a.gateName ≤ b.gateName), ?_, ?_⟩
  · unfold collect
    rw [e]; rfl
  · intro d
    rw [(List.mergeSort_perm _ _).mem_iff, m d]
    simp

theorem serializable_congr {defs defs' : List CustomDef} (h : ∀ d, d ∈ defs ↔ d ∈ defs') (g : Gate)
    (hg : Serializable printable reserved defs g) : Serializable printable reserved defs' g := by
  induction g with
  | factory b ps =>
    rcases hg with hg | hg | ⟨d, hd, rest⟩
    · exact Or.inl hg
    · exact Or.inr (Or.inl hg)
    · exact Or.inr (Or.inr ⟨d, (h d).1 hd, rest⟩)
  | ctrl g k ih => exact ⟨hg.1, ih hg.2⟩
  | dag g ih => exact ih hg

/-- **C11.** For circuits of built-in gates and custom gates, arbitrarily nested in control and dagger, serialization succeeds and
deserializing gives the very same circuit — provided every custom definition is also used directly (unwrapped) by some operation, its name does
not clash with a module-level name of the built-in gates, equal names mean equal definitions, and custom gate parameters after the first use no
reserved symbol names.  The theorems below show that each proviso is needed. -/
theorem circuit_roundtrip_partial (hC : C.Good printable reserved) (eq : Expr → Expr → Bool) (c : Circuit) (hc : c.Inv)
    (hrefl : ∀ d ∈ c.ops.filterMap customDefOf, defEq eq d d = true)
    (huniq : ∀ a ∈ c.ops.filterMap customDefOf, ∀ b ∈ c.ops.filterMap customDefOf, a.gateName = b.gateName → a = b)
    (hdefs : ∀ d ∈ c.ops.filterMap customDefOf, GoodDef printable reserved d)
    (hops : ∀ op ∈ c.ops, Serializable printable reserved (c.ops.filterMap customDefOf) op.gate) :
    ∃ d, circuitToDict C eq c = .ok d ∧ circuitFromDict C d = .ok c := by
  obtain ⟨defs, e, m⟩ := collect_spec eq c hrefl huniq
  refine ⟨⟨circuitSchema, c.n, if c.ops.isEmpty then none else some (c.ops.map (opToDict C)),
    if defs.isEmpty then none else some (defs.map (defToDict C))⟩, ?_, ?_⟩
  · unfold circuitToDict
    rw [e]; rfl
  · unfold circuitFromDict
    rw [if_neg (by simp)]
    dsimp only
    have e1 : ((if defs.isEmpty then none else some (defs.map (defToDict C))).getD []) = defs.map (defToDict C) := by
      cases defs <;> rfl
    have e2 : ((if c.ops.isEmpty then none else some (c.ops.map (opToDict C))).getD []) = c.ops.map (opToDict C) := by
      cases c.ops <;> rfl
    rw [e1, e2]
    have m1 : (defs.map (defToDict C)).mapM (defFromDict C) = .ok defs := by
      rw [mapM_ok_iff, List.forall₂_map_left_iff, List.forall₂_same]
      intro d hd
      exact def_roundtrip hC d (hdefs d ((m d).1 hd))
    have m2 : (c.ops.map (opToDict C)).mapM (opFromDict C defs) = .ok c.ops := by
      rw [mapM_ok_iff, List.forall₂_map_left_iff, List.forall₂_same]
      intro op hop
      unfold opFromDict opToDict
      dsimp only
      rw [gate_roundtrip hC defs
        (fun a ha b hb => huniq a ((m a).1 ha) b ((m b).1 hb))
        (fun d hd => (hdefs d ((m d).1 hd)).name_free) op.gate
        (serializable_congr (fun d => (m d).symm) op.gate (hops op hop))]
      rfl
    rw [m1]
    show (List.mapM (opFromDict C defs) _).bind _ = _
    rw [m2]
    show Circuit.make c.ops (some (c.n : ℚ)) = _
    rw [make_natCast c.ops c.n hc]

/-- **C11.** Circuits of built-in gates only (any nesting of control and dagger) round-trip unconditionally. -/
theorem circuit_roundtrip_builtin (hC : C.Good printable reserved) (eq : Expr → Expr → Bool) (c : Circuit) (hc : c.Inv)
    (hops : ∀ op ∈ c.ops, op.gate.AllBase fun b ps => (b ∈ fixedGates ∧ ps = []) ∨ (b ∈ parametricGates ∧ ps ≠ [] ∧ ∀ p ∈ ps, printable p))
    (hwf : ∀ op ∈ c.ops, op.gate.WF) :
    ∃ d, circuitToDict C eq c = .ok d ∧ circuitFromDict C d = .ok c := by
  have hser : ∀ g : Gate, g.WF → (g.AllBase fun b ps => (b ∈ fixedGates ∧ ps = []) ∨ (b ∈ parametricGates ∧ ps ≠ [] ∧ ∀ p ∈ ps, printable p)) →
      ∀ defs, Serializable printable reserved defs g := by
    intro g hw hg defs
    induction g with
    | factory b ps =>
      rcases hg with h | h
      · exact Or.inl h
      · exact Or.inr (Or.inl h)
    | ctrl g k ih => exact ⟨hw.1, ih hw.2 hg⟩
    | dag g ih => exact ih hw hg
  have hnone : c.ops.filterMap customDefOf = [] := by
    rw [List.filterMap_eq_nil_iff]
    intro op hop
    have h := hops op hop
    unfold customDefOf
    cases hg : op.gate with
    | ctrl g k => rfl
    | dag g => rfl
    | factory b ps =>
      rw [hg] at h
      have hb : b ∈ fixedGates ∨ b ∈ parametricGates := by
        rcases h with h | h
        · exact Or.inl h.1
        · exact Or.inr h.1
      dsimp only
      rcases hb with hb | hb
      · simp only [fixedGates, List.mem_cons, List.not_mem_nil, or_false] at hb
        rcases hb with rfl | rfl | rfl | rfl | rfl | rfl | rfl | rfl | rfl | rfl | rfl <;> rfl
      · simp only [parametricGates, List.mem_cons, List.not_mem_nil, or_false] at hb
        rcases hb with rfl | rfl | rfl | rfl | rfl | rfl | rfl | rfl | rfl | rfl | rfl <;> rfl
  exact circuit_roundtrip_partial hC eq c hc (by simp [hnone]) (by simp [hnone]) (by simp [hnone])
    (fun op hop => hser op.gate (hwf op hop) (hops op hop) _)

/-- **C11.** Sets of circuits round-trip when each circuit does. -/
theorem circuitset_roundtrip (eq : Expr → Expr → Bool) (cs : List Circuit)
    (h : ∀ c ∈ cs, ∃ d, circuitToDict C eq c = .ok d ∧ circuitFromDict C d = .ok c) :
    ∃ d, circuitsetToDict C eq cs = .ok d ∧ circuitsetFromDict C d = .ok cs := by
  have : ∃ ds, List.Forall₂ (fun c d => circuitToDict C eq c = .ok d) cs ds ∧ List.Forall₂ (fun d c => circuitFromDict C d = .ok c) ds cs := by
    induction cs with
    | nil => exact ⟨[], .nil, .nil⟩
    | cons c cs ih =>
      obtain ⟨d, h1, h2⟩ := h c (by simp)
      obtain ⟨ds, h3, h4⟩ := ih (fun x hx => h x (by simp [hx]))
      exact ⟨d :: ds, .cons h1 h3, .cons h2 h4⟩
  obtain ⟨ds, h1, h2⟩ := this
  refine ⟨(circuitsetSchema, ds), ?_, ?_⟩
  · unfold circuitsetToDict
    rw [(mapM_ok_iff _ _ _).2 h1]; rfl
  · unfold circuitsetFromDict
    rw [if_neg (by simp)]
    exact (mapM_ok_iff _ _ _).2 h2

/-- **C11.** Dictionaries with another schema are rejected. -/
theorem wrong_schema (d : CircuitDict) (h : d.schema ≠ circuitSchema) : circuitFromDict C d = .error .valueError := by
  unfold circuitFromDict
  rw [if_pos h]

/-! ### The provisos are needed -/

/-- A one-qubit custom gate definition (the Pauli X matrix) with the given name and parameter names. -/
noncomputable def sampleDef (name : String) (ordering : List String) : CustomDef :=
  ⟨name, 1, exprMatrix [[.num 0, .num 1], [.num 1, .num 0]], ordering⟩

/-- A controlled custom gate whose definition is used nowhere directly is written without its definition; loading fails. -/
theorem wrapped_custom_counterexample (C : Codec) (eq : Expr → Expr → Bool) :
    ∃ c : Circuit, c.Inv ∧ ∃ d, circuitToDict C eq c = .ok d ∧ circuitFromDict C d = .error .valueError := by
  have hcol : collect eq ⟨[⟨.ctrl (.factory (baseOf (sampleDef "mygate" [])) []) 1, [0, 1]⟩], 2⟩ = .ok [] := by
    show Except.ok (List.mergeSort [] _) = _
    rw [List.mergeSort_nil]
  refine ⟨⟨[⟨.ctrl (.factory (baseOf (sampleDef "mygate" [])) []) 1, [0, 1]⟩], 2⟩, fun h => absurd h (by simp), _,
    by unfold circuitToDict; rw [hcol]; rfl, ?_⟩
  unfold circuitFromDict
  rw [if_neg (by simp)]
  have h1 : lookupGlobal "mygate" = none := by simp [lookupGlobal, fixedGates, parametricGates, List.find?, otherGlobals]
  have h3 : ∀ f, gateFromDict C [] (.leaf "mygate" none f) = .error .valueError := by
    intro f
    unfold gateFromDict
    rw [h1]
    rfl
  have h2 : ∀ f k, gateFromDict C [] (.wrap "Control" (.leaf "mygate" none f) k) = .error .valueError := by
    intro f k
    unfold gateFromDict
    rw [lookup_control.1, h3]
    rfl
  change ((List.mapM (defFromDict C) []).bind fun defs => (List.mapM (opFromDict C defs) [_]).bind _) = _
  rw [List.mapM_nil]
  dsimp only [pure, Except.pure, Except.bind]
  rw [List.mapM_cons]
  unfold opFromDict opToDict
  dsimp only
  rw [show gateToDict C (.ctrl (.factory (baseOf (sampleDef "mygate" [])) []) 1) = .wrap "Control" (.leaf "mygate" none _) _ from rfl, h2]
  rfl

theorem sampleDef_loads (C : Codec) (name : String) (ordering : List String) :
    ∃ d' : CustomDef, defFromDict C (defToDict C (sampleDef name ordering)) = .ok d' ∧ d'.gateName = name ∧ d'.paramsOrdering = ordering :=
  ⟨⟨name, 1, exprMatrix [[C.de (C.ser (.num 0)) ordering, C.de (C.ser (.num 1)) ordering],
    [C.de (C.ser (.num 1)) ordering, C.de (C.ser (.num 0)) ordering]], ordering⟩, by
      unfold defFromDict
      show mkDef name (exprMatrix [[C.de (C.ser (.num 0)) ordering, C.de (C.ser (.num 1)) ordering],
        [C.de (C.ser (.num 1)) ordering, C.de (C.ser (.num 0)) ordering]]) ordering = _
      unfold mkDef
      have : Nat.log2 2 = 1 := by decide +kernel
      simp [exprMatrix, this], rfl, rfl⟩

theorem collect_single (eq : Expr → Expr → Bool) (d : CustomDef) (ps : List Expr) (qs : List ℕ) (n : ℕ) :
    collect eq ⟨[⟨.factory (baseOf d) ps, qs⟩], n⟩ = .ok [d] := by
  show Except.ok (List.mergeSort [d] _) = _
  rw [List.mergeSort_singleton]

/-- A circuit made of one custom gate: what loading its serialized form does. -/
theorem single_custom (C : Codec) (eq : Expr → Expr → Bool) (name : String) (ordering : List String) (ps : List Expr) :
    ∃ d d', circuitToDict C eq ⟨[⟨.factory (baseOf (sampleDef name ordering)) ps, [0]⟩], 1⟩ = .ok d ∧
      d'.gateName = name ∧ d'.paramsOrdering = ordering ∧
      circuitFromDict C d = (gateFromDict C [d'] (gateToDict C (.factory (baseOf (sampleDef name ordering)) ps))).bind
        fun g => .ok ⟨[⟨g, [0]⟩], 1⟩ := by
  obtain ⟨d', h1, h2, h3⟩ := sampleDef_loads C name ordering
  refine ⟨_, d', by unfold circuitToDict; rw [collect_single]; rfl, h2, h3, ?_⟩
  unfold circuitFromDict
  rw [if_neg (by simp)]
  show (List.mapM (defFromDict C) [_]).bind _ = _
  rw [List.mapM_cons, h1]
  show (List.mapM (opFromDict C [d']) [_]).bind _ = _
  rw [List.mapM_cons]
  unfold opFromDict opToDict
  dsimp only
  cases gateFromDict C [d'] (gateToDict C (.factory (baseOf (sampleDef name ordering)) ps)) with
  | error e => rfl
  | ok g => exact make_natCast_pos _ 1 (by norm_num)

/-- A custom gate named like a built-in one is loaded as the built-in gate: here a gate named "Z" with the matrix of X becomes Z. -/
theorem custom_named_builtin_counterexample (C : Codec) (eq : Expr → Expr → Bool) :
    ∃ g g' : Gate, ∃ d, circuitToDict C eq ⟨[⟨g, [0]⟩], 1⟩ = .ok d ∧ circuitFromDict C d = .ok ⟨[⟨g', [0]⟩], 1⟩ ∧
      ∀ ρ, (g.matrix ρ).e 0 0 = 0 ∧ (g'.matrix ρ).e 0 0 = 1 := by
  obtain ⟨d, d', h1, _, _, h4⟩ := single_custom C eq "Z" [] []
  refine ⟨_, .factory ⟨"Z", .builtin fun _ => zMatrix, 1, true⟩ [], d, h1, ?_, ?_⟩
  · rw [h4]
    have : gateFromDict C [d'] (.leaf "Z" none none) = .ok (.factory ⟨"Z", .builtin fun _ => zMatrix, 1, true⟩ []) := by
      unfold gateFromDict
      rw [lookup_fixed ⟨"Z", .builtin fun _ => zMatrix, 1, true⟩ (by simp [fixedGates])]
      rfl
    show (gateFromDict C [d'] (.leaf "Z" none (if Expr.getFreeSymbols [] = [] then none else _))).bind _ = _
    rw [if_pos (by simp [Expr.getFreeSymbols]), this]
    rfl
  · intro ρ
    refine ⟨?_, by simp [Gate.matrix, Factory.matrix, zMatrix, Mat.ofRows]⟩
    show Expr.eval ρ (Expr.subs [] (.num 0)) = 0
    simp [Expr.subs, Expr.eval]

/-- A reserved symbol name in the second parameter of a custom gate is not restored, although the name is one of the definition's own
parameters. -/
theorem custom_reserved_counterexample (hC : C.Good printable reserved) (eq : Expr → Expr → Bool) (s : String) (hs : reserved s) :
    ∃ c : Circuit, c.Inv ∧ ∃ d, circuitToDict C eq c = .ok d ∧ circuitFromDict C d ≠ .ok c := by
  obtain ⟨d, d', h1, h2, h3, h4⟩ := single_custom C eq "mygate" ["a", s] [.sym "a", .sym s]
  refine ⟨_, fun h => absurd h (by simp), d, h1, ?_⟩
  rw [h4]
  have hl : lookupGlobal "mygate" = none := by simp [lookupGlobal, fixedGates, parametricGates, List.find?, otherGlobals]
  show (gateFromDict C [d'] (.leaf "mygate" (some [C.ser (.sym "a"), C.ser (.sym s)]) _)).bind _ ≠ _
  unfold gateFromDict
  rw [hl]
  show (customInstance C [d'] "mygate" (some [C.ser (.sym "a"), C.ser (.sym s)])).bind _ ≠ _
  unfold customInstance
  rw [show [d'].find? (fun d => d.gateName == "mygate") = some d' by simp [h2]]
  intro h
  injection h with h
  injection h with h _
  injection h with h _
  injection h with h _
  injection h with _ h
  injection h with _ h
  injection h with h _
  exact hC.reserved_lost s [] hs (by simp) h

/-- Two different definitions with the same name are *not* detected when one matrix is a prefix of the other: only the first is written. -/
theorem same_name_prefix_counterexample (eq : Expr → Expr → Bool) (hrefl : ∀ e, eq e e = true) :
    ∃ d1 d2 : CustomDef, d1.gateName = d2.gateName ∧ d1.nQubits ≠ d2.nQubits ∧
      collect eq ⟨[⟨.factory (baseOf d1) [], [0]⟩, ⟨.factory (baseOf d2) [], [0, 1]⟩], 2⟩ = .ok [d1] := by
  refine ⟨sampleDef "g" [], ⟨"g", 2, exprMatrix [[.num 0, .num 1, .num 1, .num 0], [.num 1, .num 0, .num 0, .num 0],
    [.num 0, .num 0, .num 0, .num 1], [.num 0, .num 0, .num 1, .num 0]], []⟩, rfl, by simp [sampleDef], ?_⟩
  have h : defEq eq (sampleDef "g" []) ⟨"g", 2, exprMatrix [[.num 0, .num 1, .num 1, .num 0], [.num 1, .num 0, .num 0, .num 0],
    [.num 0, .num 0, .num 0, .num 1], [.num 0, .num 0, .num 1, .num 0]], []⟩ = true := by
    simp [defEq, sampleDef, matricesEqual, flat, exprMatrix, List.range, List.range.loop, hrefl]
  show Except.map _ ((if defEq eq _ _ = true then Except.ok [sampleDef "g" []] else Except.error Err.valueError).bind _) = _
  rw [if_pos h]
  show Except.ok (List.mergeSort [sampleDef "g" []] _) = _
  rw [List.mergeSort_singleton]

/-! ### Non-vacuity -/

/-- A codec for symbols only, with reserved name "gamma". -/
noncomputable def toyCodec : Codec :=
  ⟨fun e => match e with
    | .sym s => s
    | _ => "", fun s names => if s = "gamma" ∧ s ∉ names then .num 0 else .sym s⟩

theorem toyCodec_good : toyCodec.Good (fun e => ∃ s, e = .sym s) (fun s => s = "gamma") where
  roundtrip := by
    rintro e names ⟨s, rfl⟩ h
    show (if s = "gamma" ∧ s ∉ names then Expr.num 0 else .sym s) = _
    rw [if_neg]
    rintro ⟨h1, h2⟩
    rcases h s (by simp [Expr.free]) with h' | h'
    · exact h2 h'
    · exact h' h1
  reserved_lost := by
    rintro s names h1 h2
    show (if s = "gamma" ∧ s ∉ names then Expr.num 0 else .sym s) ≠ _
    rw [if_pos ⟨h1, h2⟩]
    intro h; cases h

/-- A circuit with a symbolic rotation, a controlled X and a direct and a daggered custom gate meets the hypotheses of
`circuit_roundtrip_partial` (the custom matrix has symbolic entries, since the toy codec only prints symbols). -/
example : ∃ c : Circuit, c.Inv ∧ c.ops.length = 4 ∧
    (∀ d ∈ c.ops.filterMap customDefOf, defEq (fun _ _ => true) d d = true) ∧
    (∀ a ∈ c.ops.filterMap customDefOf, ∀ b ∈ c.ops.filterMap customDefOf, a.gateName = b.gateName → a = b) ∧
    (∀ d ∈ c.ops.filterMap customDefOf, GoodDef (fun e => ∃ s, e = .sym s) (fun s => s = "gamma") d) ∧
    (∀ op ∈ c.ops, Serializable (fun e => ∃ s, e = .sym s) (fun s => s = "gamma") (c.ops.filterMap customDefOf) op.gate) := by
  let d : CustomDef := ⟨"mygate", 1, exprMatrix [[.sym "gamma", .sym "b"], [.sym "b", .sym "gamma"]], ["gamma", "b"]⟩
  have hf : ([⟨.factory ⟨"RX", param1 rxMatrix, 1, false⟩ [.sym "gamma"], [0]⟩,
    ⟨.ctrl (.factory ⟨"X", .builtin fun _ => xMatrix, 1, true⟩ []) 2, [0, 1, 2]⟩,
    ⟨.factory (baseOf d) [.sym "gamma", .sym "c"], [1]⟩,
    ⟨.dag (.factory (baseOf d) [.sym "x", .sym "y"]), [1]⟩] : List GateOp).filterMap customDefOf = [d] := rfl
  refine ⟨⟨[⟨.factory ⟨"RX", param1 rxMatrix, 1, false⟩ [.sym "gamma"], [0]⟩,
    ⟨.ctrl (.factory ⟨"X", .builtin fun _ => xMatrix, 1, true⟩ []) 2, [0, 1, 2]⟩,
    ⟨.factory (baseOf d) [.sym "gamma", .sym "c"], [1]⟩,
    ⟨.dag (.factory (baseOf d) [.sym "x", .sym "y"]), [1]⟩], 3⟩, fun h => absurd h (by simp), rfl, ?_, ?_, ?_, ?_⟩
  · intro x hx
    rw [hf, List.mem_singleton] at hx
    subst hx
    simp [defEq, matricesEqual]
  · intro a ha b hb _
    rw [hf, List.mem_singleton] at ha hb
    rw [ha, hb]
  · intro x hx
    rw [hf, List.mem_singleton] at hx
    subst hx
    refine ⟨⟨[[.sym "gamma", .sym "b"], [.sym "b", .sym "gamma"]], by simp, rfl⟩, ?_, ?_⟩
    · intro i hi j hj
      have hi' : i < 2 := hi
      have hj' : j < 2 := hj
      interval_cases i <;> interval_cases j <;> simp [d, exprMatrix, Expr.free]
    · simp [lookupGlobal, fixedGates, parametricGates, List.find?, otherGlobals, d]
  · intro op hop
    simp only [hf]
    simp only [List.mem_cons, List.not_mem_nil, or_false] at hop
    rcases hop with rfl | rfl | rfl | rfl
    · exact Or.inr (Or.inl ⟨by simp [parametricGates], by simp, by simp⟩)
    · exact ⟨by norm_num, Or.inl ⟨by simp [fixedGates], rfl⟩⟩
    · exact Or.inr (Or.inr ⟨d, by simp, rfl, by simp, by simp [Expr.free, d], by simp [Expr.free]⟩)
    · exact Or.inr (Or.inr ⟨d, by simp, rfl, by simp, by simp [Expr.free, d], by simp [Expr.free]⟩)

/-- C11: a gate definition is accepted exactly when its matrix is square of size `2 ^ k`; the gate then acts on `k` qubits. Other shapes raise `ValueError`. -/
theorem mkDef_spec (name : String) (matrix : Mat Expr) (ordering : List String) :
    (∀ k, matrix.rows = 2 ^ k → matrix.cols = 2 ^ k → mkDef name matrix ordering = .ok ⟨name, k, matrix, ordering⟩) ∧
      ((¬ ∃ k, matrix.rows = 2 ^ k ∧ matrix.cols = 2 ^ k) → mkDef name matrix ordering = .error .valueError) := by
  constructor
  · intro k hr hc
    have h0 : matrix.rows ≠ 0 := by rw [hr]; positivity
    have hl : Nat.log2 matrix.rows = k := by rw [hr]; exact Nat.log2_two_pow
    rw [mkDef, if_neg h0, hl, if_neg (by rw [hr, hc]; simp)]
  · intro h
    rw [mkDef]
    split
    · rfl
    · rw [if_pos]
      by_contra hcon
      rw [not_or, not_not, not_not] at hcon
      exact h ⟨_, hcon.1.symm, hcon.2.symm⟩

end ZQ.Serde
