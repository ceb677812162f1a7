import Verif.Lemmas.GateStruct
import Verif.Props.Builtin

/-!
# C02, C03, C04: dagger, control and binding of gates
-/

namespace ZQ.Gates

open Matrix

/-- Every built-in gate is well formed (so the theorems below apply to any nesting over built-in gates). -/
theorem builtin_wf (b : Base) (hb : b ∈ builtinGates) (ps : List Expr) : (Gate.factory b ps).WF :=
  ⟨fun ps ρ => builtin_shape b hb ps ρ, fun hh ps ρ i hi j hj => builtin_hermitian b hb hh ps ρ i j hi hj⟩

/-! ## C02 -/

/-- **C02.** For any nesting, the matrix of `g.dagger` is the conjugate transpose of the matrix of `g`. -/
theorem dagger_is_adjoint (g : Gate) (h : g.WF) (ρ : String → ℂ) :
    (g.dagger.matrix ρ).Same (g.matrix ρ).adjoint := Gate.dagger_same h ρ

/-- The same, as operators on basis states. -/
theorem dagger_onBits (g : Gate) (h : g.WF) (ρ : String → ℂ) :
    (g.dagger.matrix ρ).onBits g.numQubits = ((g.matrix ρ).onBits g.numQubits)ᴴ := by
  rw [← onBits_adjoint]
  have hs := Gate.shape (Gate.wf_dagger h) ρ
  rw [Gate.numQubits_dagger] at hs
  exact (Gate.dagger_same h ρ).onBits _ hs.1 hs.2

/-- **C02.** Taking the dagger twice gives the same matrix. -/
theorem dagger_dagger_matrix (g : Gate) (h : g.WF) (ρ : String → ℂ) :
    (g.dagger.dagger.matrix ρ).Same (g.matrix ρ) :=
  ((Gate.dagger_same (Gate.wf_dagger h) ρ).trans (Gate.dagger_same h ρ).adjoint).trans (Gate.adjoint_adjoint_same _)

/-- **C02.** For gates made through the API the double dagger is the very same gate object (structurally equal). -/
theorem dagger_dagger_eq (g : Gate) (h : g.Reachable) : g.dagger.dagger = g :=
  Gate.normal_dagger_dagger (Gate.reachable_normal h)

/-- The number of qubits and the parameters are unchanged. -/
theorem dagger_keeps (g : Gate) : g.dagger.numQubits = g.numQubits ∧ g.dagger.params = g.params :=
  ⟨Gate.numQubits_dagger g, Gate.params_dagger g⟩

/-- Any nesting over unitary factory gates is unitary. -/
theorem gate_unitary (g : Gate) (h : g.WF) (ρ : String → ℂ)
    (hu : g.AllBase fun b ps => (b.factory.matrix ps ρ).onBits b.numQubits ∈ unitaryGroup (Fin b.numQubits → Bool) ℂ) :
    (g.matrix ρ).onBits g.numQubits ∈ unitaryGroup (Fin g.numQubits → Bool) ℂ := by
  induction g with
  | factory b ps => exact hu
  | ctrl g k ih =>
    exact ctrlMat_unitary _ _ _ (Gate.shape h.2 ρ).1 (Gate.shape h.2 ρ).2 (ih h.2 hu)
  | dag g ih =>
    show ((g.matrix ρ).adjoint).onBits g.numQubits ∈ unitaryGroup (Fin g.numQubits → Bool) ℂ
    rw [onBits_adjoint]
    have := (mem_unitaryGroup_iff).1 (ih h hu)
    rw [star_eq_conjTranspose] at this
    rw [mem_unitaryGroup_iff', star_eq_conjTranspose, conjTranspose_conjTranspose]
    exact this

/-- **C02.** For unitary factory gates, a gate followed by its dagger is the identity (and conversely). -/
theorem dagger_inverse (g : Gate) (h : g.WF) (ρ : String → ℂ)
    (hu : g.AllBase fun b ps => (b.factory.matrix ps ρ).onBits b.numQubits ∈ unitaryGroup (Fin b.numQubits → Bool) ℂ) :
    (g.dagger.matrix ρ).onBits g.numQubits * (g.matrix ρ).onBits g.numQubits = 1 ∧
    (g.matrix ρ).onBits g.numQubits * (g.dagger.matrix ρ).onBits g.numQubits = 1 := by
  have := gate_unitary g h ρ hu
  rw [dagger_onBits g h]
  exact ⟨(mem_unitaryGroup_iff').1 this, (mem_unitaryGroup_iff).1 this⟩

/-- Non-vacuity: the dagger of a doubly controlled `S` gate; it is well formed, reachable, and not self-inverse. -/
example : (Gate.ctrl (.factory ⟨"S", .builtin fun _ => sMatrix, 1, false⟩ []) 2).WF ∧
    (Gate.ctrl (.factory ⟨"S", .builtin fun _ => sMatrix, 1, false⟩ []) 2).Reachable :=
  ⟨⟨by norm_num, builtin_wf _ (by simp [builtinGates, fixedGates]) _⟩,
    .controlled (g := .factory ⟨"S", .builtin fun _ => sMatrix, 1, false⟩ []) 2 (.factory _ _) rfl⟩

/-! ## C03 -/

/-- **C03.** `g.controlled(k)` for `k ≥ 1` succeeds, adds `k` qubits, keeps the parameters, and acts as `g` on the last qubits when the `k`
leading control qubits are all 1 and as the identity otherwise. -/
theorem controlled_spec (g : Gate) (h : g.WF) (k : ℕ) (hk : 1 ≤ k) :
    ∃ g', g.controlled k = .ok g' ∧ g'.WF ∧ g'.numQubits = g.numQubits + k ∧ g'.params = g.params ∧
      ∀ ρ, (g'.matrix ρ).onBits (k + g.numQubits) = controlledOp k ((g.matrix ρ).onBits g.numQubits) := by
  obtain ⟨g', h1, h2, h3, h4⟩ := Gate.controlled_ok h (k : ℤ) (by omega)
  rw [Int.toNat_natCast] at h3 h4
  refine ⟨g', h1, h2, h3, Gate.params_controlled _ h1, ?_⟩
  intro ρ
  have hs := Gate.shape h2 ρ
  rw [h3] at hs
  rw [(h4 ρ).onBits _ (by rw [hs.1, add_comm]) (by rw [hs.2, add_comm]), ctrlMat_onBits]

/-- **C03.** Adding `a` and then `b` controls is adding `a + b` controls. -/
theorem controlled_controlled (g ga gab gs : Gate) (h : g.WF) (a b : ℕ) (ha : 1 ≤ a) (hb : 1 ≤ b)
    (h1 : g.controlled a = .ok ga) (h2 : ga.controlled b = .ok gab) (h3 : g.controlled (a + b : ℕ) = .ok gs)
    (ρ : String → ℂ) : (gab.matrix ρ).Same (gs.matrix ρ) := by
  obtain ⟨ga', e1, w1, n1, s1⟩ := Gate.controlled_ok h (a : ℤ) (by omega)
  rw [h1] at e1; cases e1
  obtain ⟨gab', e2, w2, n2, s2⟩ := Gate.controlled_ok w1 (b : ℤ) (by omega)
  rw [h2] at e2; cases e2
  obtain ⟨gs', e3, w3, n3, s3⟩ := Gate.controlled_ok h ((a + b : ℕ) : ℤ) (by omega)
  rw [h3] at e3; cases e3
  rw [Int.toNat_natCast] at n1 s1 s2 s3
  have t := ctrlMat_ctrlMat g.numQubits a b (g.matrix ρ) (Gate.shape h ρ).1 (Gate.shape h ρ).2
  refine ((s2 ρ).trans ?_).trans (t.trans (s3 ρ).symm)
  rw [n1]
  exact ctrlMat_congr (s1 ρ)

/-- **C03.** Control and dagger commute, structurally, for gates made through the API. -/
theorem controlled_dagger (g g' : Gate) (h : g.Reachable) (k : ℤ) (hk : g.controlled k = .ok g') :
    g.dagger.controlled k = .ok g'.dagger := by
  rcases (Gate.reachable_normal h).cases' with h | ⟨g1, c, rfl, hc, h⟩
  · rw [Gate.atom_controlled h] at hk
    rw [Gate.atom_controlled (Gate.atom_dagger h)]
    unfold Gate.mkCtrl at *
    split at hk
    · cases hk
    · rename_i hlt
      cases hk
      rw [if_neg hlt]; rfl
  · unfold Gate.controlled Gate.mkCtrl at hk
    show (Gate.ctrl g1.dagger c).controlled k = _
    unfold Gate.controlled Gate.mkCtrl
    split at hk
    · cases hk
    · rename_i hlt
      cases hk
      rw [if_neg hlt]; rfl

/-- The full claim "fewer than one control is rejected". -/
def RejectsNonPositiveControls : Prop := ∀ (g : Gate) (k : ℤ), g.Reachable → k < 1 → g.controlled k = .error .valueError

/-- **C03**, partial: a count below 1 is rejected for every gate that is not already controlled.
Missing: already controlled gates, where the claim is false (next theorem). -/
theorem controlled_rejects_partial (g : Gate) (h : g.Reachable) (hg : ∀ g' c, g ≠ .ctrl g' c) (k : ℤ) (hk : k < 1) :
    g.controlled k = .error .valueError := by
  rcases (Gate.reachable_normal h).cases' with h | ⟨g1, c, rfl, _, _⟩
  · rw [Gate.atom_controlled h]
    unfold Gate.mkCtrl
    rw [if_pos hk]
  · exact absurd rfl (hg g1 c)

/-- The claim fails for a controlled gate: `X.controlled(2).controlled(-1)` is accepted and *removes* a control. -/
theorem controlled_rejects_counterexample : ¬ RejectsNonPositiveControls := by
  intro h
  have := h (.ctrl (.factory ⟨"X", .builtin fun _ => xMatrix, 1, true⟩ []) 2) (-1)
    (.controlled (g := .factory ⟨"X", .builtin fun _ => xMatrix, 1, true⟩ []) 2 (.factory _ _) rfl) (by norm_num)
  cases this

/-- For a gate with `c` controls, exactly the counts with `c + k ≥ 1` are accepted, and the result has `c + k` controls. -/
theorem controlled_of_controlled (g : Gate) (c : ℕ) (k : ℤ) :
    (Gate.ctrl g c).controlled k = if (c : ℤ) + k < 1 then .error .valueError else .ok (.ctrl g ((c : ℤ) + k).toNat) := rfl

/-! ## C04 -/

/-- A substitution map in which a value may mention its own key but no other key.  (Closed maps, maps to numbers, and single substitutions
are of this kind.) -/
def SelfMap (m : Expr.SymMap) : Prop :=
  (m.map Prod.fst).Nodup ∧ ∀ kv ∈ m, ∀ s ∈ kv.2.free, s ∈ m.map Prod.fst → s = kv.1

theorem closed_selfMap {m : Expr.SymMap} (h : ClosedMap m) : SelfMap m :=
  ⟨h.1, fun kv hkv s hs hmem => absurd hmem (h.2 kv hkv s hs)⟩

/-- **C04.** Binding a gate succeeds, keeps its number of qubits, and its matrix is the original matrix with the substituted values. -/
theorem bind_matrix (g : Gate) (h : g.WF) (m : Expr.SymMap) (hm : SelfMap m)
    (hv : g.AllBase fun b ps => b.ByValue ps ∧ b.ByValue (ps.map (Expr.subSymbols m))) :
    ∃ g', g.bind m = .ok g' ∧ g'.WF ∧ g'.numQubits = g.numQubits ∧
      ∀ ρ, (g'.matrix ρ).Same (g.matrix (updateEnv ρ m)) := by
  induction g with
  | factory b ps =>
    exact ⟨_, rfl, h, rfl, fun ρ => factory_bind_value b ps m ρ hm.1 hm.2 hv.1 hv.2⟩
  | ctrl g k ih =>
    obtain ⟨g1, e1, w1, n1, s1⟩ := ih h.2 hv
    obtain ⟨g2, e2, w2, n2, s2⟩ := Gate.controlled_ok w1 (k : ℤ) (by have := h.1; omega)
    rw [Int.toNat_natCast] at n2 s2
    refine ⟨g2, ?_, w2, ?_, ?_⟩
    · unfold Gate.bind; rw [e1]; exact e2
    · rw [n2, n1]; rfl
    · intro ρ
      refine (s2 ρ).trans ?_
      rw [n1]
      exact ctrlMat_congr (s1 ρ)
  | dag g ih =>
    obtain ⟨g1, e1, w1, n1, s1⟩ := ih h hv
    refine ⟨g1.dagger, ?_, Gate.wf_dagger w1, ?_, ?_⟩
    · unfold Gate.bind; rw [e1]; rfl
    · rw [Gate.numQubits_dagger, n1]; rfl
    · intro ρ
      exact (Gate.dagger_same w1 ρ).trans (s1 ρ).adjoint

/-- **C04.** For gates made through the API, binding never fails and never changes the number of qubits, whatever the map. -/
theorem bind_total (g : Gate) (h : g.Reachable) (m : Expr.SymMap) :
    ∃ g', g.bind m = .ok g' ∧ g'.numQubits = g.numQubits ∧ g'.params = g.params.map (Expr.subSymbols m) :=
  ⟨_, Gate.normal_bind (Gate.reachable_normal h) m, Gate.numQubits_withParams _ _, Gate.params_withParams _ _⟩

/-- **C04.** Binding commutes with `.dagger` (the very same gate results). -/
theorem bind_dagger (g g' : Gate) (h : g.Reachable) (m : Expr.SymMap) (hb : g.bind m = .ok g') :
    g.dagger.bind m = .ok g'.dagger := by
  have hn := Gate.reachable_normal h
  rw [Gate.normal_bind hn] at hb
  cases hb
  rw [Gate.normal_bind (Gate.normal_dagger hn), Gate.dagger_withParams, Gate.params_dagger]

/-- **C04.** Binding commutes with `.controlled(k)`. -/
theorem bind_controlled (g g' gc : Gate) (h : g.Reachable) (m : Expr.SymMap) (k : ℤ) (hb : g.bind m = .ok g')
    (hc : g.controlled k = .ok gc) : gc.bind m = g'.controlled k := by
  have hn := Gate.reachable_normal h
  rw [Gate.normal_bind hn] at hb
  cases hb
  rw [Gate.normal_bind (Gate.normal_controlled hn k hc), Gate.params_controlled k hc]
  rcases hn.cases' with ha | ⟨g1, c, rfl, hc1, ha⟩
  · rw [Gate.atom_controlled ha] at hc
    rw [Gate.atom_controlled (Gate.atom_withParams ha _)]
    unfold Gate.mkCtrl at *
    split at hc
    · cases hc
    · rename_i hlt
      cases hc
      rw [if_neg hlt]; rfl
  · unfold Gate.controlled Gate.mkCtrl at hc
    show _ = (Gate.ctrl (g1.withParams _) c).controlled k
    unfold Gate.controlled Gate.mkCtrl
    split at hc
    · cases hc
    · rename_i hlt
      cases hc
      rw [if_neg hlt]; rfl

/-- **C04.** After binding with a closed map, none of its keys is free in the gate; other symbols come from the gate or from the values. -/
theorem bind_free_symbols (g g' : Gate) (h : g.Reachable) (m : Expr.SymMap) (hb : g.bind m = .ok g') (s : String)
    (hs : s ∈ g'.freeSymbols) : (s ∈ g.freeSymbols ∧ s ∉ m.map Prod.fst) ∨ ∃ kv ∈ m, s ∈ kv.2.free := by
  have hn := Gate.reachable_normal h
  rw [Gate.normal_bind hn] at hb
  cases hb
  unfold Gate.freeSymbols at *
  rw [Gate.params_withParams, Expr.mem_getFreeSymbols] at hs
  obtain ⟨p, hp, hps⟩ := hs
  obtain ⟨q, hq, rfl⟩ := List.mem_map.1 hp
  rcases Expr.mem_free_subSymbols m q s hps with ⟨h1, h2⟩ | h1
  · exact Or.inl ⟨(Expr.mem_getFreeSymbols _ _).2 ⟨q, hq, h1⟩, h2⟩
  · exact Or.inr h1

/-- **C04.** After binding symbols to numbers none of them is free in the gate. -/
theorem bind_numbers_not_free (g g' : Gate) (h : g.Reachable) (m : Expr.SymMap) (hnum : ∀ kv ∈ m, ∃ c, kv.2 = .num c)
    (hb : g.bind m = .ok g') (s : String) (hs : s ∈ m.map Prod.fst) : s ∉ g'.freeSymbols := by
  intro hmem
  rcases bind_free_symbols g g' h m hb s hmem with ⟨_, h2⟩ | ⟨kv, hkv, h3⟩
  · exact h2 hs
  · obtain ⟨c, hc⟩ := hnum kv hkv
    rw [hc] at h3
    simp [Expr.free] at h3

/-- **C04.** Binding in two steps with maps that together form a closed map is binding once with the merged map. -/
theorem bind_bind (g g1 g2 g12 : Gate) (hwf : g.WF) (h : g.Reachable) (m1 m2 : Expr.SymMap) (hm : ClosedMap (m1 ++ m2))
    (hv : ∀ m, g.AllBase fun b ps => b.ByValue ps ∧ b.ByValue (ps.map (Expr.subSymbols m)))
    (h1 : g.bind m1 = .ok g1) (h2 : g1.bind m2 = .ok g2) (h12 : g.bind (m1 ++ m2) = .ok g12) (ρ : String → ℂ)
    (hv1 : ∀ m, g1.AllBase fun b ps => b.ByValue ps ∧ b.ByValue (ps.map (Expr.subSymbols m))) :
    (g2.matrix ρ).Same (g12.matrix ρ) := by
  have hm1 : ClosedMap m1 := by
    refine ⟨?_, ?_⟩
    · have := hm.1; rw [List.map_append, List.nodup_append] at this; exact this.1
    · intro kv hkv s hs hmem
      exact hm.2 kv (by simp [hkv]) s hs (by rw [List.map_append]; exact List.mem_append_left _ hmem)
  have hm2 : ClosedMap m2 := by
    refine ⟨?_, ?_⟩
    · have := hm.1; rw [List.map_append, List.nodup_append] at this; exact this.2.1
    · intro kv hkv s hs hmem
      exact hm.2 kv (by simp [hkv]) s hs (by rw [List.map_append]; exact List.mem_append_right _ hmem)
  obtain ⟨g1', e1, w1, _, s1⟩ := bind_matrix g hwf m1 (closed_selfMap hm1) (hv m1)
  rw [h1] at e1; cases e1
  obtain ⟨g2', e2, _, _, s2⟩ := bind_matrix g1 w1 m2 (closed_selfMap hm2) (hv1 m2)
  rw [h2] at e2; cases e2
  obtain ⟨g12', e12, _, _, s12⟩ := bind_matrix g hwf (m1 ++ m2) (closed_selfMap hm) (hv _)
  rw [h12] at e12; cases e12
  refine ((s2 ρ).trans (s1 _)).trans ?_
  have henv : updateEnv (updateEnv ρ m2) m1 = updateEnv ρ (m1 ++ m2) := by
    funext s
    unfold updateEnv
    rw [List.lookup_append]
    cases hl : m1.lookup s with
    | none => rfl
    | some v =>
      simp only [Option.some_or]
      apply Expr.eval_congr
      intro t ht
      have hnk : t ∉ m2.map Prod.fst := by
        intro hmem
        exact hm.2 (s, v) (by simp [Expr.lookup_mem hl]) t ht
          (by rw [List.map_append]; exact List.mem_append_right _ hmem)
      have : m2.lookup t = none := by
        rw [List.lookup_eq_none_iff]
        intro p hp
        have : t ≠ p.1 := fun he => hnk (List.mem_map.2 ⟨p, hp, he.symm⟩)
        simpa using this
      rw [this]
  rw [henv]
  exact (s12 ρ).symm

/-- **C04.** Replacing the parameters by the gate's own parameters gives the gate back; replacing sets exactly the given parameters. -/
theorem replaceParams_spec (g : Gate) (h : g.Reachable) :
    g.replaceParams g.params = .ok g ∧
    ∀ ps, ∃ g', g.replaceParams ps = .ok g' ∧ g'.params = ps ∧ g'.numQubits = g.numQubits := by
  have hn := Gate.reachable_normal h
  refine ⟨?_, fun ps => ⟨_, Gate.normal_replaceParams hn ps, Gate.params_withParams _ _, Gate.numQubits_withParams _ _⟩⟩
  rw [Gate.normal_replaceParams hn, Gate.withParams_self]

/-- Non-vacuity for C04: a controlled RX with a compound parameter, bound to a number. -/
example : ∃ g g' : Gate, g.Reachable ∧ g.WF ∧ g.freeSymbols = ["a", "b"] ∧ g.bind [("a", .num 2)] = .ok g' ∧
    SelfMap [("a", .num 2)] ∧ g'.freeSymbols = ["b"] := by
  refine ⟨.ctrl (.factory ⟨"RX", param1 rxMatrix, 1, false⟩ [.bin (· * ·) (.sym "a") (.sym "b")]) 1, _,
    .controlled (g := .factory _ _) 1 (.factory _ _) rfl, ⟨le_refl _, builtin_wf _ (by simp [builtinGates, parametricGates]) _⟩, ?_, rfl,
    ⟨by simp, by simp [Expr.free]⟩, ?_⟩
  · simp [Gate.freeSymbols, Gate.params, Expr.getFreeSymbols, Expr.free]
    apply List.mergeSort_of_pairwise
    simp
  · simp [Gate.freeSymbols, Gate.params, Expr.getFreeSymbols, Expr.free, Expr.subSymbols, Expr.subs, Expr.subst1]

/-- The unrestricted claim "binding is simultaneous substitution" of expression parameters. -/
def BindIsSimultaneous : Prop := ∀ (e : Expr) (m : Expr.SymMap) (ρ : String → ℂ), (m.map Prod.fst).Nodup →
  (Expr.subSymbols m e).eval ρ = e.eval (updateEnv ρ m)

/-- It fails for open maps: swapping `x` and `y` in `2*x` gives `2*x` (not `2*y`), because compound expressions are substituted one key at a
time, although for the bare parameter `x` the same map gives `y`. -/
theorem bind_open_map_counterexample : ¬ BindIsSimultaneous ∧
    Expr.subSymbols [("x", .sym "y"), ("y", .sym "x")] (.sym "x") = .sym "y" := by
  constructor
  · intro h
    have h1 := h (.un (fun z => 2 * z) (.sym "x")) [("x", .sym "y"), ("y", .sym "x")]
      (fun s => if s = "x" then 0 else 1) (by decide)
    have hsort : [("x", Expr.sym "y"), ("y", Expr.sym "x")].mergeSort (fun a b => decide (a.1 ≤ b.1)) =
        [("x", Expr.sym "y"), ("y", Expr.sym "x")] := by
      apply List.mergeSort_of_pairwise
      simp
    simp [Expr.subSymbols, Expr.subs, hsort, Expr.subst1, Expr.eval, updateEnv, List.lookup] at h1
  · rfl

/-- The claim "a custom gate called with arguments has the defining matrix with the arguments put in place of the parameters". -/
def CustomCallSimultaneous : Prop := ∀ (d : CustomDef) (ps : List Expr) (ρ : String → ℂ), d.paramsOrdering.Nodup →
  ps.length = d.paramsOrdering.length → ∀ i j,
  ((Factory.custom d).matrix ps ρ).e i j = (d.matrix.e i j).eval (updateEnv ρ (d.paramsOrdering.zip ps))

/-- It fails when an argument mentions another parameter name: a gate with parameters `(a, b)` and an entry `a`, called with `(b, 0)`, gets the
entry 0 instead of `b`. -/
theorem custom_call_counterexample : ¬ CustomCallSimultaneous := by
  intro h
  have h1 := h ⟨"g", 0, ⟨1, 1, fun _ _ => .sym "a"⟩, ["a", "b"]⟩ [.sym "b", .num 0] (fun _ => 1) (by decide) rfl 0 0
  have hsort : [("a", Expr.sym "b"), ("b", Expr.num 0)].mergeSort (fun a b => decide (a.1 ≤ b.1)) =
      [("a", Expr.sym "b"), ("b", Expr.num 0)] := by
    apply List.mergeSort_of_pairwise
    simp
  simp [Factory.matrix, CustomDef.call, Expr.subs, hsort, Expr.subst1, Expr.eval, updateEnv, List.lookup] at h1

/-- Under the naming condition (no argument mentions another parameter of the definition) the call is the simultaneous substitution. -/
theorem custom_by_value (d : CustomDef) (ps : List Expr) (ρ : String → ℂ)
    (h1 : d.paramsOrdering.Nodup) (h2 : ps.length = d.paramsOrdering.length)
    (h4 : ∀ sp ∈ d.paramsOrdering.zip ps, ∀ s ∈ sp.2.free, s ∈ d.paramsOrdering → s = sp.1) (i j : ℕ) :
    ((Factory.custom d).matrix ps ρ).e i j = (d.matrix.e i j).eval (updateEnv ρ (d.paramsOrdering.zip ps)) :=
  custom_matrix_value d ps ρ h1 h2 h4 i j

end ZQ.Gates
