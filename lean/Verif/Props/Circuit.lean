import Verif.Lemmas.Circuit
import Verif.Props.Gates

/-!
# C07, C08, C09, C10: circuits
-/

namespace ZQ.Circuits

open Gates Matrix

/-! ## C07 -/

/-- **C07.** The unitary of a non-empty circuit is the product of its operators, the first operation rightmost. -/
theorem toUnitary_spec (c : Circuit) (ρ : String → ℂ) (hne : c.ops ≠ []) (h : ∀ op ∈ c.ops, op.Valid c.n) :
    ∃ U, c.toUnitary ρ = .ok U ∧ U.rows = 2 ^ c.n ∧ U.cols = 2 ^ c.n ∧
      U.onBits c.n = (c.ops.reverse.map (GateOp.operator c.n ρ)).prod :=
  toUnitary_ok c ρ hne h

/-- **C07.** An empty circuit has no unitary: `TypeError`. -/
theorem toUnitary_empty (n : ℕ) (ρ : String → ℂ) : (Circuit.mk [] n).toUnitary ρ = .error .typeError := rfl

/-- **C07.** The unitary of `c1` followed by `c2` is the product `U2 U1`. -/
theorem toUnitary_append (o1 o2 : List GateOp) (n : ℕ) (ρ : String → ℂ) (U1 U2 U : Mat ℂ)
    (h1 : ∀ op ∈ o1, op.Valid n) (h2 : ∀ op ∈ o2, op.Valid n)
    (e1 : (Circuit.mk o1 n).toUnitary ρ = .ok U1) (e2 : (Circuit.mk o2 n).toUnitary ρ = .ok U2)
    (e : (Circuit.mk (o1 ++ o2) n).toUnitary ρ = .ok U) :
    U.onBits n = U2.onBits n * U1.onBits n := by
  have ne1 : o1 ≠ [] := by rintro rfl; rw [toUnitary_empty] at e1; cases e1
  have ne2 : o2 ≠ [] := by rintro rfl; rw [toUnitary_empty] at e2; cases e2
  obtain ⟨_, f1, _, _, s1⟩ := toUnitary_ok ⟨o1, n⟩ ρ ne1 h1
  obtain ⟨_, f2, _, _, s2⟩ := toUnitary_ok ⟨o2, n⟩ ρ ne2 h2
  obtain ⟨_, f, _, _, s⟩ := toUnitary_ok ⟨o1 ++ o2, n⟩ ρ (by simp [ne1])
    (by intro op hop; rcases List.mem_append.1 hop with h | h; exacts [h1 op h, h2 op h])
  rw [f1] at e1; rw [f2] at e2; rw [f] at e
  cases e1; cases e2; cases e
  simp only at s s1 s2
  rw [s, s1, s2]
  simp

/-- **C07.** Applying the operations one by one to a state is multiplying it by the product of the operators. -/
theorem applyAll_spec (ops : List GateOp) (n : ℕ) (ρ : String → ℂ) (h : ∀ op ∈ ops, op.Valid n) (v : Vec ℂ) (hv : v.dim = 2 ^ n) :
    ∃ w, applyAll ρ ops v = .ok w ∧ w.dim = 2 ^ n ∧
      w.onBits n = (ops.reverse.map (GateOp.operator n ρ)).prod *ᵥ v.onBits n := by
  induction ops generalizing v with
  | nil => exact ⟨v, rfl, hv, by simp⟩
  | cons op ops ih =>
    obtain ⟨w, e, d, s⟩ := apply_spec op (h op (by simp)) ρ v hv
    obtain ⟨w', e', d', s'⟩ := ih (fun o ho => h o (by simp [ho])) w d
    refine ⟨w', ?_, d', ?_⟩
    · unfold applyAll; rw [e]; exact e'
    · rw [s', s]; simp [Matrix.mulVec_mulVec]

/-- **C07.** Applying the operations one by one to a state equals multiplying it by the circuit's unitary. -/
theorem applyAll_toUnitary (c : Circuit) (ρ : String → ℂ) (h : ∀ op ∈ c.ops, op.Valid c.n) (v : Vec ℂ) (hv : v.dim = 2 ^ c.n)
    (U : Mat ℂ) (hU : c.toUnitary ρ = .ok U) :
    ∃ w, applyAll ρ c.ops v = .ok w ∧ w.onBits c.n = U.onBits c.n *ᵥ v.onBits c.n := by
  have hne : c.ops ≠ [] := by
    intro h0
    obtain ⟨ops, n⟩ := c
    simp only at h0
    subst h0
    rw [toUnitary_empty] at hU; cases hU
  obtain ⟨_, f, _, _, s⟩ := toUnitary_ok c ρ hne h
  rw [f] at hU; cases hU
  obtain ⟨w, e, _, t⟩ := applyAll_spec c.ops c.n ρ h v hv
  exact ⟨w, e, by rw [t, s]⟩

/-- An operation with a unitary gate acts unitarily. -/
theorem operator_unitary (n : ℕ) (op : GateOp) (h : op.Valid n) (ρ : String → ℂ)
    (hu : op.gate.AllBase fun b ps => (b.factory.matrix ps ρ).onBits b.numQubits ∈ unitaryGroup (Fin b.numQubits → Bool) ℂ) :
    op.operator n ρ ∈ unitaryGroup (Fin n → Bool) ℂ := by
  obtain ⟨h0, h1, h2, h3, h4⟩ := h
  unfold GateOp.operator
  rw [dif_pos h2]
  apply actOn_unitary
  · intro a b hab
    have := (Fin.mk.injEq _ _ _ _).mp hab
    exact Fin.ext ((List.Nodup.getElem_inj_iff h1).1 this)
  · rw [h3]
    exact gate_unitary _ h4 ρ hu

/-- **C07.** The unitary of a circuit of gates built from unitary factory gates is unitary. -/
theorem toUnitary_unitary (c : Circuit) (ρ : String → ℂ) (h : ∀ op ∈ c.ops, op.Valid c.n) (U : Mat ℂ)
    (hu : ∀ op ∈ c.ops, op.gate.AllBase fun b ps =>
      (b.factory.matrix ps ρ).onBits b.numQubits ∈ unitaryGroup (Fin b.numQubits → Bool) ℂ)
    (hU : c.toUnitary ρ = .ok U) : U.onBits c.n ∈ unitaryGroup (Fin c.n → Bool) ℂ := by
  have hne : c.ops ≠ [] := by
    intro h0
    obtain ⟨ops, n⟩ := c
    simp only at h0
    subst h0
    rw [toUnitary_empty] at hU; cases hU
  obtain ⟨_, f, _, _, s⟩ := toUnitary_ok c ρ hne h
  rw [f] at hU; cases hU
  rw [s]
  apply Submonoid.list_prod_mem
  intro m hm
  obtain ⟨op, hop, rfl⟩ := List.mem_map.1 hm
  have hop' := List.mem_reverse.1 hop
  exact operator_unitary c.n op (h op hop') ρ (hu op hop')

/-- A concrete two-operation circuit: X on qubit 1, then a controlled Z (control 0, target 2), on 3 qubits. -/
noncomputable def exampleCircuit : Circuit :=
  ⟨[⟨.factory ⟨"X", .builtin fun _ => xMatrix, 1, true⟩ [], [1]⟩,
    ⟨.ctrl (.factory ⟨"Z", .builtin fun _ => zMatrix, 1, true⟩ []) 1, [0, 2]⟩], 3⟩

/-- The example circuit meets the hypotheses of the C07 theorems. -/
theorem exampleCircuit_valid : exampleCircuit.ops ≠ [] ∧ (∀ op ∈ exampleCircuit.ops, op.Valid exampleCircuit.n) ∧
    ∀ op ∈ exampleCircuit.ops, op.gate.AllBase fun b ps =>
      (b.factory.matrix ps fun _ => 0).onBits b.numQubits ∈ unitaryGroup (Fin b.numQubits → Bool) ℂ := by
  have hX : (Gate.factory ⟨"X", .builtin fun _ => xMatrix, 1, true⟩ []).WF := builtin_wf _ (by simp [builtinGates, fixedGates]) _
  have hZ : (Gate.factory ⟨"Z", .builtin fun _ => zMatrix, 1, true⟩ []).WF := builtin_wf _ (by simp [builtinGates, fixedGates]) _
  refine ⟨by simp [exampleCircuit], ?_, ?_⟩
  · intro op hop
    simp only [exampleCircuit, List.mem_cons, List.not_mem_nil, or_false] at hop
    rcases hop with rfl | rfl
    · exact ⟨by simp, by simp, by simp [exampleCircuit], rfl, hX⟩
    · exact ⟨by simp, by simp, by simp [exampleCircuit], rfl, le_refl _, hZ⟩
  · intro op hop
    simp only [exampleCircuit, List.mem_cons, List.not_mem_nil, or_false] at hop
    rcases hop with rfl | rfl
    · exact x_unitary
    · exact z_unitary

/-! ## C08 -/

/-- **C08.** Without an explicit size, a circuit is sized by its largest qubit index plus one (0 for no operations). -/
theorem make_default (ops : List GateOp) (c : Circuit) (h : Circuit.make ops none = .ok c) :
    c.ops = ops ∧ (∀ op ∈ ops, ∀ q ∈ op.qubits, q < c.n) ∧
      (if ops = [] then c.n = 0 else ∃ op ∈ ops, c.n - 1 ∈ op.qubits ∧ 0 < c.n) := by
  unfold Circuit.make sizeByOperations at h
  cases ops with
  | nil => cases h; simp
  | cons o os =>
    simp only [List.isEmpty_cons, Bool.false_eq_true, ↓reduceIte] at h
    cases hm : ((o :: os).flatMap GateOp.qubits).max? with
    | none => rw [hm] at h; cases h
    | some m =>
      rw [hm] at h; cases h
      have hmax := List.max?_eq_some_iff.1 hm
      refine ⟨rfl, ?_, ?_⟩
      · intro op hop q hq
        have : q ≤ m := hmax.2 q (List.mem_flatMap.2 ⟨op, hop, hq⟩)
        show q < m + 1
        omega
      · rw [if_neg (by simp)]
        obtain ⟨op, hop, hq⟩ := List.mem_flatMap.1 hmax.1
        exact ⟨op, hop, by simpa using hq, by simp⟩

/-- **C08.** A size given explicitly as a positive whole number is kept. -/
theorem make_explicit (ops : List GateOp) (n : ℕ) (hn : 0 < n) : Circuit.make ops (some (n : ℚ)) = .ok ⟨ops, n⟩ :=
  make_natCast_pos ops n (by omega)

/-- **C08.** An explicit size that is not a non-negative whole number is rejected. -/
theorem make_rejects (ops : List GateOp) (q : ℚ) (hq : ¬ ∃ n : ℕ, q = n) : Circuit.make ops (some q) = .error .valueError := by
  unfold Circuit.make
  have h0 : q ≠ 0 := by rintro rfl; exact hq ⟨0, by simp⟩
  simp only
  rw [if_pos h0]
  split
  · rfl
  · rename_i h1
    simp only [ne_eq, not_not] at h1
    rw [if_pos]
    by_contra h2
    apply hq
    refine ⟨(pyInt q).toNat, ?_⟩
    have h3 : ((pyInt q).toNat : ℤ) = pyInt q := by omega
    have h4 : (((pyInt q).toNat : ℤ) : ℚ) = (pyInt q : ℚ) := by rw [h3]
    rw [← h1] at h4
    rw [Int.cast_natCast] at h4
    exact h4.symm

/-- **C08.** Size zero and no size are the same. -/
theorem make_zero (ops : List GateOp) : Circuit.make ops (some 0) = Circuit.make ops none := by
  simp [Circuit.make]

/-- Every circuit made by the constructor satisfies the size invariant. -/
theorem make_inv (ops : List GateOp) (n : Option ℚ) (c : Circuit) (h : Circuit.make ops n = .ok c) : c.Inv := by
  have key : ∀ c, Circuit.make ops none = .ok c → c.Inv := by
    intro c hc h0
    obtain ⟨h1, _, h3⟩ := make_default ops c hc
    by_cases he : ops = []
    · rw [h1, he]
    · rw [if_neg he] at h3
      obtain ⟨_, _, _, hpos⟩ := h3
      omega
  cases n with
  | none => exact key c h
  | some q =>
    by_cases hq : q = 0
    · subst hq; rw [make_zero] at h; exact key c h
    · unfold Circuit.make at h
      simp only at h
      rw [if_pos hq] at h
      split at h
      · cases h
      · split at h
        · cases h
        · cases h
          intro h0
          simp only at h0
          omega

/-- **C08.** `circuit + circuit` appends the operations and takes the larger register; nothing else happens. -/
theorem append_circuit (c d : Circuit) (hc : c.Inv) (hd : d.Inv) :
    append c (.circuit d) = .ok ⟨c.ops ++ d.ops, max c.n d.n⟩ := by
  apply make_natCast
  intro h0
  rw [hc (by omega), hd (by omega)]; rfl

/-- **C08.** `circuit + operation` appends the operation; the register grows to fit its largest qubit. -/
theorem append_op (c : Circuit) (o : GateOp) (m : ℕ) (hm : o.qubits.max? = some m) :
    append c (.op o) = .ok ⟨c.ops ++ [o], max c.n (m + 1)⟩ := by
  have : append c (.op o) = Circuit.make (c.ops ++ [o]) (some ((max c.n (m + 1) : ℕ) : ℚ)) := by
    simp only [append, hm]
  rw [this]
  exact make_natCast_pos _ _ (by omega)

/-- **C08.** Adding an operation is adding the circuit made of this one operation. -/
theorem append_op_eq_circuit (c d : Circuit) (hc : c.Inv) (o : GateOp) (hd : Circuit.make [o] none = .ok d) :
    append c (.op o) = append c (.circuit d) := by
  have hdi := make_inv _ _ _ hd
  rw [append_circuit c d hc hdi]
  unfold Circuit.make sizeByOperations at hd
  simp only [List.isEmpty_cons, Bool.false_eq_true, ↓reduceIte, List.flatMap_cons, List.flatMap_nil, List.append_nil] at hd
  cases hm : o.qubits.max? with
  | none => rw [hm] at hd; cases hd
  | some m =>
    rw [hm] at hd; cases hd
    rw [append_op c o m hm]

/-- **C08.** Addition is associative. -/
theorem append_assoc (c d e cd de : Circuit) (hc : c.Inv) (hd : d.Inv) (he : e.Inv)
    (h1 : append c (.circuit d) = .ok cd) (h2 : append d (.circuit e) = .ok de) :
    append cd (.circuit e) = append c (.circuit de) := by
  have i1 := make_inv (c.ops ++ d.ops) (some ((max c.n d.n : ℕ) : ℚ)) _ h1
  have i2 := make_inv (d.ops ++ e.ops) (some ((max d.n e.n : ℕ) : ℚ)) _ h2
  rw [append_circuit cd e i1 he, append_circuit c de hc i2]
  rw [append_circuit c d hc hd] at h1
  rw [append_circuit d e hd he] at h2
  cases h1; cases h2
  simp [max_assoc]

/-- **C08.** Adding anything else is rejected. -/
theorem append_other (c : Circuit) : append c .other = .error .notImplemented := rfl

/-- Non-vacuity: adding an operation on qubit 4 to the 3-qubit example gives 5 qubits and 3 operations. -/
example : ∃ c, append exampleCircuit (.op ⟨.factory ⟨"X", .builtin fun _ => xMatrix, 1, true⟩ [], [4]⟩) = .ok c ∧
    c.n = 5 ∧ c.ops.length = 3 :=
  ⟨_, append_op _ _ 4 rfl, by decide, rfl⟩

/-! ## C09 -/

/-- **C09.** Binding a circuit of API-made gates succeeds; it keeps the register and, operation by operation, the qubits and the number of
operations; each operation is bound. -/
theorem circuit_bind_spec (c : Circuit) (hc : c.Inv) (hr : ∀ op ∈ c.ops, op.gate.Reachable) (m : Expr.SymMap) :
    ∃ d, c.bind m = .ok d ∧ d.n = c.n ∧ d.ops.length = c.ops.length ∧
      d.ops.map GateOp.qubits = c.ops.map GateOp.qubits ∧
      List.Forall₂ (fun op op' => op.gate.bind m = .ok op'.gate) c.ops d.ops := by
  have hb : ∀ op ∈ c.ops, ∃ op', op.bind m = .ok op' ∧ op'.qubits = op.qubits ∧ op.gate.bind m = .ok op'.gate := by
    intro op hop
    obtain ⟨g', e, _, _⟩ := bind_total op.gate (hr op hop) m
    exact ⟨⟨g', op.qubits⟩, by unfold GateOp.bind; rw [e]; rfl, rfl, e⟩
  have key : ∀ ops : List GateOp, (∀ op ∈ ops, ∃ op', op.bind m = .ok op' ∧ op'.qubits = op.qubits ∧ op.gate.bind m = .ok op'.gate) →
      ∃ ops', ops.mapM (fun op => op.bind m) = Except.ok ops' ∧ ops'.length = ops.length ∧
        ops'.map GateOp.qubits = ops.map GateOp.qubits ∧
        List.Forall₂ (fun op op' => op.gate.bind m = .ok op'.gate) ops ops' := by
    intro ops
    induction ops with
    | nil => intro _; exact ⟨[], rfl, rfl, rfl, .nil⟩
    | cons o os ih =>
      intro h
      obtain ⟨o', e1, e2, e3⟩ := h o (by simp)
      obtain ⟨os', f1, f2, f3, f4⟩ := ih (fun op hop => h op (by simp [hop]))
      refine ⟨o' :: os', ?_, by simp [f2], by simp [e2, f3], .cons e3 f4⟩
      rw [List.mapM_cons, e1, f1]; rfl
  obtain ⟨ops', f1, f2, f3, f4⟩ := key c.ops hb
  refine ⟨⟨ops', c.n⟩, ?_, rfl, f2, f3, f4⟩
  unfold Circuit.bind
  rw [f1]
  show Circuit.make ops' (some (c.n : ℚ)) = _
  apply make_natCast
  intro h0
  have := hc h0
  rw [this] at f2
  exact List.length_eq_zero_iff.1 f2

/-- **C09.** Binding distributes over circuit addition. -/
theorem circuit_bind_append (c d cd c' d' : Circuit) (hc : c.Inv) (hd : d.Inv)
    (m : Expr.SymMap) (e : append c (.circuit d) = .ok cd)
    (ec : c.bind m = .ok c') (ed : d.bind m = .ok d') :
    cd.bind m = append c' (.circuit d') := by
  rw [append_circuit c d hc hd] at e
  cases e
  have unpack : ∀ (a a' : Circuit), a.Inv → a.bind m = .ok a' → a.ops.mapM (fun op => op.bind m) = Except.ok a'.ops ∧ a'.n = a.n ∧ a'.Inv := by
    intro a a' ha h
    unfold Circuit.bind at h
    cases hm : a.ops.mapM (fun op => op.bind m) with
    | error er => rw [hm] at h; cases h
    | ok ops =>
      rw [hm] at h
      have h' : Circuit.make ops (some (a.n : ℚ)) = .ok a' := h
      have hlen : a.n = 0 → ops = [] := by
        intro h0
        rw [ha h0] at hm
        cases hm; rfl
      have hi := make_inv _ _ _ h'
      rw [make_natCast _ _ hlen] at h'
      cases h'
      exact ⟨rfl, rfl, hi⟩
  obtain ⟨c1, c2, c3⟩ := unpack c c' hc ec
  obtain ⟨d1, d2, d3⟩ := unpack d d' hd ed
  rw [append_circuit c' d' c3 d3]
  unfold Circuit.bind
  rw [List.mapM_append]
  simp only [c1, d1]
  show Circuit.make (c'.ops ++ d'.ops) (some ((max c.n d.n : ℕ) : ℚ)) = _
  rw [make_natCast, c2, d2]
  intro h0
  rw [c3 (by omega), d3 (by omega)]; rfl

/-- **C09.** `free_symbols` lists every free symbol of some operation exactly once, in order of first appearance. -/
theorem circuit_free_symbols (c : Circuit) :
    c.freeSymbols.Nodup ∧ (∀ s, s ∈ c.freeSymbols ↔ ∃ op ∈ c.ops, s ∈ op.gate.freeSymbols) ∧
      c.freeSymbols.Pairwise (fun s t =>
        (c.ops.flatMap fun op => op.gate.freeSymbols).idxOf s < (c.ops.flatMap fun op => op.gate.freeSymbols).idxOf t) := by
  rw [freeSymbols_eq]
  obtain ⟨h1, h2, h3⟩ := addSymbol_spec (c.ops.flatMap GateOp.freeSymbols)
  refine ⟨h1, ?_, h3⟩
  intro s
  rw [h2 s, List.mem_flatMap]
  rfl

/-- **C09.** After binding all free symbols to numbers no free symbol is left. -/
theorem circuit_bind_all (c d : Circuit) (hc : c.Inv) (hr : ∀ op ∈ c.ops, op.gate.Reachable) (m : Expr.SymMap)
    (hnum : ∀ kv ∈ m, ∃ v, kv.2 = Expr.num v) (hall : ∀ s ∈ c.freeSymbols, s ∈ m.map Prod.fst)
    (hb : c.bind m = .ok d) : d.freeSymbols = [] := by
  obtain ⟨d', e, _, _, _, f⟩ := circuit_bind_spec c hc hr m
  rw [e] at hb; cases hb
  rw [List.eq_nil_iff_forall_not_mem]
  intro s hs
  obtain ⟨op', hop', hs'⟩ := ((circuit_free_symbols d).2.1 s).1 hs
  have hex : ∃ op ∈ c.ops, op.gate.bind m = .ok op'.gate := by
    clear hs hall e hr hc
    revert f hop'
    generalize c.ops = l
    generalize d.ops = l'
    intro f hop'
    induction f with
    | nil => simp at hop'
    | cons h _ ih =>
      rcases List.mem_cons.1 hop' with rfl | h'
      · exact ⟨_, by simp, h⟩
      · obtain ⟨op, h1, h2⟩ := ih h'
        exact ⟨op, by simp [h1], h2⟩
  obtain ⟨op, hop, hbo⟩ := hex
  rcases bind_free_symbols op.gate op'.gate (hr op hop) m hbo s hs' with ⟨h1, h2⟩ | ⟨kv, hkv, h3⟩
  · exact h2 (hall s (((circuit_free_symbols c).2.1 s).2 ⟨op, hop, h1⟩))
  · obtain ⟨v, hv⟩ := hnum kv hkv
    rw [hv] at h3
    simp [Expr.free] at h3

/-! ## C10 -/

/-- **C10.** `split_circuit` succeeds; the segments concatenated are the original operations; each segment is non-empty, has the register size of
the circuit, all its operations have the reported predicate value, and adjacent segments have different values. -/
theorem split_spec {β : Type} [DecidableEq β] (c : Circuit) (hc : c.Inv) (p : GateOp → β) :
    ∃ segs, splitCircuit c p = .ok segs ∧ segs.flatMap (fun s => s.2.ops) = c.ops ∧
      (∀ s ∈ segs, s.2.ops ≠ [] ∧ s.2.n = c.n ∧ ∀ op ∈ s.2.ops, p op = s.1) ∧
      segs.IsChain (fun s t => s.1 ≠ t.1) := by
  obtain ⟨h1, h2, h3⟩ := groupby_spec p c.ops
  have hm : splitCircuit c p = .ok ((groupby p c.ops).map fun kg => (kg.1, (⟨kg.2, c.n⟩ : Circuit))) := by
    unfold splitCircuit
    apply UnitaryTools.mapM_except_ok
    intro kg hkg
    rw [make_natCast]
    · rfl
    · intro h0
      exfalso
      rw [hc h0] at hkg
      simp [groupby] at hkg
  refine ⟨_, hm, ?_, ?_, ?_⟩
  · rw [List.flatMap_map]
    exact h1
  · intro s hs
    obtain ⟨kg, hkg, rfl⟩ := List.mem_map.1 hs
    exact ⟨(h2 kg hkg).1, rfl, (h2 kg hkg).2⟩
  · rw [List.isChain_map]
    exact h3

/-- Non-vacuity: the example circuit split by "acts on one qubit" has two segments. -/
example : ∃ segs, splitCircuit exampleCircuit (fun op => decide (op.qubits.length = 1)) = .ok segs ∧ segs.length = 2 ∧
    exampleCircuit.Inv :=
  ⟨[(true, ⟨[exampleCircuit.ops[0]], 3⟩), (false, ⟨[exampleCircuit.ops[1]], 3⟩)], by
    obtain ⟨_, h, _⟩ := split_spec exampleCircuit (by intro h; cases h) (fun op => decide (op.qubits.length = 1))
    unfold splitCircuit at *
    have : groupby (fun op : GateOp => decide (op.qubits.length = 1)) exampleCircuit.ops =
      [(true, [exampleCircuit.ops[0]]), (false, [exampleCircuit.ops[1]])] := by
      simp [exampleCircuit, groupby]
    rw [this]
    have h3 := make_natCast_pos
    simp only [List.mapM_cons, List.mapM_nil]
    rw [h3 _ exampleCircuit.n (by decide), h3 _ exampleCircuit.n (by decide)]
    rfl, rfl, by intro h; cases h⟩

end ZQ.Circuits
