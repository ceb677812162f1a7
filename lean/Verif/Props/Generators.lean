import Verif.Model.Generators
import Verif.Lemmas.ExceptList
import Verif.Props.Circuit
import Verif.Props.BuiltinMeaning

/-!
# C14, C15: circuit generators and multi-phase operations
-/

namespace ZQ.Circuits

open Gates Matrix

/-! ## C14 -/

/-- What is assumed of the iteration order of `set(l)`: every element once. -/
def IsSetOrder (f : List ℕ → List ℕ) : Prop := ∀ l, (f l).Nodup ∧ ∀ x, x ∈ f l ↔ x ∈ l

/-- CPython's order of a set of the integers `0..n-1` inserted in order: ascending. -/
def RangeAscending (f : List ℕ → List ℕ) : Prop := ∀ n, f (List.range n) = List.range n

theorem appendOps_ok {α : Type} (l : List α) (g : α → Gate) (q : α → ℕ) (c : Circuit) :
    ∃ c', appendOps c (l.map fun a => ⟨g a, [q a]⟩) = .ok c' ∧ c'.ops = c.ops ++ l.map (fun a => ⟨g a, [q a]⟩) ∧
      c.n ≤ c'.n ∧ (∀ a ∈ l, q a < c'.n) ∧ (c'.n = c.n ∨ ∃ a ∈ l, c'.n = q a + 1) := by
  induction l generalizing c with
  | nil => exact ⟨c, rfl, by simp, le_refl _, by simp, Or.inl rfl⟩
  | cons a l ih =>
    have h1 := append_op c ⟨g a, [q a]⟩ (q a) rfl
    obtain ⟨c', e, o, n1, n2, n3⟩ := ih ⟨c.ops ++ [⟨g a, [q a]⟩], max c.n (q a + 1)⟩
    refine ⟨c', ?_, ?_, ?_, ?_, ?_⟩
    · rw [List.map_cons]; unfold appendOps; rw [h1]; exact e
    · rw [o]; simp
    · exact le_trans (le_max_left _ _) n1
    · intro b hb
      rcases List.mem_cons.1 hb with rfl | hb
      · exact lt_of_lt_of_le (Nat.lt_succ_self _) (le_trans (le_max_right _ _) n1)
      · exact n2 b hb
    · rcases n3 with h | ⟨b, hb, h⟩
      · simp only at h
        rcases max_choice c.n (q a + 1) with hm | hm
        · left; rw [h, hm]
        · right; exact ⟨a, by simp, by rw [h, hm]⟩
      · right; exact ⟨b, by simp [hb], h⟩

theorem count_single (l : List ℕ) (hl : l.Nodup) (g : ℕ → Gate) (q : ℕ) :
    ((l.map fun a => (⟨g a, [a]⟩ : GateOp)).countP fun o => o.qubits == [q]) = if q ∈ l then 1 else 0 := by
  rw [List.countP_map]
  have : ((fun o : GateOp => o.qubits == [q]) ∘ fun a => (⟨g a, [a]⟩ : GateOp)) = fun a => a == q := by
    funext a
    simp
  rw [this]
  show l.count q = _
  by_cases h : q ∈ l
  · rw [if_pos h, List.count_eq_one_of_mem hl h]
  · rw [if_neg h, List.count_eq_zero_of_not_mem h]

/-- **C14.** `apply_gate_to_qubits` without parameters keeps the circuit's operations and appends the gate exactly once on each distinct
requested qubit and nowhere else; the register grows just enough. -/
theorem apply_gate_spec (f : List ℕ → List ℕ) (hf : IsSetOrder f) (c : Circuit) (qs : List ℕ) (gate : List Expr → Gate) :
    ∃ c' new, applyGateToQubits f c qs gate none = .ok c' ∧ c'.ops = c.ops ++ new ∧
      (∀ o ∈ new, o.gate = gate [] ∧ ∃ q ∈ qs, o.qubits = [q]) ∧
      (∀ q, (new.countP fun o => o.qubits == [q]) = if q ∈ qs then 1 else 0) ∧
      c.n ≤ c'.n ∧ (∀ q ∈ qs, q < c'.n) ∧ (c'.n = c.n ∨ ∃ q ∈ qs, c'.n = q + 1) := by
  obtain ⟨c', e, o, n1, n2, n3⟩ := appendOps_ok (f qs) (fun _ => gate []) (fun q => q) c
  refine ⟨c', _, e, o, ?_, ?_, n1, ?_, ?_⟩
  · intro x hx
    obtain ⟨q, hq, rfl⟩ := List.mem_map.1 hx
    exact ⟨rfl, q, ((hf qs).2 q).1 hq, rfl⟩
  · intro q
    rw [count_single (f qs) (hf qs).1 (fun _ => gate []) q]
    simp only [(hf qs).2 q]
  · intro q hq; exact n2 q (((hf qs).2 q).2 hq)
  · rcases n3 with h | ⟨a, ha, h⟩
    · exact Or.inl h
    · exact Or.inr ⟨a, ((hf qs).2 a).1 ha, h⟩

/-- **C14.** With parameters: one parameter tuple per distinct qubit is required (`AssertionError` otherwise); then parameter tuple `i` goes to
the `i`-th qubit in set order. -/
theorem apply_gate_params (f : List ℕ → List ℕ) (c : Circuit) (qs : List ℕ) (gate : List Expr → Gate) (ps : List (List Expr)) :
    (ps.length ≠ (f qs).length → applyGateToQubits f c qs gate (some ps) = .error .assertionError) ∧
    (ps.length = (f qs).length → ∃ c', applyGateToQubits f c qs gate (some ps) = .ok c' ∧
      c'.ops = c.ops ++ ((f qs).zip ps).map (fun qp => ⟨gate qp.2, [qp.1]⟩) ∧
      c.n ≤ c'.n ∧ (∀ q ∈ f qs, q < c'.n) ∧ (c'.n = c.n ∨ ∃ q ∈ f qs, c'.n = q + 1)) := by
  constructor
  · intro h
    show (if ps.length = (f qs).length then _ else _) = _
    rw [if_neg h]
  · intro h
    obtain ⟨c', e, o, n1, n2, n3⟩ := appendOps_ok ((f qs).zip ps) (fun qp => gate qp.2) (fun qp => qp.1) c
    refine ⟨c', ?_, o, n1, ?_, ?_⟩
    · show (if ps.length = (f qs).length then _ else _) = _
      rw [if_pos h]; exact e
    · intro q hq
      obtain ⟨i, hi, rfl⟩ := List.mem_iff_getElem.1 hq
      have hz : i < ((f qs).zip ps).length := by rw [List.length_zip]; omega
      have := n2 _ (List.getElem_mem hz)
      simpa using this
    · rcases n3 with h' | ⟨a, ha, h'⟩
      · exact Or.inl h'
      · exact Or.inr ⟨a.1, (List.of_mem_zip ha).1, h'⟩

/-- **C14.** A layer without parameters is the gate on qubit 0, 1, ..., n-1 in this order, on an `n`-qubit register. -/
theorem layer_spec (f : List ℕ → List ℕ) (hf : RangeAscending f) (n : ℕ) (gate : List Expr → Gate) :
    createLayerOfGates f n gate none = .ok ⟨(List.range n).map fun q => ⟨gate [], [q]⟩, n⟩ := by
  obtain ⟨c', e, o, n1, n2, n3⟩ := appendOps_ok (f (List.range n)) (fun _ => gate []) (fun q => q) ⟨[], 0⟩
  have : createLayerOfGates f n gate none = .ok c' := e
  rw [this]
  rw [hf n] at o n2 n3
  obtain ⟨ops, m⟩ := c'
  simp only [List.nil_append] at o n1 n2 n3
  subst o
  have hm : m = n := by
    rcases n3 with h | ⟨a, ha, h⟩
    · rcases Nat.eq_zero_or_pos n with h0 | h0
      · omega
      · have := n2 (n - 1) (List.mem_range.2 (by omega)); omega
    · have ha' := List.mem_range.1 ha
      have := n2 (n - 1) (List.mem_range.2 (by omega))
      omega
  rw [hm]

/-- **C14.** A layer with parameters has the gate with parameter tuple `i` on qubit `i`; a wrong number of tuples is rejected. -/
theorem layer_params (f : List ℕ → List ℕ) (hf : RangeAscending f) (n : ℕ) (gate : List Expr → Gate) (ps : List (List Expr)) :
    (ps.length ≠ n → createLayerOfGates f n gate (some ps) = .error .assertionError) ∧
    (ps.length = n → ∃ c, createLayerOfGates f n gate (some ps) = .ok c ∧ c.n = n ∧ c.ops.length = n ∧
      ∀ i (hi : i < ps.length), c.ops[i]? = some ⟨gate ps[i], [i]⟩) := by
  obtain ⟨h1, h2⟩ := apply_gate_params f ⟨[], 0⟩ (List.range n) gate ps
  rw [hf n, List.length_range] at h1 h2
  refine ⟨h1, fun h => ?_⟩
  obtain ⟨c, e, o, n1, n2, n3⟩ := h2 h
  refine ⟨c, e, ?_, ?_, ?_⟩
  · rcases n3 with h' | ⟨a, ha, h'⟩
    · rcases Nat.eq_zero_or_pos n with h0 | h0
      · simp only at h'; omega
      · have := n2 (n - 1) (List.mem_range.2 (by omega)); simp only at h'; omega
    · have ha' := List.mem_range.1 ha
      have := n2 (n - 1) (List.mem_range.2 (by omega))
      omega
  · rw [o]; simp [h]
  · intro i hi
    rw [o]
    have hin : i < n := by omega
    simp [List.getElem?_zip_eq_some, List.zip, hi, hin]

/-- The identity gate acts as the identity operator. -/
theorem identity_operator (n q : ℕ) (hq : q < n) (ρ : String → ℂ) : (GateOp.mk identityGate [q]).operator n ρ = 1 := by
  unfold GateOp.operator
  have hv : ∀ x ∈ [q], x < n := by simpa using hq
  rw [dif_pos hv]
  have : (identityGate.matrix ρ).onBits 1 = 1 := fixed_one_qubit_gates.2.2.2.1
  show actOn _ ((identityGate.matrix ρ).onBits 1) = 1
  rw [this]
  exact actOn_one _

/-- **C14.** `add_ancilla_register` keeps the operations, appends one identity gate on each of the `k` new qubits, makes the register `k` qubits
larger, and the added operations act as the identity operator. -/
theorem ancilla_spec (c : Circuit) (k : ℕ) (ρ : String → ℂ) :
    ∃ new, addAncillaRegister c k = .ok ⟨c.ops ++ new, c.n + k⟩ ∧ new.map GateOp.qubits = (List.range k).map (fun i => [c.n + i]) ∧
      (∀ o ∈ new, o.gate = identityGate ∧ o.gate.numQubits = 1) ∧ ∀ o ∈ new, o.operator (c.n + k) ρ = 1 := by
  obtain ⟨c', e, o, n1, n2, n3⟩ := appendOps_ok (List.range k) (fun _ => identityGate) (fun i => c.n + i) c
  have hn : c'.n = c.n + k := by
    rcases n3 with h | ⟨a, ha, h⟩
    · rcases Nat.eq_zero_or_pos k with h0 | h0
      · omega
      · have := n2 (k - 1) (List.mem_range.2 (by omega)); omega
    · have ha' := List.mem_range.1 ha
      have := n2 (k - 1) (List.mem_range.2 (by omega))
      omega
  refine ⟨(List.range k).map fun i => ⟨identityGate, [c.n + i]⟩, ?_, ?_, ?_, ?_⟩
  · show appendOps c _ = _
    rw [e]
    obtain ⟨ops, m⟩ := c'
    simp only at o hn
    rw [o, hn]
  · simp
  · intro x hx
    obtain ⟨i, _, rfl⟩ := List.mem_map.1 hx
    exact ⟨rfl, rfl⟩
  · intro x hx
    obtain ⟨i, hi, rfl⟩ := List.mem_map.1 hx
    exact identity_operator _ _ (by have := List.mem_range.1 hi; omega) ρ

/-- Non-vacuity: an order function satisfying both assumptions exists. -/
example : IsSetOrder (fun l => l.dedup) ∧ RangeAscending (fun l => l.dedup) :=
  ⟨fun l => ⟨List.nodup_dedup l, fun _ => List.mem_dedup⟩, fun _ => List.Nodup.dedup List.nodup_range⟩

/-! ## C15 -/

namespace MultiPhase

/-- **C15.** Non-real number parameters are rejected by the constructor. -/
theorem make_rejects_complex (ps : List Expr) (c : ℂ) (h : .num c ∈ ps) (hc : c.im ≠ 0) : make ps = .error .valueError := by
  unfold make
  rw [if_pos]
  rw [List.any_eq_true]
  exact ⟨_, h, by simpa using hc⟩

/-- **C15.** All other parameter lists are accepted unchanged. -/
theorem make_accepts (ps : List Expr) (h : ∀ c, .num c ∈ ps → c.im = 0) : make ps = .ok ⟨ps⟩ := by
  unfold make
  rw [if_neg]
  rw [List.any_eq_true]
  rintro ⟨p, hp, hx⟩
  cases p with
  | num c => simp [h c hp] at hx
  | sym s => simp at hx
  | un f a => simp at hx
  | bin f a b => simp at hx

/-- **C15.** A length mismatch is rejected. -/
theorem apply_length_mismatch (op : MultiPhase) (v : List ℂ) (h : v.length ≠ op.params.length) : op.apply v = .error .valueError := by
  unfold apply
  rw [if_pos h]

/-- **C15.** Unbound symbols, and parameters whose value is not real, are rejected on application. -/
theorem apply_rejects (op : MultiPhase) (v : List ℂ) (hl : v.length = op.params.length) (e : Expr) (he : e ∈ op.params)
    (h : e.free ≠ [] ∨ (e.eval fun _ => 0).im ≠ 0) : op.apply v = .error .runtimeError := by
  have : toFloat e = none := by
    unfold toFloat
    rw [if_neg]
    rintro ⟨h1, h2⟩
    rcases h with h | h
    · exact h h1
    · exact h h2
  unfold apply
  rw [if_neg (not_not.2 hl), mapM_none_of_mem _ _ e he this]

/-- **C15.** With closed real parameters, application multiplies amplitude `i` by `exp(i·phase_i)` and does not change any outcome
probability. -/
theorem apply_spec (op : MultiPhase) (v : List ℂ) (hl : v.length = op.params.length)
    (h : ∀ e ∈ op.params, e.free = [] ∧ (e.eval fun _ => 0).im = 0) :
    ∃ w, op.apply v = .ok w ∧ w.length = v.length ∧
      (∀ i (hi : i < v.length) (hi' : i < op.params.length),
        w[i]? = some (v[i] * Complex.exp (Complex.I * op.params[i].eval fun _ => 0))) ∧
      w.map Complex.normSq = v.map Complex.normSq := by
  have hm := mapM_some_of toFloat (fun e => (e.eval fun _ => 0).re) op.params (by
    intro e he
    unfold toFloat
    rw [if_pos (h e he)])
  refine ⟨List.zipWith (fun (a : ℂ) (x : ℝ) => a * Complex.exp ((x : ℂ) * Complex.I)) v (op.params.map fun e => (e.eval fun _ => 0).re), ?_, ?_, ?_, ?_⟩
  · unfold apply
    rw [if_neg (not_not.2 hl), hm]
  · simp [hl]
  · intro i hi hi'
    rw [List.getElem?_zipWith_eq_some]
    refine ⟨v[i], (op.params[i].eval fun _ => 0).re, by simp [hi], by simp [hi'], ?_⟩
    have him := (h _ (List.getElem_mem hi')).2
    have hz : (((op.params[i].eval fun _ => 0).re : ℝ) : ℂ) = op.params[i].eval fun _ => 0 := by
      apply Complex.ext <;> simp [him]
    rw [hz, mul_comm Complex.I]
  · apply List.ext_getElem
    · simp [hl]
    · intro i h1 h2
      simp only [List.getElem_map, List.getElem_zipWith]
      rw [Complex.normSq_mul, Complex.normSq_eq_norm_sq (Complex.exp _), Complex.norm_exp_ofReal_mul_I]
      simp

/-- **C15.** Binding all symbols to real numbers, then applying: amplitude `i` is multiplied by the phase of parameter `i` at these values. -/
theorem bind_apply (op op' : MultiPhase) (m : Expr.SymMap) (hk : (m.map Prod.fst).Nodup)
    (hm : ∀ kv ∈ m, ∃ r : ℝ, kv.2 = .num r) (hb : op.bind m = .ok op')
    (hall : ∀ e ∈ op.params, ∀ s ∈ e.free, s ∈ m.map Prod.fst)
    (hreal : ∀ e ∈ op.params, (e.eval (updateEnv (fun _ => 0) m)).im = 0) (v : List ℂ) (hl : v.length = op.params.length) :
    ∃ w, op'.apply v = .ok w ∧ w.length = v.length ∧
      (∀ i (hi : i < v.length) (hi' : i < op.params.length),
        w[i]? = some (v[i] * Complex.exp (Complex.I * op.params[i].eval (updateEnv (fun _ => 0) m)))) ∧
      w.map Complex.normSq = v.map Complex.normSq := by
  have hop : op'.params = op.params.map (Expr.subSymbols m) := by
    unfold bind make at hb
    split at hb
    · cases hb
    · cases hb; rfl
  have hfree : ∀ kv ∈ m, ∀ s ∈ kv.2.free, s ∈ m.map Prod.fst → s = kv.1 := by
    intro kv hkv s hs
    obtain ⟨r, hr⟩ := hm kv hkv
    rw [hr] at hs; simp [Expr.free] at hs
  have hev : ∀ e : Expr, (e.subSymbols m).eval (fun _ => 0) = e.eval (updateEnv (fun _ => 0) m) := fun e =>
    Expr.eval_subSymbols m hk hfree e _
  obtain ⟨w, e, l, a, p⟩ := apply_spec op' v (by rw [hl, hop]; simp) (by
    intro e he
    rw [hop] at he
    obtain ⟨e0, he0, rfl⟩ := List.mem_map.1 he
    refine ⟨?_, by rw [hev]; exact hreal e0 he0⟩
    rw [List.eq_nil_iff_forall_not_mem]
    intro t ht
    rcases Expr.mem_free_subSymbols m e0 t ht with ⟨h1, h2⟩ | ⟨kv, hkv, h1⟩
    · exact h2 (hall e0 he0 t h1)
    · obtain ⟨r, hr⟩ := hm kv hkv
      rw [hr] at h1; simp [Expr.free] at h1)
  refine ⟨w, e, l, ?_, p⟩
  intro i hi hi'
  rw [a i hi (by rw [hop]; simpa using hi')]
  have hg : op'.params[i]'(by rw [hop]; simpa using hi') = (op.params[i]).subSymbols m := by
    simp [hop]
  rw [hg, hev]

/-- Non-vacuity: a two-amplitude state, one numeric and one symbolic phase, bound to 2. -/
example : ∃ op op' : MultiPhase, make [.num 1, .sym "t"] = .ok op ∧ op.bind [("t", .num (2 : ℝ))] = .ok op' ∧
    op'.apply [1, 1] = .ok [1 * Complex.exp (Complex.I * 1), 1 * Complex.exp (Complex.I * (2 : ℝ))] := by
  have h1 := make_accepts [.num 1, .sym "t"] (by intro c hc; simp at hc; simp [hc])
  have h2 : (MultiPhase.mk [.num 1, .sym "t"]).bind [("t", .num (2 : ℝ))] = .ok ⟨[.num 1, .num (2 : ℝ)]⟩ := by
    have := make_accepts [.num 1, .num (2 : ℝ)] (by intro c hc; simp at hc; rcases hc with rfl | rfl <;> simp)
    exact this
  refine ⟨_, _, h1, h2, ?_⟩
  obtain ⟨w, e, l, a, _⟩ := bind_apply _ _ [("t", .num (2 : ℝ))] (by simp)
    (by intro kv hkv; exact ⟨2, by rw [List.mem_singleton.1 hkv]⟩) h2
    (by simp [Expr.free]) (by simp [Expr.eval, updateEnv, List.lookup]) [1, 1] rfl
  rw [e]
  have a0 := a 0 (by simp) (by simp)
  have a1 := a 1 (by simp) (by simp)
  match w, l with
  | [x, y], _ =>
    simp only [List.getElem?_cons_zero, List.getElem?_cons_succ, Option.some.injEq, List.getElem_cons_zero,
      List.getElem_cons_succ, Expr.eval, updateEnv, List.lookup] at a0 a1
    rw [a0, a1]
    simp [Expr.eval]

end MultiPhase

end ZQ.Circuits
