import Verif.Model.PauliCircuits
import Verif.Props.Evolution
import Verif.Props.Expectation
import Verif.Props.ReverseJW
import Verif.Lemmas.ExceptList

/-!
# C120: circuits of Pauli strings
-/

namespace ZQ.PauliCirc

open scoped BigOperators Matrix
open ZQ ZQ.PyDict ZQ.Op ZQ.Circuits ZQ.Gates ZQ.Expect ZQ.Est
open ZQ.Evol hiding braket

/-! ### Specification -/

/-- A circuit made of one gate per factor of a Pauli string, in the order of the factors, on the smallest register that holds them, which acts as the
Pauli string on every register that holds it. -/
structure ActsAs (t : Term Letter) (c : Circuit) : Prop where
  qubits : c.ops.map GateOp.qubits = t.map fun f => [f.1]
  holds : ∀ f ∈ t, f.1 < c.n
  smallest : ∀ N, (∀ f ∈ t, f.1 < N) → c.n ≤ N
  valid : ∀ n, (∀ f ∈ t, f.1 < n) → ∀ op ∈ c.ops, op.Valid n
  acts : ∀ (n : ℕ) (ρ : String → ℂ), (∀ f ∈ t, f.1 < n) → opsOperator n ρ c.ops = pauliString n t

/-! ### Proofs -/

/-- The gates of a string without the letter `I`. -/
def layer (f : ℕ × Letter) : List GateOp :=
  match letterGate f.2 with
  | .ok g => [⟨g, [f.1]⟩]
  | .error _ => []

theorem layer_qubits (f : ℕ × Letter) (h : f.2 ≠ .I) : (layer f).map GateOp.qubits = [[f.1]] := by
  obtain ⟨q, a⟩ := f
  cases a
  · exact absurd rfl h
  all_goals rfl

theorem layer_operator_eq {n : ℕ} (ρ : String → ℂ) (f : ℕ × Letter) (hf : f.1 < n) :
    opsOperator n ρ (layer f) = tensor (Function.update (fun _ => 1) ⟨f.1, hf⟩ (letterMatrix f.2)) := by
  obtain ⟨q, a⟩ := f
  cases a
  · exact Evol.layer_empty _
  · exact (opsOperator_singleton _ _ _).trans (operator_single ρ _ q hf fixed_one_qubit_gates.1)
  · exact (opsOperator_singleton _ _ _).trans (operator_single ρ _ q hf fixed_one_qubit_gates.2.1)
  · exact (opsOperator_singleton _ _ _).trans (operator_single ρ _ q hf fixed_one_qubit_gates.2.2.1)

theorem layer_valid {n : ℕ} (f : ℕ × Letter) (hf : f.1 < n) : ∀ op ∈ layer f, op.Valid n := by
  obtain ⟨q, a⟩ := f
  intro op hop
  cases a <;> simp only [layer, letterGate, List.mem_singleton, List.not_mem_nil] at hop <;> subst hop <;>
    exact ⟨by simp, by simp, by simpa using hf, rfl, builtin_wf _ (by simp [builtinGates, fixedGates]) _⟩

theorem factorLoop_ok (t : Term Letter) (h : ∀ f ∈ t, f.2 ≠ .I) : ∀ c, factorLoop t c = appendOps c (t.flatMap layer) := by
  induction t with
  | nil => intro c; rfl
  | cons f t ih =>
    intro c
    have ih' := ih fun g hg => h g (by simp [hg])
    have hf := h f (by simp)
    obtain ⟨q, a⟩ := f
    cases a
    · exact absurd rfl hf
    all_goals
      show (append c _ >>= fun c' => factorLoop t c') = _
      simp only [ih']
      rfl

theorem factorLoop_error (t : Term Letter) (h : ∃ f ∈ t, f.2 = .I) : ∀ c, factorLoop t c = .error .keyError := by
  induction t with
  | nil => simp at h
  | cons f t ih =>
    intro c
    obtain ⟨q, a⟩ := f
    have go : a ≠ .I → ∀ c, factorLoop t c = .error .keyError := by
      intro ha
      refine ih ?_
      obtain ⟨g, hg, hI⟩ := h
      rcases List.mem_cons.1 hg with rfl | hg
      · exact absurd hI ha
      · exact ⟨g, hg, hI⟩
    cases a
    · rfl
    all_goals
      show (append c (.op ⟨_, [q]⟩) >>= fun c' => factorLoop t c') = _
      rw [append_op c _ q rfl]
      exact go (by simp) _

theorem termCircuit_spec {t : Term Letter} (ht : Canonical t) : ∃ c, termCircuit t = .ok c ∧ ActsAs t c := by
  have hI : ∀ f ∈ t, f.2 ≠ .I := ht.2
  have hq : ∀ op ∈ t.flatMap layer, op.qubits ≠ [] ∧ ∃ f ∈ t, op.qubits = [f.1] := by
    intro op hop
    obtain ⟨f, hf, hop⟩ := List.mem_flatMap.1 hop
    have : op.qubits ∈ (layer f).map GateOp.qubits := List.mem_map_of_mem hop
    rw [layer_qubits f (hI f hf), List.mem_singleton] at this
    exact ⟨by rw [this]; simp, f, hf, this⟩
  obtain ⟨c, h1, h2⟩ := appendOps_spec (t.flatMap layer) ⟨[], 0⟩ fun op hop => (hq op hop).1
  obtain ⟨-, -, i3, i4⟩ := Evol.appendOps_inv _ ⟨[], 0⟩ c (fun op hop => (hq op hop).1) (fun _ => rfl) h1
  rw [List.nil_append] at h2
  refine ⟨c, ?_, ?_, ?_, ?_, ?_, ?_⟩
  · show factorLoop t ⟨[], 0⟩ = _
    rw [factorLoop_ok t hI, h1]
  · rw [h2, List.map_flatMap]
    clear ht h1 h2 i3 i4 hq
    induction t with
    | nil => rfl
    | cons f t ih => rw [List.flatMap_cons, layer_qubits f (hI f (by simp)), ih fun g hg => hI g (by simp [hg])]; rfl
  · intro f hf
    have : [f.1] ∈ (layer f).map GateOp.qubits := by rw [layer_qubits f (hI f hf)]; simp
    obtain ⟨op, hop, e⟩ := List.mem_map.1 this
    exact i3 op (List.mem_flatMap.2 ⟨f, hf, hop⟩) f.1 (by rw [e]; simp)
  · intro N hN
    refine i4 N (Nat.zero_le _) fun op hop q hq' => ?_
    obtain ⟨-, f, hf, e⟩ := hq op hop
    rw [e, List.mem_singleton] at hq'
    exact hq' ▸ hN f hf
  · intro n hn op hop
    rw [h2] at hop
    obtain ⟨f, hf, hop⟩ := List.mem_flatMap.1 hop
    exact layer_valid f (hn f hf) op hop
  · intro n ρ hn
    rw [h2]
    exact Evol.layer_operator ρ layer letterMatrix rfl (fun f hf => layer_operator_eq ρ f hf) t
      (ht.1.imp fun h => Nat.ne_of_lt h) hn

/-- C120. For every operator there is one circuit per term, in the order of the terms, and each circuit acts as the Pauli string of its term. -/
theorem createCircuits_spec {o : Terms Letter} (h : ∀ kv ∈ o, Canonical kv.1) :
    ∃ cs, createCircuits o = .ok cs ∧ List.Forall₂ (fun kv c => ActsAs kv.1 c) o cs := by
  induction o with
  | nil => exact ⟨[], rfl, .nil⟩
  | cons kv o ih =>
    obtain ⟨cs, h1, h2⟩ := ih fun kv' hkv => h kv' (by simp [hkv])
    obtain ⟨c, h3, h4⟩ := termCircuit_spec (h kv (by simp))
    refine ⟨c :: cs, ?_, .cons h4 h2⟩
    rw [createCircuits] at h1 ⊢
    rw [PyDict.keys, List.map_cons, List.mapM_cons, h3]
    rw [PyDict.keys] at h1
    rw [h1]; rfl

/-- C120. The unitary that a circuit reports is the Pauli string on the qubits it uses; the circuit of the constant term is empty and has none. -/
theorem createCircuits_unitary {t : Term Letter} {c : Circuit} (h : ActsAs t c) (ρ : String → ℂ) :
    (t ≠ [] → ∃ U, c.toUnitary ρ = .ok U ∧ U.rows = 2 ^ c.n ∧ U.cols = 2 ^ c.n ∧ U.onBits c.n = pauliString c.n t) ∧
    (t = [] → c.ops = [] ∧ c.n = 0 ∧ c.toUnitary ρ = .error .typeError) := by
  constructor
  · intro hne
    have hops : c.ops ≠ [] := by
      intro h0
      have := h.qubits
      rw [h0, List.map_nil, eq_comm, List.map_eq_nil_iff] at this
      exact hne this
    obtain ⟨U, h1, h2, h3, h4⟩ := toUnitary_spec c ρ hops (h.valid c.n h.holds)
    exact ⟨U, h1, h2, h3, h4.trans (h.acts c.n ρ h.holds)⟩
  · rintro rfl
    have h0 : c.ops = [] := by
      have := h.qubits
      rwa [List.map_nil, List.map_eq_nil_iff] at this
    refine ⟨h0, Nat.le_zero.1 (h.smallest 0 (by simp)), ?_⟩
    obtain ⟨ops, n⟩ := c
    cases h0
    exact toUnitary_empty n ρ

/-- C120. The operator is the sum of its coefficients times the operators of its circuits. -/
theorem createCircuits_combination {o : Terms Letter} {cs : List Circuit} (h : List.Forall₂ (fun kv c => ActsAs kv.1 c) o cs) (n : ℕ)
    (hb : Below n o) (ρ : String → ℂ) :
    opMatrix n o = (List.zipWith (fun kv c => kv.2 • opsOperator n ρ c.ops) o cs).sum := by
  induction h with
  | nil => rfl
  | cons hc _ ih =>
    rw [List.zipWith_cons_cons, List.sum_cons, ← ih fun kv hkv => hb kv (by simp [hkv]), hc.acts n ρ (hb _ (by simp))]
    rfl

/-- C120. The expectation value of the operator in a state is the sum of the coefficients times the overlaps of the state with what the circuits make of
it. -/
theorem createCircuits_expectation {o : Terms Letter} (h : CanonicalOp o) (n : ℕ) (hle : countQubit o ≤ n) (amps : List ℂ) (ha : amps.length = 2 ^ n)
    (ρ : String → ℂ) :
    ∃ cs ws, createCircuits o = .ok cs ∧ cs.mapM (fun c => applyAll ρ c.ops ⟨2 ^ n, fun i => amps.getD i 0⟩) = .ok ws ∧
      getExpectationValue o amps false =
        .ok (List.zipWith (fun kv (w : Vec ℂ) => kv.2 * (star (stateOn n amps) ⬝ᵥ w.onBits n)) o ws).sum := by
  have hcan : ∀ kv ∈ o, Canonical kv.1 := fun kv hkv => h.2 kv.1 (List.mem_map_of_mem hkv)
  obtain ⟨cs, h1, h2⟩ := createCircuits_spec hcan
  have hb : Below n o := fun kv hkv f hf => lt_of_lt_of_le (countQubit_bound h kv hkv f hf) hle
  have key : ∃ ws, cs.mapM (fun c => applyAll ρ c.ops ⟨2 ^ n, fun i => amps.getD i 0⟩) = .ok ws ∧
      braket (stateOn n amps) (opMatrix n o) = (List.zipWith (fun kv (w : Vec ℂ) => kv.2 * (star (stateOn n amps) ⬝ᵥ w.onBits n)) o ws).sum := by
    clear h1 hle h hcan
    induction h2 with
    | nil => exact ⟨[], rfl, braket_zero _⟩
    | @cons kv c o cs hc _ ih =>
      obtain ⟨ws, e1, e2⟩ := ih fun kv hkv => hb kv (by simp [hkv])
      have hkv := hb kv (by simp)
      obtain ⟨w, f1, -, f3⟩ := applyAll_spec c.ops n ρ (hc.valid n hkv) ⟨2 ^ n, fun i => amps.getD i 0⟩ rfl
      refine ⟨w :: ws, ?_, ?_⟩
      · rw [List.mapM_cons, f1, e1]; rfl
      · rw [List.zipWith_cons_cons, List.sum_cons, ← e2]
        show braket _ (kv.2 • pauliString n kv.1 + opMatrix n o) = _
        rw [braket_add, braket_smul, f3]
        have := hc.acts n ρ hkv
        rw [opsOperator] at this
        rw [this]
        rfl
  obtain ⟨ws, e1, e2⟩ := key
  exact ⟨cs, ws, h1, e1, by rw [getExpectationValue_spec h n hle amps ha, e2]⟩

/-- C120. An operator with a term that spells out the letter `I`, which its own methods never make, is refused. -/
theorem createCircuits_rejects {o : Terms Letter} (h : ∃ kv ∈ o, ∃ f ∈ kv.1, f.2 = .I) : createCircuits o = .error .keyError := by
  induction o with
  | nil => simp at h
  | cons kv o ih =>
    rw [createCircuits, PyDict.keys, List.map_cons, List.mapM_cons]
    by_cases hkv : ∃ f ∈ kv.1, f.2 = .I
    · rw [show termCircuit kv.1 = .error .keyError from factorLoop_error kv.1 hkv _]; rfl
    · obtain ⟨kv', h1, h2⟩ := h
      have ih' := ih (by
        rcases List.mem_cons.1 h1 with rfl | h1
        · exact absurd h2 hkv
        · exact ⟨kv', h1, h2⟩)
      rw [createCircuits, PyDict.keys] at ih'
      push Not at hkv
      obtain ⟨c, hc, -⟩ := appendOps_spec (kv.1.flatMap layer) ⟨[], 0⟩ (by
        intro op hop
        obtain ⟨f, hf, hop⟩ := List.mem_flatMap.1 hop
        have : op.qubits ∈ (layer f).map GateOp.qubits := List.mem_map_of_mem hop
        rw [layer_qubits f (hkv f hf), List.mem_singleton] at this
        rw [this]; simp)
      rw [show termCircuit kv.1 = .ok c from (factorLoop_ok kv.1 hkv _).trans hc, ih']
      rfl

/-- `2 X0 Y2 - 1 + 1/2 Z1`. -/
noncomputable def sampleOp : Terms Letter := [([(0, .X), (2, .Y)], 2), ([], -1), ([(1, .Z)], 1 / 2)]

theorem sampleOp_canonical : CanonicalOp sampleOp := by
  refine ⟨by simp [WF, PyDict.keys, sampleOp], ?_⟩
  intro t ht
  simp only [sampleOp, PyDict.keys, List.map_cons, List.map_nil, List.mem_cons, List.not_mem_nil, or_false] at ht
  rcases ht with rfl | rfl | rfl <;> simp [Canonical]

/-- C120: the hypotheses hold for an operator with a two-qubit, a constant and a one-qubit term in any state of three qubits. -/
example (amps : List ℂ) (ha : amps.length = 2 ^ 3) : CanonicalOp sampleOp ∧ countQubit sampleOp ≤ 3 ∧
    ∃ cs ws, createCircuits sampleOp = .ok cs ∧ cs.mapM (fun c => applyAll (fun _ => 0) c.ops ⟨2 ^ 3, fun i => amps.getD i 0⟩) = .ok ws ∧
      getExpectationValue sampleOp amps false =
        .ok (List.zipWith (fun kv (w : Vec ℂ) => kv.2 * (star (stateOn 3 amps) ⬝ᵥ w.onBits 3)) sampleOp ws).sum :=
  have h : countQubit sampleOp ≤ 3 := by simp [sampleOp, countQubit]
  ⟨sampleOp_canonical, h, createCircuits_expectation sampleOp_canonical 3 h amps ha _⟩

example : createCircuits [([(0, .X)], 1), ([(1, .I)], 1)] = .error .keyError := createCircuits_rejects ⟨([(1, .I)], 1), by simp, (1, .I), by simp, rfl⟩

end ZQ.PauliCirc
