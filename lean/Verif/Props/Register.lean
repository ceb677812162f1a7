import Verif.Props.Renumber
import Verif.Props.Generators
import Verif.Props.PauliCircuits

/-!
# C146: larger registers, and gates on other qubits
-/

namespace ZQ.Register

open ZQ ZQ.Circuits ZQ.Gates ZQ.Expect ZQ.Backend ZQ.Op Matrix

variable {W W' : Type}

/-! ### Specification -/

/-- Specification: `c'` is `c` with `k` further qubits, made with the constructor's argument `n_qubits` or with `add_ancilla_register`. -/
inductive Larger (c : Circuit) (k : ℕ) (c' : Circuit) : Prop
  | size : 0 < k → Circuit.make c.ops (some ((c.n + k : ℕ) : ℚ)) = .ok c' → Larger c k c'
  | ancilla : addAncillaRegister c k = .ok c' → Larger c k c'

/-- Specification: the operations act on none of the qubits in `S`. -/
def Elsewhere (S : ℕ → Prop) (ops : List GateOp) : Prop := ∀ op ∈ ops, ∀ q ∈ op.qubits, ¬ S q

/-! ### States with further qubits in state 0 -/

/-- The state with `k` further qubits in state 0. -/
noncomputable def widen {n : ℕ} (k : ℕ) (ψ : (Fin n → Bool) → ℂ) : (Fin (n + k) → Bool) → ℂ :=
  fun z => if (fun j : Fin k => z (Fin.natAdd n j)) = (fun _ => false) then ψ fun i => z (Fin.castAdd k i) else 0

theorem widen_append {n k : ℕ} (ψ : (Fin n → Bool) → ℂ) (x : Fin n → Bool) (y : Fin k → Bool) :
    widen k ψ (Fin.append x y) = if y = (fun _ => false) then ψ x else 0 := by
  unfold widen
  simp only [Fin.append_left, Fin.append_right]

theorem sum_append {n k : ℕ} (f : (Fin (n + k) → Bool) → ℂ) : ∑ z, f z = ∑ x : Fin n → Bool, ∑ y : Fin k → Bool, f (Fin.append x y) := by
  rw [← Equiv.sum_comp (Fin.appendEquiv n k) f, Fintype.sum_prod_type]
  rfl

theorem mulVec_widen {n k : ℕ} {A : Matrix (Fin n → Bool) (Fin n → Bool) ℂ} {A' : Matrix (Fin (n + k) → Bool) (Fin (n + k) → Bool) ℂ}
    (h : ∀ x y x' y', A' (Fin.append x y) (Fin.append x' y') = if y = y' then A x x' else 0) (ψ : (Fin n → Bool) → ℂ) :
    A' *ᵥ widen k ψ = widen k (A *ᵥ ψ) := by
  funext z
  obtain ⟨⟨x, y⟩, rfl⟩ := (Fin.appendEquiv n k).surjective z
  show ∑ z', A' (Fin.append x y) z' * widen k ψ z' = widen k (A *ᵥ ψ) (Fin.append x y)
  rw [sum_append, widen_append]
  have : ∀ x' : Fin n → Bool, ∑ y' : Fin k → Bool, A' (Fin.append x y) (Fin.append x' y') * widen k ψ (Fin.append x' y') =
      if y = (fun _ => false) then A x x' * ψ x' else 0 := by
    intro x'
    rw [Finset.sum_eq_single (fun _ => false)]
    · rw [h, widen_append, if_pos rfl]
      split <;> simp
    · intro y' _ hy'
      rw [widen_append, if_neg hy', mul_zero]
    · intro h; exact absurd (Finset.mem_univ _) h
  simp only [this]
  split
  · rfl
  · simp

theorem braket_widen {n k : ℕ} {A : Matrix (Fin n → Bool) (Fin n → Bool) ℂ} {A' : Matrix (Fin (n + k) → Bool) (Fin (n + k) → Bool) ℂ}
    (h : ∀ x y x' y', A' (Fin.append x y) (Fin.append x' y') = if y = y' then A x x' else 0) (ψ : (Fin n → Bool) → ℂ) :
    braket (widen k ψ) A' = braket ψ A := by
  unfold braket
  rw [mulVec_widen h]
  show ∑ z, star (widen k ψ) z * widen k (A *ᵥ ψ) z = ∑ x, star ψ x * (A *ᵥ ψ) x
  rw [sum_append]
  refine Finset.sum_congr rfl fun x _ => ?_
  rw [Finset.sum_eq_single (fun _ => false)]
  · rw [Pi.star_apply, widen_append, widen_append, if_pos rfl, if_pos rfl]; rfl
  · intro y _ hy
    rw [widen_append, if_neg hy, mul_zero]
  · intro h; exact absurd (Finset.mem_univ _) h

theorem operator_append {n k : ℕ} (ρ : String → ℂ) (op : GateOp) (h : ∀ q ∈ op.qubits, q < n) (x : Fin n → Bool) (y : Fin k → Bool) (x' : Fin n → Bool) (y' : Fin k → Bool) :
    op.operator (n + k) ρ (Fin.append x y) (Fin.append x' y') = if y = y' then op.operator n ρ x x' else 0 := by
  have h' : ∀ q ∈ op.qubits, q < n + k := fun q hq => Nat.lt_add_right k (h q hq)
  rw [Renumber.operator_apply ρ op h', Renumber.operator_apply ρ op h]
  have hb : ∀ (u : Fin n → Bool) (v : Fin k → Bool), (fun i : Fin op.qubits.length => Fin.append u v ⟨op.qubits[i], h' _ (List.getElem_mem _)⟩) =
      fun i : Fin op.qubits.length => u ⟨op.qubits[i], h _ (List.getElem_mem _)⟩ := by
    intro u v
    funext i
    exact Fin.append_left u v ⟨op.qubits[i], h _ (List.getElem_mem _)⟩
  rw [hb, hb]
  have hiff : (∀ q : Fin (n + k), (q : ℕ) ∉ op.qubits → Fin.append x y q = Fin.append x' y' q) ↔ y = y' ∧ ∀ q : Fin n, (q : ℕ) ∉ op.qubits → x q = x' q := by
    constructor
    · intro hq
      refine ⟨?_, fun q hn => ?_⟩
      · funext j
        have := hq (Fin.natAdd n j) (fun hm => by have := h _ hm; simp at this)
        rwa [Fin.append_right, Fin.append_right] at this
      · have := hq (Fin.castAdd k q) hn
        rwa [Fin.append_left, Fin.append_left] at this
    · rintro ⟨rfl, hq⟩ q
      refine Fin.addCases (fun i => ?_) (fun j => ?_) q
      · intro hn
        rw [Fin.append_left, Fin.append_left]
        exact hq i hn
      · intro _
        rw [Fin.append_right, Fin.append_right]
  by_cases hy : y = y'
  · rw [if_pos hy]
    by_cases hx : ∀ q : Fin n, (q : ℕ) ∉ op.qubits → x q = x' q
    · rw [if_pos (hiff.2 ⟨hy, hx⟩), if_pos hx]
    · rw [if_neg (fun h => hx (hiff.1 h).2), if_neg hx]
  · rw [if_neg hy, if_neg fun h => hy (hiff.1 h).1]

theorem zero_widen (n k : ℕ) : widen k (Pi.single (fun _ : Fin n => false) 1) = Pi.single (fun _ => false) 1 := by
  funext z
  obtain ⟨⟨x, y⟩, rfl⟩ := (Fin.appendEquiv n k).surjective z
  show widen k _ (Fin.append x y) = (Pi.single (fun _ => false) (1 : ℂ) : (Fin (n + k) → Bool) → ℂ) (Fin.append x y)
  rw [widen_append, Pi.single_apply, Pi.single_apply]
  have : Fin.append x y = (fun _ => false) ↔ x = (fun _ => false) ∧ y = (fun _ => false) := by
    constructor
    · intro h
      refine ⟨funext fun i => ?_, funext fun j => ?_⟩
      · have := congrFun h (Fin.castAdd k i); rwa [Fin.append_left] at this
      · have := congrFun h (Fin.natAdd n j); rwa [Fin.append_right] at this
    · rintro ⟨rfl, rfl⟩
      funext q
      refine Fin.addCases (fun i => ?_) (fun j => ?_) q
      · rw [Fin.append_left]
      · rw [Fin.append_right]
  by_cases hy : y = fun _ => false
  · by_cases hx : x = fun _ => false
    · rw [if_pos hy, if_pos hx, if_pos (this.2 ⟨hx, hy⟩)]
    · rw [if_pos hy, if_neg hx, if_neg fun h => hx (this.1 h).1]
  · rw [if_neg hy, if_neg fun h => hy (this.1 h).2]

theorem product_widen {n : ℕ} (k : ℕ) (ρ : String → ℂ) (ops : List GateOp) (h : ∀ op ∈ ops, ∀ q ∈ op.qubits, q < n) (ψ : (Fin n → Bool) → ℂ) :
    (ops.map (GateOp.operator (n + k) ρ)).prod *ᵥ widen k ψ = widen k ((ops.map (GateOp.operator n ρ)).prod *ᵥ ψ) := by
  induction ops with
  | nil => simp
  | cons op ops ih =>
    rw [List.map_cons, List.map_cons, List.prod_cons, List.prod_cons, ← Matrix.mulVec_mulVec, ← Matrix.mulVec_mulVec, ih (fun o ho => h o (by simp [ho])),
      mulVec_widen (operator_append ρ op (h op (by simp)))]

theorem valid_wider {n k : ℕ} {op : GateOp} (h : op.Valid n) : op.Valid (n + k) :=
  ⟨h.1, h.2.1, fun q hq => Nat.lt_add_right k (h.2.2.1 q hq), h.2.2.2⟩

theorem identityGate_unitary (ρ : String → ℂ) (qs : List ℕ) : UnitaryOp ρ ⟨identityGate, qs⟩ :=
  builtin_unitary ⟨"I", .builtin fun _ => iMatrix, 1, true⟩ (by simp [builtinGates, fixedGates]) [] ρ (by simp)

/-- The larger circuit is a unitary circuit on `k` more qubits, and its state is that of the circuit with the further qubits in state 0. -/
theorem larger_state {ρ : String → ℂ} {c c' : Circuit} {k : ℕ} (hc : Unitary ρ c) (h : Larger c k c') :
    ∃ ops', c' = ⟨ops', c.n + k⟩ ∧ Unitary ρ ⟨ops', c.n + k⟩ ∧ outputState ρ ⟨ops', c.n + k⟩ = widen k (outputState ρ c) := by
  have hbase : outputState ρ ⟨c.ops, c.n + k⟩ = widen k (outputState ρ c) := by
    show (c.ops.reverse.map (GateOp.operator (c.n + k) ρ)).prod *ᵥ Pi.single (fun _ => false) 1 = _
    rw [← zero_widen, product_widen k ρ c.ops.reverse (fun op hop => (hc.2.1 op (List.mem_reverse.1 hop)).2.2.1)]
    rfl
  cases h with
  | size hk h =>
    rw [make_explicit _ _ (by omega)] at h
    injection h with h
    refine ⟨c.ops, h.symm, ⟨fun h0 => hc.1 (by have : c.n + k = 0 := h0; omega), fun op hop => valid_wider (hc.2.1 op hop), hc.2.2⟩, hbase⟩
  | ancilla h =>
    obtain ⟨new, h1, h2, h3, h4⟩ := ancilla_spec c k ρ
    rw [h1] at h
    injection h with h
    have hq : ∀ o ∈ new, ∃ i < k, o.qubits = [c.n + i] := by
      intro o ho
      have : o.qubits ∈ new.map GateOp.qubits := List.mem_map_of_mem ho
      rw [h2] at this
      obtain ⟨i, hi, e⟩ := List.mem_map.1 this
      exact ⟨i, List.mem_range.1 hi, e.symm⟩
    refine ⟨c.ops ++ new, h.symm, ⟨fun h0 => ?_, ?_, ?_⟩, ?_⟩
    · have h0' : c.n + k = 0 := h0
      have hk : k = 0 := by omega
      have hn : c.ops = [] := hc.1 (by omega)
      subst hk
      show c.ops ++ new = []
      rw [hn, List.nil_append]
      simpa using h2
    · intro op hop
      rcases List.mem_append.1 hop with hop | hop
      · exact valid_wider (hc.2.1 op hop)
      · obtain ⟨i, hi, e⟩ := hq op hop
        refine ⟨by rw [e]; simp, by rw [e]; simp, ?_, ?_, ?_⟩
        · rw [e]
          intro q hq
          rw [List.mem_singleton.1 hq]
          show c.n + i < c.n + k
          omega
        · rw [e, (h3 op hop).2]; rfl
        · rw [(h3 op hop).1]
          exact builtin_wf _ (by simp [builtinGates, fixedGates]) _
    · intro op hop
      rcases List.mem_append.1 hop with hop | hop
      · exact hc.2.2 op hop
      · show op.gate.AllBase _
        rw [(h3 op hop).1]
        exact identityGate_unitary ρ []
    · rw [← hbase]
      show ((c.ops ++ new).reverse.map (GateOp.operator (c.n + k) ρ)).prod *ᵥ _ = (c.ops.reverse.map (GateOp.operator (c.n + k) ρ)).prod *ᵥ _
      have hone : (new.reverse.map (GateOp.operator (c.n + k) ρ)).prod = 1 := by
        refine List.prod_eq_one fun A hA => ?_
        obtain ⟨o, ho, rfl⟩ := List.mem_map.1 hA
        exact h4 o (List.mem_reverse.1 ho)
      rw [List.reverse_append, List.map_append, List.prod_append, hone, one_mul]

/-! ### Results on a larger register -/

/-- C146. The amplitudes of the larger circuit: those of the circuit where the further qubits (the last bits) are all 0, and 0 elsewhere. -/
theorem wavefunction_larger {ρ : String → ℂ} (sim : Simulator W) (hsim : Correct sim ρ) (sim' : Simulator W') (hsim' : Correct sim' ρ) {c c' : Circuit} (hc : Unitary ρ c) {k : ℕ}
    (h : Larger c k c') (st : St W) (st' : St W') :
    ∃ w w' : Wavefunction.Wf Empty, (getWavefunction sim ρ c none st).1 = .ok w ∧ (getWavefunction sim' ρ c' none st').1 = .ok w' ∧
      (amplitudes w).length = 2 ^ c.n ∧ (amplitudes w').length = 2 ^ (c.n + k) ∧
      ∀ i < 2 ^ c.n, ∀ j < 2 ^ k, (amplitudes w')[i * 2 ^ k + j]? = some (if j = 0 then (amplitudes w).getD i 0 else 0) := by
  obtain ⟨ops', rfl, hc', hs⟩ := larger_state hc h
  obtain ⟨w, h1, h2, h3, -⟩ := wavefunction_amplitudes sim ρ hsim c hc st
  obtain ⟨w', h1', h2', h3', -⟩ := wavefunction_amplitudes sim' ρ hsim' _ hc' st'
  have h2'' : (amplitudes w').length = 2 ^ (c.n + k) := h2'
  refine ⟨w, w', h1, h1', h2, h2'', fun i hi j hj => ?_⟩
  have hx := basisIndex_bitsOf c.n i hi
  have hy := basisIndex_bitsOf k j hj
  set x := bitsOf c.n i
  set y := bitsOf k j
  have hidx : basisIndex (Fin.append x y) = i * 2 ^ k + j := by
    rw [basisIndex_append]
    simp only [Fin.append_left, Fin.append_right]
    rw [hx, hy]
  have hlt : i * 2 ^ k + j < (amplitudes w').length := by rw [h2'', ← hidx]; exact basisIndex_lt _
  have e : (amplitudes w').getD (i * 2 ^ k + j) 0 = outputState ρ ⟨ops', c.n + k⟩ (Fin.append x y) := by
    rw [← h3', ← hidx]; rfl
  rw [List.getElem?_eq_getElem hlt]
  rw [List.getD_eq_getElem _ _ hlt] at e
  rw [e, hs, widen_append, ← h3]
  have hj0 : y = (fun _ => false) ↔ j = 0 := by
    have hz : basisIndex (fun _ : Fin k => false) = 0 := by simp [basisIndex]
    constructor
    · intro e'; rw [← hy, e', hz]
    · intro e'
      have : y = bitsOf k (basisIndex fun _ : Fin k => false) := by rw [hz, ← e']
      rw [this, bitsOf_basisIndex]
  have hw : stateOn c.n (amplitudes w) x = (amplitudes w).getD i 0 := by unfold stateOn; rw [hx]
  by_cases h0 : j = 0
  · rw [if_pos h0, if_pos (hj0.2 h0), hw]
  · rw [if_neg h0, if_neg fun e' => h0 (hj0.1 e')]

/-- C146. The exact distribution of outcomes of the larger circuit: the further bits are always 0, and the others are distributed as for the circuit. -/
theorem distribution_larger {ρ : String → ℂ} (sim : Simulator W) (hsim : Correct sim ρ) (sim' : Simulator W') (hsim' : Correct sim' ρ) {c c' : Circuit} (hc : Unitary ρ c) {k : ℕ}
    (h : Larger c k c') (st : St W) (st' : St W') :
    ∃ d d', (exactDistribution sim ρ c st).1 = .ok d ∧ (exactDistribution sim' ρ c' st').1 = .ok d' ∧
      ∀ (x : Fin c.n → Bool) (y : Fin k → Bool), Dist.pmf d' ((bits x ++ bits y).map fun b : ℕ => (b : ℤ)) =
        if y = (fun _ => false) then Dist.pmf d ((bits x).map fun b : ℕ => (b : ℤ)) else 0 := by
  obtain ⟨ops', rfl, hc', hs⟩ := larger_state hc h
  obtain ⟨d, h1, h2⟩ := exactDistribution_spec sim ρ hsim c hc st
  obtain ⟨d', h1', h2'⟩ := exactDistribution_spec sim' ρ hsim' _ hc' st'
  refine ⟨d, d', h1, h1', fun x y => ?_⟩
  have hb : bits x ++ bits y = bits (Fin.append x y) := by
    unfold bits
    rw [List.ofFn_add]
    congr 1
    · congr 1; funext i; rw [← Fin.append_left x y i]; rfl
    · congr 1; funext i; rw [← Fin.append_right x y i]
  rw [hb, h2 x]
  refine (h2' (Fin.append x y)).trans ?_
  rw [hs, widen_append]
  split
  · rfl
  · simp

theorem pauliString_append {n k : ℕ} {t : Term Letter} (hb : ∀ f ∈ t, f.1 < n) (x : Fin n → Bool) (y : Fin k → Bool) (x' : Fin n → Bool) (y' : Fin k → Bool) :
    pauliString (n + k) t (Fin.append x y) (Fin.append x' y') = if y = y' then pauliString n t x x' else 0 := by
  show ∏ q : Fin (n + k), letterMatrix (letterAt t q) (Fin.append x y q) (Fin.append x' y' q) = _
  rw [Fin.prod_univ_add]
  have h1 : ∏ i : Fin n, letterMatrix (letterAt t (Fin.castAdd k i : Fin (n + k))) (Fin.append x y (Fin.castAdd k i)) (Fin.append x' y' (Fin.castAdd k i)) = pauliString n t x x' := by
    refine Finset.prod_congr rfl fun i _ => ?_
    rw [Fin.append_left, Fin.append_left]; rfl
  have h2 : ∏ j : Fin k, letterMatrix (letterAt t (Fin.natAdd n j : Fin (n + k))) (Fin.append x y (Fin.natAdd n j)) (Fin.append x' y' (Fin.natAdd n j)) =
      if y = y' then 1 else 0 := by
    have hl : ∀ j : Fin k, letterAt t (Fin.natAdd n j : Fin (n + k)) = .I := by
      intro j
      refine letterAt_of_not_mem fun hm => ?_
      obtain ⟨f, hf, e⟩ := List.mem_map.1 hm
      have := hb f hf
      rw [e] at this
      simp at this
    have : ∀ j : Fin k, letterMatrix (letterAt t (Fin.natAdd n j : Fin (n + k))) (Fin.append x y (Fin.natAdd n j)) (Fin.append x' y' (Fin.natAdd n j)) =
        if y j = y' j then 1 else 0 := by
      intro j
      rw [hl, Fin.append_right, Fin.append_right]
      exact Matrix.one_apply
    simp only [this]
    by_cases h : y = y'
    · subst h; simp
    · rw [if_neg h]
      obtain ⟨j, hj⟩ := Function.ne_iff.1 h
      exact Finset.prod_eq_zero (Finset.mem_univ j) (if_neg hj)
  rw [h1, h2]
  split <;> simp

theorem below_valued {n : ℕ} {isIsing : Bool} {o : Terms Letter} (hb : Below n o) : Below n (valued isIsing o) := fun kv hkv => by
  cases isIsing with
  | false => exact hb kv hkv
  | true => exact hb kv (List.mem_filter.1 hkv).1

/-- C146. The exact expectation values of an operator on the qubits of the circuit are the same for the larger circuit. -/
theorem values_larger {ρ : String → ℂ} (sim : Simulator W) (hsim : Correct sim ρ) (sim' : Simulator W') (hsim' : Correct sim' ρ) {c c' : Circuit} (hc : Unitary ρ c) {k : ℕ}
    (h : Larger c k c') (isIsing : Bool) {o : Terms Letter} (ho : CanonicalOp o) (hb : Below c.n o) (st : St W) (st' : St W') :
    (getExactExpectationValues sim' ρ c' isIsing o st').1 = (getExactExpectationValues sim ρ c isIsing o st).1 ∧
      ∃ e, (getExactExpectationValues sim ρ c isIsing o st).1 = .ok e := by
  obtain ⟨ops', rfl, hc', hs⟩ := larger_state hc h
  have e1 := (exactValues_spec sim ρ hsim c hc isIsing ho hb st).1
  have e2 := (exactValues_spec sim' ρ hsim' _ hc' isIsing ho (fun kv hkv f hf => Nat.lt_add_right k (hb kv hkv f hf)) st').1
  refine ⟨?_, _, e1⟩
  rw [e1]
  refine e2.trans ?_
  congr 2
  refine List.map_congr_left fun kv hkv => ?_
  congr 1
  rw [hs]
  refine braket_widen (fun x y x' y' => ?_) _
  show (kv.2 • pauliString (c.n + k) kv.1) (Fin.append x y) (Fin.append x' y') = _
  rw [Matrix.smul_apply, Matrix.smul_apply, pauliString_append (below_valued hb kv hkv)]
  split <;> simp

/-! ### Gates on other qubits -/

theorem braket_unitary {ι : Type} [Fintype ι] [DecidableEq ι] (ψ : ι → ℂ) {A B : Matrix ι ι ℂ} (hB : B ∈ unitaryGroup ι ℂ) (hc : A * B = B * A) : braket (B *ᵥ ψ) A = braket ψ A := by
  unfold braket
  rw [Matrix.star_mulVec, Matrix.mulVec_mulVec, ← Matrix.dotProduct_mulVec, Matrix.mulVec_mulVec, hc, ← mul_assoc]
  have : Bᴴ * B = 1 := (mem_unitaryGroup_iff').1 hB
  rw [this, one_mul]

theorem operators_commute {n : ℕ} (ρ : String → ℂ) {a b : GateOp} (ha : ∀ q ∈ a.qubits, q < n) (hb : ∀ q ∈ b.qubits, q < n) (hd : ∀ q ∈ a.qubits, q ∉ b.qubits) :
    a.operator n ρ * b.operator n ρ = b.operator n ρ * a.operator n ρ := by
  unfold GateOp.operator
  rw [dif_pos ha, dif_pos hb]
  refine actOn_commute _ _ (fun i j e => ?_) _ _
  have e' : a.qubits[i] = b.qubits[j] := congrArg Fin.val e
  exact hd _ (List.getElem_mem i.2) (e' ▸ List.getElem_mem j.2)

theorem pauliString_commutes {n : ℕ} (ρ : String → ℂ) {t : Term Letter} (ht : Canonical t) (hb : ∀ f ∈ t, f.1 < n) {b : GateOp} (hv : ∀ q ∈ b.qubits, q < n)
    (hd : ∀ f ∈ t, f.1 ∉ b.qubits) : Commute (pauliString n t) (b.operator n ρ) := by
  obtain ⟨c, -, hc⟩ := PauliCirc.termCircuit_spec ht
  rw [← hc.acts n ρ hb]
  refine Commute.list_prod_left _ _ fun A hA => ?_
  obtain ⟨a, ha, rfl⟩ := List.mem_map.1 hA
  have ha' := List.mem_reverse.1 ha
  refine operators_commute ρ (hc.valid n hb a ha').2.2.1 hv fun q hq => ?_
  have : a.qubits ∈ c.ops.map GateOp.qubits := List.mem_map_of_mem ha'
  rw [hc.qubits] at this
  obtain ⟨f, hf, e⟩ := List.mem_map.1 this
  rw [← e, List.mem_singleton] at hq
  exact hq ▸ hd f hf

theorem later_unitary {ρ : String → ℂ} {n : ℕ} {later : List GateOp} (hv : ∀ op ∈ later, op.Valid n) (hu : ∀ op ∈ later, UnitaryOp ρ op) :
    (later.reverse.map (GateOp.operator n ρ)).prod ∈ unitaryGroup (Fin n → Bool) ℂ := by
  refine Submonoid.list_prod_mem _ fun A hA => ?_
  obtain ⟨op, hop, rfl⟩ := List.mem_map.1 hA
  exact operator_unitary n op (hv op (List.mem_reverse.1 hop)) ρ (hu op (List.mem_reverse.1 hop))

theorem later_state (ρ : String → ℂ) (n : ℕ) (ops later : List GateOp) :
    outputState ρ ⟨ops ++ later, n⟩ = (later.reverse.map (GateOp.operator n ρ)).prod *ᵥ outputState ρ ⟨ops, n⟩ := by
  show ((ops ++ later).reverse.map (GateOp.operator n ρ)).prod *ᵥ _ = _ *ᵥ ((ops.reverse.map (GateOp.operator n ρ)).prod *ᵥ _)
  rw [Matrix.mulVec_mulVec, List.reverse_append, List.map_append, List.prod_append]

theorem unitary_prefix {ρ : String → ℂ} {n : ℕ} {ops later : List GateOp} (h : Unitary ρ ⟨ops ++ later, n⟩) : Unitary ρ ⟨ops, n⟩ :=
  ⟨fun h0 => (List.append_eq_nil_iff.1 (h.1 h0)).1, fun op hop => h.2.1 op (List.mem_append_left _ hop), fun op hop => h.2.2 op (List.mem_append_left _ hop)⟩

/-- C146. Gates applied at the end to qubits on which an operator does not act leave its exact expectation values as they are. -/
theorem values_elsewhere {ρ : String → ℂ} (sim : Simulator W) (hsim : Correct sim ρ) (sim' : Simulator W') (hsim' : Correct sim' ρ) {n : ℕ} {ops later : List GateOp}
    (hc : Unitary ρ ⟨ops ++ later, n⟩) (isIsing : Bool) {o : Terms Letter} (ho : CanonicalOp o) (hb : Below n o)
    (he : Elsewhere (fun q => ∃ kv ∈ o, ∃ f ∈ kv.1, f.1 = q) later) (st : St W) (st' : St W') :
    (getExactExpectationValues sim' ρ ⟨ops ++ later, n⟩ isIsing o st').1 = (getExactExpectationValues sim ρ ⟨ops, n⟩ isIsing o st).1 ∧
      ∃ e, (getExactExpectationValues sim ρ ⟨ops, n⟩ isIsing o st).1 = .ok e := by
  have e1 := (exactValues_spec sim ρ hsim ⟨ops, n⟩ (unitary_prefix hc) isIsing ho hb st).1
  have e2 := (exactValues_spec sim' ρ hsim' _ hc isIsing ho hb st').1
  refine ⟨?_, _, e1⟩
  rw [e1]
  refine e2.trans ?_
  congr 2
  refine List.map_congr_left fun kv hkv => ?_
  have hmem : kv ∈ o := by
    cases isIsing with
    | false => exact hkv
    | true => exact (List.mem_filter.1 hkv).1
  congr 1
  rw [later_state]
  refine braket_unitary _ (later_unitary (fun op hop => hc.2.1 op (List.mem_append_right _ hop)) (fun op hop => hc.2.2 op (List.mem_append_right _ hop))) ?_
  refine Commute.list_prod_right _ _ fun A hA => ?_
  obtain ⟨b, hb', rfl⟩ := List.mem_map.1 hA
  have hb'' := List.mem_reverse.1 hb'
  refine Commute.smul_left (pauliString_commutes ρ (ho.2 kv.1 (List.mem_map_of_mem hmem)) (hb kv hmem) (hc.2.1 b (List.mem_append_right _ hb'')).2.2.1 fun f hf hq => ?_) _
  exact he b hb'' _ hq ⟨kv, hmem, f, hf, rfl⟩

/-- C146. Gates applied at the end to qubits outside `S` leave the distribution of the outcomes on `S` as it is: the outcomes that agree with `y` on `S` have the same total probability. -/
theorem distribution_elsewhere {ρ : String → ℂ} (sim : Simulator W) (hsim : Correct sim ρ) (sim' : Simulator W') (hsim' : Correct sim' ρ) {n : ℕ} {ops later : List GateOp}
    (hc : Unitary ρ ⟨ops ++ later, n⟩) (S : ℕ → Prop) [DecidablePred S] (he : Elsewhere S later) (st : St W) (st' : St W') :
    ∃ d d', (exactDistribution sim ρ ⟨ops, n⟩ st).1 = .ok d ∧ (exactDistribution sim' ρ ⟨ops ++ later, n⟩ st').1 = .ok d' ∧ ∀ y : Fin n → Bool,
      ∑ x with ∀ q : Fin n, S q → x q = y q, Dist.pmf d' ((bits x).map fun b : ℕ => (b : ℤ)) =
        ∑ x with ∀ q : Fin n, S q → x q = y q, Dist.pmf d ((bits x).map fun b : ℕ => (b : ℤ)) := by
  obtain ⟨d, h1, h2⟩ := exactDistribution_spec sim ρ hsim ⟨ops, n⟩ (unitary_prefix hc) st
  obtain ⟨d', h1', h2'⟩ := exactDistribution_spec sim' ρ hsim' _ hc st'
  refine ⟨d, d', h1, h1', fun y => ?_⟩
  have key : ∀ ψ : (Fin n → Bool) → ℂ, ((∑ x with ∀ q : Fin n, S q → x q = y q, Complex.normSq (ψ x) : ℝ) : ℂ) =
      braket ψ (Matrix.diagonal fun x => if ∀ q : Fin n, S q → x q = y q then 1 else 0) := by
    intro ψ
    unfold braket
    show _ = ∑ x, star (ψ x) * _
    rw [Finset.sum_filter, Complex.ofReal_sum]
    refine Finset.sum_congr rfl fun x _ => ?_
    rw [Matrix.mulVec_diagonal]
    split
    · rw [Complex.normSq_eq_conj_mul_self, one_mul]; rfl
    · simp
  have hsum : ∑ x with ∀ q : Fin n, S q → x q = y q, Complex.normSq (outputState ρ ⟨ops ++ later, n⟩ x) =
      ∑ x with ∀ q : Fin n, S q → x q = y q, Complex.normSq (outputState ρ ⟨ops, n⟩ x) := by
    have := (key (outputState ρ ⟨ops ++ later, n⟩)).trans (Eq.trans ?_ (key (outputState ρ ⟨ops, n⟩)).symm)
    · exact_mod_cast this
    rw [later_state]
    refine braket_unitary _ (later_unitary (fun op hop => hc.2.1 op (List.mem_append_right _ hop)) (fun op hop => hc.2.2 op (List.mem_append_right _ hop))) ?_
    refine Commute.list_prod_right _ _ fun A hA => ?_
    obtain ⟨b, hb, rfl⟩ := List.mem_map.1 hA
    have hb' := List.mem_reverse.1 hb
    have hv := (hc.2.1 b (List.mem_append_right _ hb')).2.2.1
    show _ * _ = _ * _
    ext x z
    rw [Matrix.diagonal_mul, Matrix.mul_diagonal, Renumber.operator_apply ρ b hv]
    by_cases hxz : ∀ q : Fin n, (q : ℕ) ∉ b.qubits → x q = z q
    · have : (∀ q : Fin n, S q → x q = y q) ↔ ∀ q : Fin n, S q → z q = y q :=
        forall_congr' fun q => imp_congr_right fun hq => by rw [hxz q fun hm => he b hb' _ hm hq]
      by_cases hx : ∀ q : Fin n, S q → x q = y q
      · rw [if_pos hx, if_pos (this.1 hx), one_mul, mul_one]
      · rw [if_neg hx, if_neg fun h => hx (this.2 h), zero_mul, mul_zero]
    · rw [if_neg hxz, mul_zero, zero_mul]
  calc _ = ∑ x with ∀ q : Fin n, S q → x q = y q, Complex.normSq (outputState ρ ⟨ops ++ later, n⟩ x) := Finset.sum_congr rfl fun x _ => h2' x
    _ = _ := hsum
    _ = _ := Finset.sum_congr rfl fun x _ => (h2 x).symm

/-! ### An instance -/

/-- The three-qubit example circuit with two ancillas; and its last gate as a gate elsewhere. -/
example : Unitary (fun _ => 0) exampleCircuit ∧ (∃ c', Larger exampleCircuit 2 c' ∧ c'.n = 5) ∧
    (∃ first last, exampleCircuit.ops = first ++ last ∧ last ≠ [] ∧ Elsewhere (fun q => q = 1) last) ∧ CanonicalOp [([(1, .Z)], 2)] ∧ Below exampleCircuit.n [([(1, .Z)], 2)] := by
  obtain ⟨-, h1, h2⟩ := exampleCircuit_valid
  refine ⟨⟨fun h => absurd h (by decide), h1, fun op hop => h2 op hop⟩, ?_, ?_, ?_, ?_⟩
  · obtain ⟨new, h, -⟩ := ancilla_spec exampleCircuit 2 (fun _ => 0)
    exact ⟨_, .ancilla h, rfl⟩
  · refine ⟨exampleCircuit.ops.take 1, exampleCircuit.ops.drop 1, (List.take_append_drop 1 _).symm, by simp [exampleCircuit], ?_⟩
    intro op hop q hq
    simp [exampleCircuit] at hop
    subst hop
    simp at hq
    omega
  · exact ⟨by simp [WF, PyDict.keys], by
      simp only [PyDict.keys, List.map_cons, List.map_nil, List.mem_singleton, forall_eq, Canonical]
      decide⟩
  · intro kv hkv f hf
    rw [List.mem_singleton.1 hkv] at hf
    have hn : exampleCircuit.n = 3 := rfl
    simp at hf
    rw [hf, hn]; decide

end ZQ.Register
