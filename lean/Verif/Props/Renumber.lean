import Verif.Model.FlipWavefunction
import Verif.Props.SameUnitary

/-!
# C145: renumbering the qubits of a circuit
-/

namespace ZQ.Renumber

open ZQ ZQ.Circuits ZQ.Gates ZQ.Expect ZQ.Backend ZQ.Op Matrix

variable {W W' : Type}

/-! ### Specification -/

/-- Specification: `σ` gives the qubits below `n` other numbers below `n`, different ones to different qubits. -/
structure Renumbers (n : ℕ) (σ : ℕ → ℕ) : Prop where
  lt : ∀ q < n, σ q < n
  inj : ∀ p < n, ∀ q < n, σ p = σ q → p = q

/-- Specification: the same gates in the same order, each applied to the renumbered qubits. -/
def renumber (σ : ℕ → ℕ) (c : Circuit) : Circuit := ⟨c.ops.map fun op => ⟨op.gate, op.qubits.map σ⟩, c.n⟩

/-- Specification: in `y`, qubit `σ p` is in the state in which qubit `p` is in `x`. -/
def Moved {n : ℕ} (σ : ℕ → ℕ) (x y : Fin n → Bool) : Prop := ∀ p q : Fin n, σ p = q → y q = x p

/-- Specification: the operator with renumbered qubits: the same coefficients, each letter on the renumbered qubit. -/
def MovedOp (σ : ℕ → ℕ) (o o' : Terms Letter) : Prop :=
  List.Forall₂ (fun kv kv' => kv'.2 = kv.2 ∧ kv'.1.Perm (kv.1.map fun f => (σ f.1, f.2))) o o'

/-- Specification: qubit `q` of `n` qubits becomes qubit `n - 1 - q`. -/
def reversal (n : ℕ) (q : ℕ) : ℕ := n - 1 - q

/-! ### The permutation -/

noncomputable def perm {n : ℕ} {σ : ℕ → ℕ} (h : Renumbers n σ) : Equiv.Perm (Fin n) :=
  Equiv.ofBijective (fun q : Fin n => (⟨σ q, h.lt q q.2⟩ : Fin n))
    (Finite.injective_iff_bijective.1 fun p q e => Fin.ext (h.inj p p.2 q q.2 (congrArg Fin.val e)))

theorem perm_val {n : ℕ} {σ : ℕ → ℕ} (h : Renumbers n σ) (q : Fin n) : (perm h q : ℕ) = σ q := rfl

theorem moved_iff {n : ℕ} {σ : ℕ → ℕ} (h : Renumbers n σ) (x y : Fin n → Bool) : Moved σ x y ↔ x = y ∘ perm h := by
  constructor
  · intro hm
    funext p
    exact (hm p (perm h p) rfl).symm
  · rintro rfl p q e
    have : perm h p = q := Fin.ext e
    rw [← this]; rfl

theorem moved_exists {n : ℕ} {σ : ℕ → ℕ} (h : Renumbers n σ) (x : Fin n → Bool) : ∃! y, Moved σ x y := by
  refine ⟨x ∘ (perm h).symm, (moved_iff h _ _).2 ?_, fun y hy => ?_⟩
  · funext p; simp
  · rw [(moved_iff h x y).1 hy]
    funext p; simp

theorem reversal_renumbers (n : ℕ) : Renumbers n (reversal n) :=
  ⟨fun q hq => by unfold reversal; omega, fun p hp q hq e => by unfold reversal at e; omega⟩

/-! ### Operators -/

theorem basisIndex_cast {k k' : ℕ} (h : k = k') (x : Fin k → Bool) (x' : Fin k' → Bool) (hx : ∀ i : Fin k, x' (Fin.cast h i) = x i) : basisIndex x' = basisIndex x := by
  subst h
  congr 1
  funext i
  exact hx i

theorem operator_apply {n : ℕ} (ρ : String → ℂ) (op : GateOp) (h : ∀ q ∈ op.qubits, q < n) (x y : Fin n → Bool) :
    op.operator n ρ x y = if ∀ q : Fin n, (q : ℕ) ∉ op.qubits → x q = y q then
      (op.gate.matrix ρ).e (basisIndex fun i : Fin op.qubits.length => x ⟨op.qubits[i], h _ (List.getElem_mem _)⟩)
        (basisIndex fun i : Fin op.qubits.length => y ⟨op.qubits[i], h _ (List.getElem_mem _)⟩) else 0 := by
  unfold GateOp.operator
  rw [dif_pos h]
  unfold actOn
  have hiff : (∀ q : Fin n, (∀ i : Fin op.qubits.length, (⟨op.qubits[i], h _ (List.getElem_mem _)⟩ : Fin n) ≠ q) → x q = y q) ↔ ∀ q : Fin n, (q : ℕ) ∉ op.qubits → x q = y q := by
    refine forall_congr' fun q => imp_congr_left ⟨fun hq hm => ?_, fun hq i e => hq ?_⟩
    · obtain ⟨i, hi, e⟩ := List.getElem_of_mem hm
      exact hq ⟨i, hi⟩ (Fin.ext e)
    · rw [← e]; exact List.getElem_mem _
  by_cases hq : ∀ q : Fin n, (q : ℕ) ∉ op.qubits → x q = y q
  · rw [if_pos (hiff.2 hq), if_pos hq]; rfl
  · rw [if_neg (fun h => hq (hiff.1 h)), if_neg hq]

theorem operator_renumber {n : ℕ} {σ : ℕ → ℕ} (hσ : Renumbers n σ) (ρ : String → ℂ) (op : GateOp) (h : ∀ q ∈ op.qubits, q < n) (x y : Fin n → Bool) :
    GateOp.operator n ρ ⟨op.gate, op.qubits.map σ⟩ x y = op.operator n ρ (x ∘ perm hσ) (y ∘ perm hσ) := by
  have h' : ∀ q ∈ (⟨op.gate, op.qubits.map σ⟩ : GateOp).qubits, q < n := by
    intro q hq
    obtain ⟨p, hp, rfl⟩ := List.mem_map.1 hq
    exact hσ.lt p (h p hp)
  rw [operator_apply ρ _ h', operator_apply ρ op h]
  have hiff : (∀ q : Fin n, (q : ℕ) ∉ op.qubits.map σ → x q = y q) ↔ ∀ q : Fin n, (q : ℕ) ∉ op.qubits → (x ∘ perm hσ) q = (y ∘ perm hσ) q := by
    constructor
    · intro hx q hq
      refine hx (perm hσ q) fun hm => hq ?_
      obtain ⟨p, hp, e⟩ := List.mem_map.1 hm
      rw [perm_val] at e
      rw [← hσ.inj p (h p hp) q q.2 e]; exact hp
    · intro hx q hq
      obtain ⟨p, rfl⟩ := (perm hσ).surjective q
      exact hx p fun hm => hq (List.mem_map.2 ⟨p, hm, rfl⟩)
  have hb : ∀ z : Fin n → Bool, (basisIndex fun i : Fin (op.qubits.map σ).length => z ⟨(op.qubits.map σ)[i], h' _ (List.getElem_mem _)⟩) =
      basisIndex fun i : Fin op.qubits.length => (z ∘ perm hσ) ⟨op.qubits[i], h _ (List.getElem_mem _)⟩ := by
    intro z
    refine basisIndex_cast (by simp) _ _ fun i => ?_
    show z _ = z _
    congr 1
    apply Fin.ext
    rw [perm_val]
    simp
  dsimp only at hb ⊢
  by_cases hq : ∀ q : Fin n, (q : ℕ) ∉ op.qubits → (x ∘ perm hσ) q = (y ∘ perm hσ) q
  · rw [if_pos (hiff.2 hq), if_pos hq, hb, hb]
  · rw [if_neg (fun h => hq (hiff.1 h)), if_neg hq]

theorem product_renumber {n : ℕ} {σ : ℕ → ℕ} (hσ : Renumbers n σ) (ρ : String → ℂ) (ops : List GateOp) (h : ∀ op ∈ ops, ∀ q ∈ op.qubits, q < n) (x y : Fin n → Bool) :
    ((ops.map fun op => (⟨op.gate, op.qubits.map σ⟩ : GateOp)).map (GateOp.operator n ρ)).prod x y = (ops.map (GateOp.operator n ρ)).prod (x ∘ perm hσ) (y ∘ perm hσ) := by
  induction ops generalizing x with
  | nil =>
    simp only [List.map_nil, List.prod_nil, Matrix.one_apply]
    have : x = y ↔ x ∘ perm hσ = y ∘ perm hσ := ⟨fun e => by rw [e], fun e => by
      funext q
      obtain ⟨p, rfl⟩ := (perm hσ).surjective q
      exact congrFun e p⟩
    by_cases hxy : x = y
    · rw [if_pos hxy, if_pos (this.1 hxy)]
    · rw [if_neg hxy, if_neg fun e => hxy (this.2 e)]
  | cons op ops ih =>
    rw [List.map_cons, List.map_cons, List.prod_cons, List.map_cons, List.prod_cons, Matrix.mul_apply, Matrix.mul_apply]
    rw [← Equiv.sum_comp (Equiv.arrowCongr (perm hσ).symm (Equiv.refl Bool)) fun z => GateOp.operator n ρ op (x ∘ perm hσ) z * _]
    refine Finset.sum_congr rfl fun z _ => ?_
    rw [operator_renumber hσ ρ op (h op (by simp)), ih (fun o ho => h o (by simp [ho]))]
    rfl

theorem renumber_valid {n : ℕ} {σ : ℕ → ℕ} (hσ : Renumbers n σ) {op : GateOp} (h : op.Valid n) : GateOp.Valid n ⟨op.gate, op.qubits.map σ⟩ := by
  obtain ⟨h0, h1, h2, h3, h4⟩ := h
  refine ⟨by simpa using h0, ?_, ?_, by simpa using h3, h4⟩
  · exact List.Nodup.map_on (fun p hp q hq e => hσ.inj p (h2 p hp) q (h2 q hq) e) h1
  · intro q hq
    obtain ⟨p, hp, rfl⟩ := List.mem_map.1 hq
    exact hσ.lt p (h2 p hp)

theorem renumber_unitary {ρ : String → ℂ} {c : Circuit} {σ : ℕ → ℕ} (hσ : Renumbers c.n σ) (h : Unitary ρ c) : Unitary ρ (renumber σ c) := by
  refine ⟨fun h0 => ?_, ?_, ?_⟩
  · show c.ops.map _ = []
    rw [h.1 h0]; rfl
  · intro op hop
    obtain ⟨o, ho, rfl⟩ := List.mem_map.1 hop
    exact renumber_valid hσ (h.2.1 o ho)
  · intro op hop
    obtain ⟨o, ho, rfl⟩ := List.mem_map.1 hop
    exact h.2.2 o ho

/-! ### The unitary and the state -/

/-- C145. The unitary of the renumbered circuit has the entries of the circuit's unitary, at the states in which the qubits have moved. -/
theorem unitary_renumbered {ρ : String → ℂ} {c : Circuit} {σ : ℕ → ℕ} (hσ : Renumbers c.n σ) (hne : c.ops ≠ []) (hv : ∀ op ∈ c.ops, op.Valid c.n) :
    ∃ U U', c.toUnitary ρ = .ok U ∧ (renumber σ c).toUnitary ρ = .ok U' ∧ ∀ x y x' y' : Fin c.n → Bool, Moved σ x x' → Moved σ y y' →
      U'.e (basisIndex x') (basisIndex y') = U.e (basisIndex x) (basisIndex y) := by
  obtain ⟨U, hU, -, -, hs⟩ := toUnitary_spec c ρ hne hv
  obtain ⟨U', hU', -, -, hs'⟩ := toUnitary_spec (renumber σ c) ρ (by simpa [renumber] using hne) (by
    intro op hop
    obtain ⟨o, ho, rfl⟩ := List.mem_map.1 hop
    exact renumber_valid hσ (hv o ho))
  refine ⟨U, U', hU, hU', fun x y x' y' hx hy => ?_⟩
  rw [(moved_iff hσ _ _).1 hx, (moved_iff hσ _ _).1 hy]
  have h1 : U'.e (basisIndex x') (basisIndex y') = ((renumber σ c).ops.reverse.map (GateOp.operator c.n ρ)).prod x' y' := congrFun (congrFun hs' x') y'
  have h2 : U.e (basisIndex (x' ∘ perm hσ)) (basisIndex (y' ∘ perm hσ)) = (c.ops.reverse.map (GateOp.operator c.n ρ)).prod (x' ∘ perm hσ) (y' ∘ perm hσ) := congrFun (congrFun hs _) _
  rw [h1, h2, ← product_renumber hσ ρ c.ops.reverse (fun op hop => (hv op (List.mem_reverse.1 hop)).2.2.1)]
  have e : (renumber σ c).ops.reverse = c.ops.reverse.map fun op => (⟨op.gate, op.qubits.map σ⟩ : GateOp) := (List.map_reverse ..).symm
  rw [e]

theorem output_renumbered {ρ : String → ℂ} {c : Circuit} {σ : ℕ → ℕ} (hσ : Renumbers c.n σ) (hv : ∀ op ∈ c.ops, op.Valid c.n) (y : Fin c.n → Bool) :
    outputState ρ (renumber σ c) y = outputState ρ c (y ∘ perm hσ) := by
  have e : (renumber σ c).ops.reverse = c.ops.reverse.map fun op => (⟨op.gate, op.qubits.map σ⟩ : GateOp) := (List.map_reverse ..).symm
  have h1 : outputState ρ (renumber σ c) y = ((renumber σ c).ops.reverse.map (GateOp.operator c.n ρ)).prod y fun _ => false :=
    congrFun (Matrix.mulVec_single_one ((renumber σ c).ops.reverse.map (GateOp.operator c.n ρ)).prod fun _ => false) y
  have h2 : outputState ρ c (y ∘ perm hσ) = (c.ops.reverse.map (GateOp.operator c.n ρ)).prod (y ∘ perm hσ) fun _ => false :=
    congrFun (Matrix.mulVec_single_one (c.ops.reverse.map (GateOp.operator c.n ρ)).prod fun _ => false) _
  rw [h1, h2, e, product_renumber hσ ρ c.ops.reverse (fun op hop => (hv op (List.mem_reverse.1 hop)).2.2.1)]
  rfl

/-- C145. The wavefunction of the renumbered circuit has the amplitudes of the circuit's wavefunction, at the states in which the qubits have moved; on any two correct simulators. -/
theorem wavefunction_renumbered {ρ : String → ℂ} (sim : Simulator W) (hsim : Correct sim ρ) (sim' : Simulator W') (hsim' : Correct sim' ρ) {c : Circuit} (hc : Unitary ρ c) {σ : ℕ → ℕ}
    (hσ : Renumbers c.n σ) (st : St W) (st' : St W') :
    ∃ w w' : Wavefunction.Wf Empty, (getWavefunction sim ρ c none st).1 = .ok w ∧ (getWavefunction sim' ρ (renumber σ c) none st').1 = .ok w' ∧
      w.amps.length = 2 ^ c.n ∧ w'.amps.length = 2 ^ c.n ∧ ∀ x y : Fin c.n → Bool, Moved σ x y → w'.amps[basisIndex y]? = w.amps[basisIndex x]? := by
  obtain ⟨w, v, h1, h2, h3, -⟩ := getWavefunction_spec sim ρ hsim c hc.1 hc.2.1 hc.2.2 none (by simp) st
  have hc' := renumber_unitary hσ hc
  obtain ⟨w', v', h1', h2', h3', -⟩ := getWavefunction_spec sim' ρ hsim' _ hc'.1 hc'.2.1 hc'.2.2 none (by simp) st'
  have e : v.onBits c.n = outputState ρ c := h3
  have e' : v'.onBits c.n = outputState ρ (renumber σ c) := h3'
  have h2'' : w'.amps = (List.range (2 ^ c.n)).map (fun i => .num (v'.e i)) := h2'
  refine ⟨w, w', h1, h1', by simp [h2], by simp [h2''], fun x y hm => ?_⟩
  have hx : v.e (basisIndex x) = outputState ρ c x := congrFun e x
  have hy : v'.e (basisIndex y) = outputState ρ (renumber σ c) y := congrFun e' y
  rw [h2, h2'', List.getElem?_map, List.getElem?_map, List.getElem?_range (basisIndex_lt x), List.getElem?_range (basisIndex_lt y)]
  show some (Wavefunction.Amp.num (v'.e (basisIndex y))) = some (Wavefunction.Amp.num (v.e (basisIndex x)))
  rw [hx, hy, output_renumbered hσ hc.2.1, ← (moved_iff hσ x y).1 hm]

/-- C145. The exact distributions of outcomes: the outcome in which the qubits have moved has the same probability. -/
theorem distribution_renumbered {ρ : String → ℂ} (sim : Simulator W) (hsim : Correct sim ρ) (sim' : Simulator W') (hsim' : Correct sim' ρ) {c : Circuit} (hc : Unitary ρ c) {σ : ℕ → ℕ}
    (hσ : Renumbers c.n σ) (st : St W) (st' : St W') :
    ∃ d d', (exactDistribution sim ρ c st).1 = .ok d ∧ (exactDistribution sim' ρ (renumber σ c) st').1 = .ok d' ∧
      ∀ x y : Fin c.n → Bool, Moved σ x y → Dist.pmf d' ((bits y).map fun b : ℕ => (b : ℤ)) = Dist.pmf d ((bits x).map fun b : ℕ => (b : ℤ)) := by
  obtain ⟨d, h1, h2⟩ := exactDistribution_spec sim ρ hsim c hc st
  obtain ⟨d', h1', h2'⟩ := exactDistribution_spec sim' ρ hsim' _ (renumber_unitary hσ hc) st'
  refine ⟨d, d', h1, h1', fun x y hm => ?_⟩
  rw [h2 x]
  refine (h2' y).trans ?_
  rw [output_renumbered hσ hc.2.1, ← (moved_iff hσ x y).1 hm]

/-! ### Expectation values -/

theorem letterAt_moved {n : ℕ} {σ : ℕ → ℕ} (hσ : Renumbers n σ) {t t' : Term Letter} (h : Canonical t) (h' : Canonical t') (hb : ∀ f ∈ t, f.1 < n)
    (hp : t'.Perm (t.map fun f => (σ f.1, f.2))) (q : ℕ) (hq : q < n) : letterAt t' (σ q) = letterAt t q := by
  by_cases hm : q ∈ t.map Prod.fst
  · obtain ⟨f, hf, rfl⟩ := List.mem_map.1 hm
    rw [letterAt_of_mem h.nodup hf]
    have : (σ f.1, f.2) ∈ t' := hp.mem_iff.2 (List.mem_map.2 ⟨f, hf, rfl⟩)
    exact letterAt_of_mem h'.nodup this
  · rw [letterAt_of_not_mem hm, letterAt_of_not_mem]
    intro hc
    obtain ⟨g, hg, e⟩ := List.mem_map.1 hc
    obtain ⟨f, hf, rfl⟩ := List.mem_map.1 (hp.mem_iff.1 hg)
    exact hm (List.mem_map.2 ⟨f, hf, hσ.inj _ (hb f hf) _ hq e⟩)

theorem pauliString_moved {n : ℕ} {σ : ℕ → ℕ} (hσ : Renumbers n σ) {t t' : Term Letter} (h : Canonical t) (h' : Canonical t') (hb : ∀ f ∈ t, f.1 < n)
    (hp : t'.Perm (t.map fun f => (σ f.1, f.2))) (x y : Fin n → Bool) : pauliString n t' x y = pauliString n t (x ∘ perm hσ) (y ∘ perm hσ) := by
  show ∏ q : Fin n, letterMatrix (letterAt t' q) (x q) (y q) = ∏ q : Fin n, letterMatrix (letterAt t q) (x (perm hσ q)) (y (perm hσ q))
  rw [← Equiv.prod_comp (perm hσ)]
  refine Finset.prod_congr rfl fun q _ => ?_
  have e : letterAt t' (perm hσ q : ℕ) = letterAt t q := letterAt_moved hσ h h' hb hp q q.2
  rw [e]

theorem braket_moved {n : ℕ} (e : Equiv.Perm (Fin n)) (ψ ψ' : (Fin n → Bool) → ℂ) (A A' : Matrix (Fin n → Bool) (Fin n → Bool) ℂ) (hψ : ∀ x, ψ' x = ψ (x ∘ e))
    (hA : ∀ x y, A' x y = A (x ∘ e) (y ∘ e)) : braket ψ' A' = braket ψ A := by
  have hm : ∀ x, (A' *ᵥ ψ') x = (A *ᵥ ψ) (x ∘ e) := by
    intro x
    show ∑ y, A' x y * ψ' y = ∑ y, A (x ∘ e) y * ψ y
    rw [← Equiv.sum_comp (Equiv.arrowCongr e.symm (Equiv.refl Bool)) fun y => A (x ∘ e) y * ψ y]
    refine Finset.sum_congr rfl fun y _ => ?_
    rw [hA, hψ]
    rfl
  show ∑ x, star ψ' x * (A' *ᵥ ψ') x = ∑ x, star ψ x * (A *ᵥ ψ) x
  rw [← Equiv.sum_comp (Equiv.arrowCongr e.symm (Equiv.refl Bool)) fun x => star ψ x * (A *ᵥ ψ) x]
  refine Finset.sum_congr rfl fun x _ => ?_
  rw [hm, Pi.star_apply, hψ]
  rfl

theorem movedOp_below {n : ℕ} {σ : ℕ → ℕ} (hσ : Renumbers n σ) {o o' : Terms Letter} (hb : Below n o) (hm : MovedOp σ o o') : Below n o' := by
  induction hm with
  | nil => intro kv hkv; cases hkv
  | @cons kv kv' o o' h _ ih =>
    intro k hk f hf
    rcases List.mem_cons.1 hk with rfl | hk
    · obtain ⟨g, hg, rfl⟩ := List.mem_map.1 (h.2.mem_iff.1 hf)
      exact hσ.lt _ (hb kv (by simp) g hg)
    · exact ih (fun kv hkv => hb kv (by simp [hkv])) k hk f hf

theorem movedOp_valued {σ : ℕ → ℕ} {o o' : Terms Letter} (isIsing : Bool) (hm : MovedOp σ o o') : MovedOp σ (valued isIsing o) (valued isIsing o') := by
  cases isIsing with
  | false => exact hm
  | true =>
    show MovedOp σ (bigTerms o) (bigTerms o')
    induction hm with
    | nil => exact .nil
    | @cons kv kv' o o' h _ ih =>
      unfold bigTerms at ih ⊢
      rw [List.filter_cons, List.filter_cons, h.1]
      split
      · exact .cons h ih
      · exact ih

/-- C145. The exact expectation values of the terms of the renumbered operator in the state of the renumbered circuit are those of the operator in the state of the circuit. -/
theorem values_renumbered {ρ : String → ℂ} (sim : Simulator W) (hsim : Correct sim ρ) (sim' : Simulator W') (hsim' : Correct sim' ρ) {c : Circuit} (hc : Unitary ρ c) {σ : ℕ → ℕ}
    (hσ : Renumbers c.n σ) (isIsing : Bool) {o o' : Terms Letter} (h : CanonicalOp o) (h' : CanonicalOp o') (hb : Below c.n o) (hm : MovedOp σ o o') (st : St W) (st' : St W') :
    (getExactExpectationValues sim' ρ (renumber σ c) isIsing o' st').1 = (getExactExpectationValues sim ρ c isIsing o st).1 ∧
      ∃ e, (getExactExpectationValues sim ρ c isIsing o st).1 = .ok e := by
  have e1 := (exactValues_spec sim ρ hsim c hc isIsing h hb st).1
  have e2 := (exactValues_spec sim' ρ hsim' (renumber σ c) (renumber_unitary hσ hc) isIsing h' (movedOp_below hσ hb hm) st').1
  refine ⟨?_, _, e1⟩
  rw [e1]
  refine e2.trans ?_
  congr 2
  have sub : ∀ {o : Terms Letter} {kv}, kv ∈ valued isIsing o → kv ∈ o := fun {o kv} hkv => by
    cases isIsing with
    | false => exact hkv
    | true => exact (List.mem_filter.1 hkv).1
  have hcan : ∀ kv ∈ valued isIsing o, Canonical kv.1 := fun kv hkv => h.2 kv.1 (List.mem_map_of_mem (sub hkv))
  have hcan' : ∀ kv ∈ valued isIsing o', Canonical kv.1 := fun kv hkv => h'.2 kv.1 (List.mem_map_of_mem (sub hkv))
  have hbel : ∀ kv ∈ valued isIsing o, ∀ f ∈ kv.1, f.1 < c.n := fun kv hkv => hb kv (sub hkv)
  have hmv := movedOp_valued isIsing hm
  clear e1 e2
  generalize valued isIsing o = l at hcan hbel hmv ⊢
  generalize valued isIsing o' = l' at hcan' hmv ⊢
  induction hmv with
  | nil => rfl
  | @cons kv kv' l l' hk _ ih =>
    rw [List.map_cons, List.map_cons, ih (fun kv hkv => hcan kv (by simp [hkv])) (fun kv hkv => hbel kv (by simp [hkv])) (fun kv hkv => hcan' kv (by simp [hkv]))]
    congr 2
    refine braket_moved (perm hσ) _ _ _ _ (fun x => output_renumbered hσ hc.2.1 x) fun x y => ?_
    show (kv'.2 • pauliString c.n kv'.1) x y = _
    rw [Matrix.smul_apply, Matrix.smul_apply, hk.1, pauliString_moved hσ (hcan kv (by simp)) (hcan' kv' (by simp)) (hbel kv (by simp)) hk.2]

/-! ### Reversing the order of the qubits -/

theorem testBit_basisIndex {n : ℕ} (x : Fin n → Bool) (q : ℕ) (hq : q < n) : (basisIndex x).testBit q = x ⟨n - 1 - q, by omega⟩ := by
  have h := congrFun (bitsOf_basisIndex x) ⟨n - 1 - q, by omega⟩
  rw [← h, bitsOf, bitAt, Nat.testBit_eq_decide_div_mod_eq]
  have e : n - 1 - (n - 1 - q) = q := by omega
  show _ = decide (basisIndex x / 2 ^ (n - 1 - (n - 1 - q)) % 2 = 1)
  rw [e]

theorem moved_reversal {n : ℕ} {x y : Fin n → Bool} (h : Moved (reversal n) x y) : Bits.IsBitReversal n (basisIndex y) (basisIndex x) := by
  refine ⟨basisIndex_lt x, fun q hq => ?_⟩
  rw [testBit_basisIndex x q hq, testBit_basisIndex y _ (by omega)]
  exact (h ⟨n - 1 - q, by omega⟩ _ (by show n - 1 - (n - 1 - q) = n - 1 - (n - 1 - q); rfl)).symm

/-- C145. `flip_wavefunction` of a wavefunction never fails; it reverses the order of the amplitudes' bits, and doing it twice gives the amplitudes back. -/
theorem flip_spec {σ : Type} (amps : List (Wavefunction.Amp σ)) (w : Wavefunction.Wf σ) (hw : Wavefunction.mk? amps = .ok w) :
    ∃ n w', amps.length = 2 ^ n ∧ Wavefunction.flipWavefunction w = .ok w' ∧ (∀ i r, i < 2 ^ n → Bits.IsBitReversal n i r → w'.amps[i]? = w.amps[r]?) ∧
      Wavefunction.flipWavefunction w' = .ok w := by
  have hlen : ∃ n, amps.length = 2 ^ n := by
    by_contra hc
    push Not at hc
    rw [Wavefunction.mk_rejects_size amps hc] at hw
    cases hw
  obtain ⟨n, hn⟩ := hlen
  obtain ⟨-, ha⟩ := Wavefunction.mk_valid amps w hw
  obtain ⟨res, h1, h2, h3⟩ := Bits.flipAmplitudes_spec n w.amps (by rw [ha, hn])
  have hp := Bits.flipAmplitudes_perm n w.amps res (by rw [ha, hn]) h1
  have hinv := Bits.flipAmplitudes_involutive n w.amps res (by rw [ha, hn]) h1
  have hmk : Wavefunction.mk? res = .ok ⟨w.numpy, res⟩ := by
    unfold Wavefunction.mk? at hw ⊢
    rw [ha] at hp
    rw [hp.length_eq]
    split at hw
    · cases hw
    · rename_i hcount
      rw [if_neg hcount]
      dsimp only at hw ⊢
      have hall : res.all Wavefunction.Amp.isNum = amps.all Wavefunction.Amp.isNum := by
        rw [Bool.eq_iff_iff, List.all_eq_true, List.all_eq_true]
        exact ⟨fun h x hx => h x (hp.mem_iff.2 hx), fun h x hx => h x (hp.mem_iff.1 hx)⟩
      have hsum : (res.map Wavefunction.ampSq).sum = (amps.map Wavefunction.ampSq).sum := (hp.map _).sum_eq
      have hchk : Wavefunction.checkNormalization ⟨amps.all Wavefunction.Amp.isNum, res⟩ = Wavefunction.checkNormalization ⟨amps.all Wavefunction.Amp.isNum, amps⟩ := by
        unfold Wavefunction.checkNormalization
        dsimp only
        rw [hsum, hall]
      rw [hall, hchk]
      split at hw
      · rename_i hc
        rw [if_pos hc]
        injection hw with hw
        rw [← hw]
      · cases hw
  refine ⟨n, ⟨w.numpy, res⟩, hn, ?_, h3, ?_⟩
  · unfold Wavefunction.flipWavefunction
    rw [h1]
    exact hmk
  · unfold Wavefunction.flipWavefunction
    dsimp only
    rw [hinv]
    dsimp only
    rw [ha]
    exact hw

/-- C145. Flipping the wavefunction of a circuit gives the amplitudes of the circuit with the qubits numbered in reverse. -/
theorem flip_reversed {ρ : String → ℂ} (sim : Simulator W) (hsim : Correct sim ρ) (sim' : Simulator W') (hsim' : Correct sim' ρ) {c : Circuit} (hc : Unitary ρ c) (st : St W) (st' : St W') :
    ∃ w w' v : Wavefunction.Wf Empty, (getWavefunction sim ρ c none st).1 = .ok w ∧ (getWavefunction sim' ρ (renumber (reversal c.n) c) none st').1 = .ok w' ∧
      Wavefunction.flipWavefunction w = .ok v ∧ v.amps = w'.amps := by
  obtain ⟨w, w', h1, h1', hl, hl', hm⟩ := wavefunction_renumbered sim hsim sim' hsim' hc (reversal_renumbers c.n) st st'
  have hc' := renumber_unitary (reversal_renumbers c.n) hc
  obtain ⟨w₂, v', g1, g2, -, g4, -⟩ := getWavefunction_spec sim' ρ hsim' _ hc'.1 hc'.2.1 hc'.2.2 none (by simp) st'
  rw [h1'] at g1
  injection g1 with g1
  subst g1
  obtain ⟨res, f1, f2, f3⟩ := Bits.flipAmplitudes_spec c.n w.amps hl
  have heq : res = w'.amps := by
    apply List.ext_getElem?
    intro i
    by_cases hi : i < 2 ^ c.n
    · have hy := basisIndex_bitsOf c.n i hi
      set y := bitsOf c.n i
      have hx : Moved (reversal c.n) (y ∘ perm (reversal_renumbers c.n)) y := (moved_iff (reversal_renumbers c.n) _ _).2 rfl
      have hrev := moved_reversal hx
      have h3 := f3 _ _ (basisIndex_lt y) hrev
      have h4 := hm _ _ hx
      rw [← hy, h3, h4]
    · rw [List.getElem?_eq_none (by omega), List.getElem?_eq_none (by omega)]
  have hmk : Wavefunction.mk? w'.amps = .ok ⟨true, w'.amps⟩ := by
    have g2' : w'.amps = (List.range (2 ^ c.n)).map fun i => .num (v'.e i) := g2
    rw [g2']
    refine Wavefunction.mk_of_map c.n v'.e ?_
    exact (sum_range_eq_sum_bits c.n fun i => Complex.normSq (v'.e i)).trans g4
  refine ⟨w, w', ⟨true, w'.amps⟩, h1, h1', ?_, rfl⟩
  unfold Wavefunction.flipWavefunction
  rw [f1, heq]
  exact hmk

/-- C145. `get_expectation_value` with `reverse_operator=True` in the state of the circuit with the qubits numbered in reverse is the value in the state of the circuit (for coefficients of
at least `1e-8`; smaller ones are dropped by the reversal). -/
theorem reversed_expectation {ρ : String → ℂ} (sim : Simulator W) (hsim : Correct sim ρ) (sim' : Simulator W') (hsim' : Correct sim' ρ) {c : Circuit} (hc : Unitary ρ c)
    {o : Terms Letter} (h : CanonicalOp o) (hb : Below c.n o) (hbig : ∀ kv ∈ o, 1 / 10 ^ 8 ≤ ‖kv.2‖) (st : St W) (st' : St W') :
    ∃ w w' : Wavefunction.Wf Empty, (getWavefunction sim ρ c none st).1 = .ok w ∧ (getWavefunction sim' ρ (renumber (reversal c.n) c) none st').1 = .ok w' ∧
      getExpectationValue o (amplitudes w') true = getExpectationValue o (amplitudes w) false ∧ ∃ z, getExpectationValue o (amplitudes w) false = .ok z := by
  obtain ⟨w, h1, h2, h3, -⟩ := wavefunction_amplitudes sim ρ hsim c hc st
  have hσ := reversal_renumbers c.n
  obtain ⟨w', h1', h2', h3', -⟩ := wavefunction_amplitudes sim' ρ hsim' _ (renumber_unitary hσ hc) st'
  have hle := countQubit_le o c.n hb
  have e1 := getExpectationValue_spec h c.n hle (amplitudes w) h2
  have e2 := getExpectationValue_reverse h c.n hle (amplitudes w') h2'
  refine ⟨w, w', h1, h1', ?_, _, e1⟩
  rw [e1, e2, bigTerms_eq_self hbig]
  congr 2
  funext x
  have h3'' : stateOn c.n (amplitudes w') = outputState ρ (renumber (reversal c.n) c) := h3'
  rw [h3, h3'', output_renumbered hσ hc.2.1]
  congr 1
  funext q
  show x (perm hσ q).rev = x q
  congr 1
  apply Fin.ext
  rw [Fin.val_rev, perm_val]
  unfold reversal
  omega

/-! ### An instance -/

/-- A cyclic renumbering of three qubits, a circuit of two gates and the operator `Z₀ X₂`, which becomes `X₀ Z₁`. -/
example : Unitary (fun _ => 0) exampleCircuit ∧ Renumbers exampleCircuit.n (fun q => (q + 1) % 3) ∧
    (renumber (fun q => (q + 1) % 3) exampleCircuit).ops.map GateOp.qubits = [[2], [1, 0]] ∧
    Moved (n := 3) (fun q => (q + 1) % 3) ![true, false, false] ![false, true, false] ∧
    CanonicalOp [([(0, .Z), (2, .X)], 2)] ∧ CanonicalOp [([(0, .X), (1, .Z)], 2)] ∧ Below exampleCircuit.n [([(0, .Z), (2, .X)], 2)] ∧
    MovedOp (fun q => (q + 1) % 3) [([(0, .Z), (2, .X)], 2)] [([(0, .X), (1, .Z)], 2)] := by
  obtain ⟨-, h1, h2⟩ := exampleCircuit_valid
  refine ⟨⟨fun h => absurd h (by decide), h1, fun op hop => h2 op hop⟩, ⟨fun q hq => Nat.mod_lt _ (by decide), ?_⟩, rfl, ?_, ?_, ?_, ?_, ?_⟩
  · intro p hp q hq
    have hp' : p < 3 := hp
    have hq' : q < 3 := hq
    omega
  · intro p q; revert p q; decide
  · exact ⟨by simp [WF, PyDict.keys], by
      simp only [PyDict.keys, List.map_cons, List.map_nil, List.mem_singleton, forall_eq, Canonical]
      decide⟩
  · exact ⟨by simp [WF, PyDict.keys], by
      simp only [PyDict.keys, List.map_cons, List.map_nil, List.mem_singleton, forall_eq, Canonical]
      decide⟩
  · intro kv hkv f hf
    rw [List.mem_singleton.1 hkv] at hf
    have hn : exampleCircuit.n = 3 := rfl
    simp at hf
    rcases hf with rfl | rfl <;> simp [hn]
  · exact .cons ⟨rfl, List.Perm.swap _ _ _⟩ .nil

end ZQ.Renumber
