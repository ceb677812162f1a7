import Verif.Props.Register
import Verif.Props.Trotter
import Verif.Props.Contract

/-!
# C147: what time evolution conserves
-/

namespace ZQ.Conserved

open ZQ ZQ.PyDict ZQ.Circuits ZQ.Gates ZQ.Est ZQ.Expect ZQ.Backend ZQ.Op Matrix
open ZQ.Evol hiding braket

variable {W W' : Type}

/-! ### The circuit is unitary and stays on the operator's qubits -/

/-- A circuit of valid operations with unitary gates on at most `n` qubits. -/
def Good (n : ℕ) (ρ : String → ℂ) (c : Circuit) : Prop := c.Inv ∧ c.n ≤ n ∧ ∀ op ∈ c.ops, op.Valid n ∧ UnitaryOp ρ op

theorem h_ok (ρ : String → ℂ) {n q : ℕ} (hq : q < n) : GateOp.Valid n ⟨hGate, [q]⟩ ∧ UnitaryOp ρ ⟨hGate, [q]⟩ :=
  ⟨⟨by simp, by simp, by simpa using hq, rfl, builtin_wf _ (by simp [builtinGates, fixedGates, parametricGates]) _⟩,
    builtin_unitary ⟨"H", .builtin fun _ => hMatrix, 1, true⟩ (by simp [builtinGates, fixedGates, parametricGates]) [] ρ (by simp)⟩

theorem rx_ok (ρ : String → ℂ) (a : ℝ) {n q : ℕ} (hq : q < n) : GateOp.Valid n ⟨Est.rxGate (.num (a : ℂ)), [q]⟩ ∧ UnitaryOp ρ ⟨Est.rxGate (.num (a : ℂ)), [q]⟩ :=
  ⟨⟨by simp, by simp, by simpa using hq, rfl, builtin_wf _ (by simp [builtinGates, fixedGates, parametricGates]) _⟩,
    builtin_unitary ⟨"RX", param1 rxMatrix, 1, false⟩ (by simp [builtinGates, fixedGates, parametricGates]) [.num (a : ℂ)] ρ (by
      intro p hp
      rw [List.mem_singleton.1 hp]
      exact Complex.ofReal_im _)⟩

theorem rz_ok (ρ : String → ℂ) (e : Expr) (he : (e.eval ρ).im = 0) {n q : ℕ} (hq : q < n) : GateOp.Valid n ⟨rzGate e, [q]⟩ ∧ UnitaryOp ρ ⟨rzGate e, [q]⟩ :=
  ⟨⟨by simp, by simp, by simpa using hq, rfl, builtin_wf _ (by simp [builtinGates, fixedGates, parametricGates]) _⟩,
    builtin_unitary ⟨"RZ", param1 rzMatrix, 1, false⟩ (by simp [builtinGates, fixedGates, parametricGates]) [e] ρ (by
      intro p hp
      rw [List.mem_singleton.1 hp]
      exact he)⟩

theorem cnots_ok (ρ : String → ℂ) {n : ℕ} (t : Term Letter) (hs : (t.map Prod.fst).Pairwise (· < ·)) (hb : ∀ f ∈ t, f.1 < n) : ∀ op ∈ cnots t, op.Valid n ∧ UnitaryOp ρ op := by
  induction t with
  | nil => simp [cnots]
  | cons f t ih =>
    cases t with
    | nil => simp [cnots]
    | cons g t =>
      rw [cnots]
      intro op hop
      rcases List.mem_cons.1 hop with rfl | hop
      · have hlt : f.1 < g.1 := by
          rw [List.map_cons, List.map_cons, List.pairwise_cons] at hs
          exact hs.1 _ (by simp)
        refine ⟨⟨by simp, by simp; omega, ?_, rfl, builtin_wf _ (by simp [builtinGates, fixedGates, parametricGates]) _⟩,
          builtin_unitary ⟨"CNOT", .builtin fun _ => cnotMatrix, 2, true⟩ (by simp [builtinGates, fixedGates, parametricGates]) [] ρ (by simp)⟩
        intro q hq
        simp at hq
        rcases hq with rfl | rfl
        · exact hb f (by simp)
        · exact hb g (by simp)
      · exact ih (by rw [List.map_cons] at hs; exact (List.pairwise_cons.1 hs).2) (fun x hx => hb x (by simp [hx])) op hop

theorem termOps_ok (ρ : String → ℂ) {n : ℕ} {t : Term Letter} (ht : Canonical t) (hb : ∀ f ∈ t, f.1 < n) (e : Expr) (he : (e.eval ρ).im = 0) :
    ∀ op ∈ termOps t e, op.Valid n ∧ UnitaryOp ρ op := by
  have hs : (t.map Prod.fst).Pairwise (· < ·) := ht.1
  intro op hop
  unfold termOps at hop
  rcases List.mem_append.1 hop with hop | hop
  · rcases List.mem_append.1 hop with hop | hop
    · rcases List.mem_append.1 hop with hop | hop
      · rcases List.mem_append.1 hop with hop | hop
        · obtain ⟨⟨q, a⟩, hm, hf⟩ := List.mem_flatMap.1 hop
          cases a <;> simp only [baseChange, List.mem_singleton, List.not_mem_nil] at hf <;> subst hf
          · exact h_ok ρ (hb _ hm)
          · exact rx_ok ρ _ (hb _ hm)
        · exact cnots_ok ρ t hs hb op hop
      · unfold central at hop
        split at hop
        · rename_i f hf
          rw [List.mem_singleton] at hop
          subst hop
          exact rz_ok ρ e he (hb _ (List.mem_of_getLast? hf))
        · cases hop
    · exact cnots_ok ρ t hs hb op (List.mem_reverse.1 hop)
  · obtain ⟨⟨q, a⟩, hm, hf⟩ := List.mem_flatMap.1 hop
    cases a <;> simp only [baseReversal, List.mem_singleton, List.not_mem_nil] at hf <;> subst hf
    · exact h_ok ρ (hb _ hm)
    · exact rx_ok ρ _ (hb _ hm)

theorem evolveTerm_good (ρ : String → ℂ) {n : ℕ} {kv : Term Letter × ℂ} (ht : Canonical kv.1) (hb : ∀ f ∈ kv.1, f.1 < n) (hreal : kv.2.im = 0) (time : Expr) (htime : (time.eval ρ).im = 0)
    {circ : Circuit} (h : evolveTerm [kv] time = .ok circ) : Good n ρ circ := by
  obtain ⟨t, c⟩ := kv
  obtain ⟨circ', h1, h2, h3, -, h5, -⟩ := evolveTerm_spec ht c time
  rw [h1] at h
  injection h with h
  subst h
  refine ⟨h2, h5 n hb, ?_⟩
  by_cases hne : t = []
  · rw [h3 hne]; simp
  · set e := binE (· * ·) (binE (· * ·) (.num 2) time) (.num c) with he
    have he0 : (e.eval ρ).im = 0 := by
      rw [he, binE_eval, binE_eval]
      show (2 * time.eval ρ * c).im = 0
      have hc : c.im = 0 := hreal
      simp [Complex.mul_im, htime, hc]
    have hops : circ'.ops = termOps t e := by
      have hq := termOps_qubits t e
      obtain ⟨circ2, g1, g2⟩ := appendOps_spec (termOps t e) ⟨[], 0⟩ (fun op hop => (hq op hop).1)
      rw [evolveTerm] at h1
      change (if t = [] then _ else _) = _ at h1
      rw [if_neg hne] at h1
      rw [termOps, appendOps_append, appendOps_append, appendOps_append, appendOps_append] at g1
      simp only [Except.bind, bind] at g1 h1
      have : (Except.ok circ2 : Except Err Circuit) = .ok circ' := by
        rw [← g1, ← h1]
        cases appendOps ⟨[], 0⟩ (t.flatMap baseChange) with
        | error _ => rfl
        | ok c1 =>
          dsimp only
          cases appendOps c1 (cnots t) with
          | error _ => rfl
          | ok c2 =>
            dsimp only
            cases appendOps c2 (central e t) with
            | error _ => rfl
            | ok c3 => dsimp only
      injection this with this
      rw [← this, g2, List.nil_append]
    rw [hops]
    exact termOps_ok ρ ht hb e he0

/-- C147. The evolution of an operator with real coefficients for a real time is a unitary circuit on the operator's qubits. -/
theorem timeEvolution_good (ρ : String → ℂ) {n : ℕ} {H : Terms Letter} (hH : CanonicalOp H) (hb : Below n H) (hreal : ∀ kv ∈ H, kv.2.im = 0) (time : Expr) (htime : (time.eval ρ).im = 0)
    (k : ℕ) {circ : Circuit} (h : timeEvolution H time "Trotter" k = .ok circ) : Good n ρ circ := by
  have hcan : ∀ kv ∈ H, Canonical kv.1 := fun kv hkv => hH.2 kv.1 (List.mem_map_of_mem hkv)
  have hadd : ∀ {a b c : Circuit}, Good n ρ a → Good n ρ b → append a (.circuit b) = .ok c → Good n ρ c := by
    intro a b c ha hb hc
    rw [append_circuit a b ha.1 hb.1] at hc
    injection hc with hc
    subst hc
    refine ⟨fun h0 => ?_, max_le ha.2.1 hb.2.1, fun op hop => ?_⟩
    · have h0' : max a.n b.n = 0 := h0
      show a.ops ++ b.ops = []
      rw [ha.1 (by omega), hb.1 (by omega)]; rfl
    · rcases List.mem_append.1 hop with hop | hop
      · exact ha.2.2 op hop
      · exact hb.2.2 op hop
  have hfold : ∀ (cs : List Circuit) (a : Circuit), (∀ c ∈ cs, Good n ρ c) → Good n ρ a → cs.foldlM (fun acc d => append acc (.circuit d)) a = .ok circ → Good n ρ circ := by
    intro cs
    induction cs with
    | nil => intro a _ ha h; obtain rfl := Except.ok.inj h; exact ha
    | cons c cs ih =>
      intro a hcs ha h
      rw [List.foldlM_cons] at h
      obtain ⟨b, hb, h⟩ := bindOk h
      exact ih b (fun d hd => hcs d (by simp [hd])) (hadd ha (hcs c (by simp)) hb) h
  rw [timeEvolution, if_neg (by simp), getOperators_canonical hcan] at h
  obtain ⟨cs, h1, h⟩ := bindOk h
  have hstep : ((binE (· / ·) time (.num ((k : ℤ) : ℂ))).eval ρ).im = 0 := by
    rw [binE_eval]
    show (time.eval ρ / ((k : ℤ) : ℂ)).im = 0
    have : time.eval ρ / ((k : ℤ) : ℂ) = (((time.eval ρ).re / (k : ℝ) : ℝ) : ℂ) := by
      rw [Complex.ofReal_div]
      congr 1
      · exact Complex.ext rfl (by rw [htime]; rfl)
    rw [this]
    exact Complex.ofReal_im _
  have hmap : ∀ (l : List (Terms Letter)), (∀ t ∈ l, ∃ kv ∈ H, t = [kv]) → ∀ cs : List Circuit,
      l.mapM (fun t => evolveTerm t (binE (· / ·) time (.num ((k : ℤ) : ℂ)))) = .ok cs → ∀ c ∈ cs, Good n ρ c := by
    intro l
    induction l with
    | nil => intro _ cs h; obtain rfl := Except.ok.inj h; simp
    | cons t l ih =>
      intro hl cs h
      rw [List.mapM_cons] at h
      obtain ⟨c, hc, h⟩ := bindOk h
      obtain ⟨cs', hcs, h⟩ := bindOk h
      obtain rfl := Except.ok.inj h
      intro d hd
      rcases List.mem_cons.1 hd with rfl | hd
      · obtain ⟨kv, hkv, rfl⟩ := hl t (by simp)
        exact evolveTerm_good ρ (hcan kv hkv) (hb kv hkv) (hreal kv hkv) _ hstep hc
      · exact ih (fun t ht => hl t (by simp [ht])) cs' hcs d hd
  have := hmap _ (by
    intro t ht
    obtain ⟨_, _, ht⟩ := List.mem_flatMap.1 ht
    obtain ⟨kv, hkv, rfl⟩ := List.mem_map.1 ht
    exact ⟨kv, hkv, rfl⟩) cs h1
  cases cs with
  | nil => cases h
  | cons c cs => exact hfold cs c (fun d hd => this d (by simp [hd])) (this c (by simp)) h

/-! ### Conserved quantities -/

theorem commutes_step {n : ℕ} {A : Matrix (Fin n → Bool) (Fin n → Bool) ℂ} {H : Terms Letter} (hA : ∀ kv ∈ H, Commute A (pauliString n kv.1)) (τ : ℂ) (k : ℕ) :
    Commute A (trotterStep n τ H ^ k) := by
  refine Commute.pow_right (Commute.list_prod_right _ _ fun B hB => ?_) k
  obtain ⟨kv, hkv, rfl⟩ := List.mem_map.1 hB
  unfold termFactor
  split
  · exact Commute.one_right A
  · exact ((hA kv (List.mem_reverse.1 hkv)).smul_right _).exp_right

/-- The circuit followed by the evolution. -/
theorem evolved {ρ : String → ℂ} {c : Circuit} (hc : Unitary ρ c) {H : Terms Letter} (hH : CanonicalOp H) (hne : H ≠ []) (hb : Below c.n H) (hreal : ∀ kv ∈ H, kv.2.im = 0) (time : Expr)
    (htime : (time.eval ρ).im = 0) (k : ℕ) (hk : 0 < k) :
    ∃ u, timeEvolution H time "Trotter" k = .ok u ∧ append c (.circuit u) = .ok ⟨c.ops ++ u.ops, c.n⟩ ∧ Unitary ρ ⟨c.ops ++ u.ops, c.n⟩ ∧
      ∀ A : Matrix (Fin c.n → Bool) (Fin c.n → Bool) ℂ, (∀ kv ∈ H, Commute A (pauliString c.n kv.1)) → braket (outputState ρ ⟨c.ops ++ u.ops, c.n⟩) A = braket (outputState ρ c) A := by
  obtain ⟨u, h1, h2, h3⟩ := timeEvolution_spec hH hne time k hk
  obtain ⟨g1, g2, g3⟩ := timeEvolution_good ρ hH hb hreal time htime k h1
  have happ : append c (.circuit u) = .ok ⟨c.ops ++ u.ops, c.n⟩ := by
    rw [append_circuit c u hc.1 g1, max_eq_left g2]
  have hu : Unitary ρ ⟨c.ops ++ u.ops, c.n⟩ := by
    refine ⟨fun h0 => ?_, fun op hop => ?_, fun op hop => ?_⟩
    · have h0' : c.n = 0 := h0
      show c.ops ++ u.ops = []
      rw [hc.1 h0', g1 (by omega)]; rfl
    · rcases List.mem_append.1 hop with hop | hop
      · exact hc.2.1 op hop
      · exact (g3 op hop).1
    · rcases List.mem_append.1 hop with hop | hop
      · exact hc.2.2 op hop
      · exact (g3 op hop).2
  refine ⟨u, h1, happ, hu, fun A hA => ?_⟩
  rw [Register.later_state]
  refine Register.braket_unitary _ (Register.later_unitary (fun op hop => (g3 op hop).1) (fun op hop => (g3 op hop).2)) ?_
  have e : (u.ops.reverse.map (GateOp.operator c.n ρ)).prod = trotterStep c.n (time.eval ρ / k) H ^ k := h3 c.n ρ hb
  rw [e]
  exact commutes_step hA _ k

/-- C147. Evolving the state of any circuit, with any number of Trotter steps, leaves the exact expectation values of every operator whose Pauli strings commute with those of the Hamiltonian as
they are. -/
theorem values_conserved {ρ : String → ℂ} (sim : Simulator W) (hsim : Correct sim ρ) (sim' : Simulator W') (hsim' : Correct sim' ρ) {c : Circuit} (hc : Unitary ρ c) {H : Terms Letter}
    (hH : CanonicalOp H) (hne : H ≠ []) (hb : Below c.n H) (hreal : ∀ kv ∈ H, kv.2.im = 0) (time : Expr) (htime : (time.eval ρ).im = 0) (k : ℕ) (hk : 0 < k) (isIsing : Bool) {A : Terms Letter}
    (hA : CanonicalOp A) (hAb : Below c.n A) (hcomm : ∀ s ∈ A, ∀ t ∈ H, Commute (pauliString c.n s.1) (pauliString c.n t.1)) (st : St W) (st' : St W') :
    ∃ u c' e, timeEvolution H time "Trotter" k = .ok u ∧ append c (.circuit u) = .ok c' ∧ (getExactExpectationValues sim ρ c isIsing A st).1 = .ok e ∧
      (getExactExpectationValues sim' ρ c' isIsing A st').1 = .ok e := by
  obtain ⟨u, h1, h2, h3, h4⟩ := evolved hc hH hne hb hreal time htime k hk
  have e1 := (exactValues_spec sim ρ hsim c hc isIsing hA hAb st).1
  have e2 := (exactValues_spec sim' ρ hsim' _ h3 isIsing hA hAb st').1
  refine ⟨u, _, _, h1, h2, e1, e2.trans ?_⟩
  congr 2
  refine List.map_congr_left fun kv hkv => ?_
  have hmem : kv ∈ A := by
    cases isIsing with
    | false => exact hkv
    | true => exact (List.mem_filter.1 hkv).1
  exact congrArg Complex.re (h4 _ fun t ht => (hcomm kv hmem t ht).smul_left _)

theorem sum_values {n : ℕ} (ψ : (Fin n → Bool) → ℂ) (A : Terms Letter) : (A.map fun kv => (braket ψ (kv.2 • pauliString n kv.1)).re).sum = (braket ψ (opMatrix n A)).re := by
  induction A with
  | nil => show (0 : ℝ) = (braket ψ 0).re; rw [braket_zero]; rfl
  | cons kv A ih =>
    rw [List.map_cons, List.sum_cons, ih]
    show _ = (braket ψ (List.map (fun kv : Term Letter × ℂ => kv.2 • pauliString n kv.1) (kv :: A)).sum).re
    rw [List.map_cons, List.sum_cons, braket_add, Complex.add_re]
    rfl

/-- C147. The same for the total: the sum of the values of an operator that, as a whole, commutes with each Pauli string of the Hamiltonian. -/
theorem total_conserved {ρ : String → ℂ} (sim : Simulator W) (hsim : Correct sim ρ) (sim' : Simulator W') (hsim' : Correct sim' ρ) {c : Circuit} (hc : Unitary ρ c) {H : Terms Letter}
    (hH : CanonicalOp H) (hne : H ≠ []) (hb : Below c.n H) (hreal : ∀ kv ∈ H, kv.2.im = 0) (time : Expr) (htime : (time.eval ρ).im = 0) (k : ℕ) (hk : 0 < k) {A : Terms Letter}
    (hA : CanonicalOp A) (hAb : Below c.n A) (hcomm : ∀ t ∈ H, Commute (opMatrix c.n A) (pauliString c.n t.1)) (st : St W) (st' : St W') :
    ∃ u c' e e', timeEvolution H time "Trotter" k = .ok u ∧ append c (.circuit u) = .ok c' ∧ (getExactExpectationValues sim ρ c false A st).1 = .ok e ∧
      (getExactExpectationValues sim' ρ c' false A st').1 = .ok e' ∧ e'.values.sum = e.values.sum := by
  obtain ⟨u, h1, h2, h3, h4⟩ := evolved hc hH hne hb hreal time htime k hk
  have e1 := (exactValues_spec sim ρ hsim c hc false hA hAb st).1
  have e2 := (exactValues_spec sim' ρ hsim' _ h3 false hA hAb st').1
  refine ⟨u, _, _, _, h1, h2, e1, e2, ?_⟩
  show (A.map fun kv => (braket (outputState ρ ⟨c.ops ++ u.ops, c.n⟩) (kv.2 • pauliString c.n kv.1)).re).sum = (A.map fun kv => (braket (outputState ρ c) (kv.2 • pauliString c.n kv.1)).re).sum
  rw [sum_values, sum_values, h4 _ hcomm]

/-- C147. The energy is conserved when the Pauli strings of the Hamiltonian commute. -/
theorem energy_conserved {ρ : String → ℂ} (sim : Simulator W) (hsim : Correct sim ρ) (sim' : Simulator W') (hsim' : Correct sim' ρ) {c : Circuit} (hc : Unitary ρ c) {H : Terms Letter}
    (hH : CanonicalOp H) (hne : H ≠ []) (hb : Below c.n H) (hreal : ∀ kv ∈ H, kv.2.im = 0) (time : Expr) (htime : (time.eval ρ).im = 0) (k : ℕ) (hk : 0 < k) (isIsing : Bool)
    (hcomm : ∀ s ∈ H, ∀ t ∈ H, Commute (pauliString c.n s.1) (pauliString c.n t.1)) (st : St W) (st' : St W') :
    ∃ u c' e, timeEvolution H time "Trotter" k = .ok u ∧ append c (.circuit u) = .ok c' ∧ (getExactExpectationValues sim ρ c isIsing H st).1 = .ok e ∧
      (getExactExpectationValues sim' ρ c' isIsing H st').1 = .ok e :=
  values_conserved sim hsim sim' hsim' hc hH hne hb hreal time htime k hk isIsing hH hb hcomm st st'

/-! ### An instance -/

theorem xz_zx : letterMatrix .X * letterMatrix .Z = -(letterMatrix .Z * letterMatrix .X) := by
  ext a b
  cases a <;> cases b <;> simp [letterMatrix, Matrix.mul_apply, pauliX, pauliZ]

/-- The hypotheses are met: `X₀X₁` and `Z₀Z₁` commute, although their letters do not, and neither is constant. -/
example : Unitary (fun _ => 0) exampleCircuit ∧ CanonicalOp [([(0, .X), (1, .X)], 1), ([(0, .Z), (1, .Z)], 2)] ∧ Below exampleCircuit.n [([(0, .X), (1, .X)], 1), ([(0, .Z), (1, .Z)], 2)] ∧
    Commute (pauliString exampleCircuit.n [(0, .X), (1, .X)]) (pauliString exampleCircuit.n [(0, .Z), (1, .Z)]) := by
  obtain ⟨-, h1, h2⟩ := exampleCircuit_valid
  refine ⟨⟨fun h => absurd h (by decide), h1, fun op hop => h2 op hop⟩, ?_, ?_, ?_⟩
  · exact ⟨by simp [WF, PyDict.keys], by
      intro t ht
      simp only [PyDict.keys, List.map_cons, List.map_nil, List.mem_cons, List.not_mem_nil, or_false] at ht
      rcases ht with rfl | rfl <;> exact ⟨by decide, by decide⟩⟩
  · intro kv hkv f hf
    have hn : exampleCircuit.n = 3 := rfl
    simp only [List.mem_cons, List.not_mem_nil, or_false] at hkv
    rcases hkv with rfl | rfl <;> simp at hf <;> rcases hf with rfl | rfl <;> simp [hn]
  · show pauliString 3 _ * pauliString 3 _ = pauliString 3 _ * pauliString 3 _
    unfold pauliString
    rw [tensor_mul, tensor_mul]
    ext x y
    show ∏ q : Fin 3, _ = ∏ q : Fin 3, _
    rw [Fin.prod_univ_three, Fin.prod_univ_three]
    simp [letterAt, xz_zx]

end ZQ.Conserved
