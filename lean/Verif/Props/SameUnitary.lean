import Verif.Model.OutcomeDistribution
import Verif.Props.Contract
import Verif.Props.Decompositions

/-!
# C135: circuits with the same unitary cannot be told apart
-/

namespace ZQ.Same

open ZQ ZQ.Circuits ZQ.Gates ZQ.Est ZQ.Expect ZQ.Backend ZQ.Stat Matrix

variable {W W' : Type}

/-! ### Specification -/

/-- Specification: registers of the same size, and the matrices computed by `to_unitary` are equal up to one global phase. -/
structure Equivalent (ρ : String → ℂ) (c d : Circuit) : Prop where
  size : c.n = d.n
  phase : ∃ (U V : Mat ℂ) (z : ℂ), c.toUnitary ρ = .ok U ∧ d.toUnitary ρ = .ok V ∧ ‖z‖ = 1 ∧ ∀ i < 2 ^ c.n, ∀ j < 2 ^ c.n, U.e i j = z * V.e i j

/-- Specification: the daggers of the operations in reverse order. -/
def undo (ops : List GateOp) : List GateOp := ops.reverse.map fun o => ⟨o.gate.dagger, o.qubits⟩

/-! ### The state -/

theorem ops_ne_nil {ρ : String → ℂ} {c : Circuit} {U : Mat ℂ} (h : c.toUnitary ρ = .ok U) : c.ops ≠ [] := by
  intro h0
  obtain ⟨ops, n⟩ := c
  dsimp only at h0
  subst h0
  rw [toUnitary_empty] at h; cases h

theorem output_phase {ρ : String → ℂ} {n : ℕ} {a b : List GateOp} (hc : Unitary ρ ⟨a, n⟩) (hd : Unitary ρ ⟨b, n⟩) (h : Equivalent ρ ⟨a, n⟩ ⟨b, n⟩) :
    ∃ z : ℂ, ‖z‖ = 1 ∧ outputState ρ ⟨a, n⟩ = z • outputState ρ ⟨b, n⟩ := by
  obtain ⟨U, V, z, h1, h2, h3, h4⟩ := h.phase
  obtain ⟨U', u1, -, -, u2⟩ := toUnitary_spec ⟨a, n⟩ ρ (ops_ne_nil h1) hc.2.1
  obtain ⟨V', v1, -, -, v2⟩ := toUnitary_spec ⟨b, n⟩ ρ (ops_ne_nil h2) hd.2.1
  rw [h1] at u1; cases u1
  rw [h2] at v1; cases v1
  refine ⟨z, h3, ?_⟩
  have hm : U.onBits n = z • V.onBits n := by
    ext x y
    exact h4 _ (basisIndex_lt x) _ (basisIndex_lt y)
  show (a.reverse.map (GateOp.operator n ρ)).prod *ᵥ _ = z • ((b.reverse.map (GateOp.operator n ρ)).prod *ᵥ _)
  have u2' : U.onBits n = (a.reverse.map (GateOp.operator n ρ)).prod := u2
  have v2' : V.onBits n = (b.reverse.map (GateOp.operator n ρ)).prod := v2
  rw [← u2', ← v2', hm, smul_mulVec]

theorem amplitudes_of (w : Wavefunction.Wf Empty) (n : ℕ) (h : (amplitudes w).length = 2 ^ n) :
    amplitudes w = (List.range (2 ^ n)).map fun i => stateOn n (amplitudes w) (bitsOf n i) := by
  refine List.ext_getElem (by simp [h]) fun i h1 h2 => ?_
  have hi : i < 2 ^ n := by rw [h] at h1; exact h1
  rw [List.getElem_map, List.getElem_range, stateOn, basisIndex_bitsOf n i hi, List.getD_eq_getElem _ _ h1]

/-- C135. The wavefunctions of the two circuits are the same up to a phase, on any two correct simulators. -/
theorem wavefunction_same {ρ : String → ℂ} (sim : Simulator W) (hsim : Correct sim ρ) (sim' : Simulator W') (hsim' : Correct sim' ρ) {c d : Circuit} (hc : Unitary ρ c) (hd : Unitary ρ d)
    (h : Equivalent ρ c d) (st : St W) (st' : St W') :
    ∃ (w w' : Wavefunction.Wf Empty) (z : ℂ), (getWavefunction sim ρ c none st).1 = .ok w ∧ (getWavefunction sim' ρ d none st').1 = .ok w' ∧ ‖z‖ = 1 ∧
      amplitudes w = (amplitudes w').map fun a => z * a := by
  obtain ⟨a, n⟩ := c
  obtain ⟨b, m⟩ := d
  obtain rfl : n = m := h.size
  obtain ⟨z, hz, hs⟩ := output_phase hc hd h
  obtain ⟨w, w1, w2, w3, -⟩ := wavefunction_amplitudes sim ρ hsim _ hc st
  obtain ⟨w', v1, v2, v3, -⟩ := wavefunction_amplitudes sim' ρ hsim' _ hd st'
  refine ⟨w, w', z, w1, v1, hz, ?_⟩
  rw [amplitudes_of w n w2, amplitudes_of w' n v2, List.map_map]
  refine List.map_congr_left fun i _ => ?_
  have e3 : stateOn n (amplitudes w) = outputState ρ ⟨a, n⟩ := w3
  have f3 : stateOn n (amplitudes w') = outputState ρ ⟨b, n⟩ := v3
  rw [e3, hs, Function.comp_apply, f3]
  rfl

/-! ### What is computed from the state -/

theorem probabilities_of (w : Wavefunction.Wf Empty) : Wavefunction.getProbabilities w = some ((amplitudes w).map Complex.normSq) := by
  unfold Wavefunction.getProbabilities amplitudes
  generalize w.amps = l
  induction l with
  | nil => rfl
  | cons a l ih =>
    rw [List.mapM_cons, ih]
    cases a with
    | num z => rfl
    | sym s => cases s

theorem normSq_phase {z : ℂ} (hz : ‖z‖ = 1) (a : ℂ) : Complex.normSq (z * a) = Complex.normSq a := by
  rw [Complex.normSq_mul, Complex.normSq_eq_norm_sq z, hz]; ring

theorem probabilities_same {w w' : Wavefunction.Wf Empty} {z : ℂ} (hz : ‖z‖ = 1) (h : amplitudes w = (amplitudes w').map fun a => z * a) :
    Wavefunction.getProbabilities w = Wavefunction.getProbabilities w' := by
  rw [probabilities_of, probabilities_of, h, List.map_map]
  congr 1
  exact List.map_congr_left fun a _ => normSq_phase hz a

theorem amps_length {w w' : Wavefunction.Wf Empty} {z : ℂ} (h : amplitudes w = (amplitudes w').map fun a => z * a) : w.amps.length = w'.amps.length := by
  have := congrArg List.length h
  simpa [amplitudes] using this

theorem sample_same (choose : Chooser) {w w' : Wavefunction.Wf Empty} {z : ℂ} (hz : ‖z‖ = 1) (h : amplitudes w = (amplitudes w').map fun a => z * a) (s : ℤ) :
    sampleFromWavefunction choose w s = sampleFromWavefunction choose w' s := by
  have e : Wavefunction.getOutcomeProbs w = Wavefunction.getOutcomeProbs w' := by
    unfold Wavefunction.getOutcomeProbs Wavefunction.nQubits
    rw [probabilities_same hz h, amps_length h]
  unfold sampleFromWavefunction
  rw [e]

/-- Running either circuit on the simulator, whatever way samples are chosen. -/
theorem symbolicRun_same (choose : Chooser) {ρ : String → ℂ} {c d : Circuit} (hc : Unitary ρ c) (hd : Unitary ρ d) (h : Equivalent ρ c d) (s : ℤ) (st : St W) (st' : St W') :
    (symbolicRun choose (fun _ => false) ρ c s none st).1 = (symbolicRun choose (fun _ => false) ρ d s none st').1 := by
  obtain ⟨w, w', z, h1, h2, hz, ha⟩ := wavefunction_same (symbolic ρ) (fun _ _ _ => rfl) (symbolic ρ) (fun _ _ _ => rfl) hc hd h st st'
  unfold symbolicRun
  dsimp only
  cases hg : getWavefunction (symbolic ρ) ρ c none st with
  | mk o t =>
    cases hg' : getWavefunction (symbolic ρ) ρ d none st' with
    | mk o' t' =>
      rw [hg] at h1
      rw [hg'] at h2
      dsimp only at h1 h2
      subst h1 h2
      exact sample_same choose hz ha s

/-- C135. With the same random numbers, two circuits with the same unitary up to a phase give the same bitstrings (or the same exception), for every number of samples, every seed and all
histories with the same number of runs. -/
theorem measured_same (r : Randomness) (seed : Option ℕ) {ρ : String → ℂ} {c d : Circuit} (hc : Unitary ρ c) (hd : Unitary ρ d) (h : Equivalent ρ c d) (s : Option ℤ) (st st' : St ℕ)
    (hst : st.world = st'.world) : (simRun r seed ρ c s st).1 = (simRun r seed ρ d s st').1 := by
  cases s with
  | none => rfl
  | some s =>
    show (symbolicRun _ _ ρ c s none st).1 = (symbolicRun _ _ ρ d s none st').1
    rw [hst]
    exact symbolicRun_same _ hc hd h s st st'

/-- C135. Exact distributions of outcomes (no number of samples) and measured ones are the same. -/
theorem distribution_same (r : Randomness) (seed : Option ℕ) {ρ : String → ℂ} {c d : Circuit} (hc : Unitary ρ c) (hd : Unitary ρ d) (h : Equivalent ρ c d) (s : Option ℤ) (st st' : St ℕ)
    (hst : st.world = st'.world) : (outcomeDistribution r seed ρ c s st).1 = (outcomeDistribution r seed ρ d s st').1 := by
  cases s with
  | none =>
    show (exactDistribution _ ρ c st).1 = (exactDistribution _ ρ d st').1
    obtain ⟨w, w', z, h1, h2, hz, ha⟩ := wavefunction_same (symbolic ρ) (fun _ _ _ => rfl) (symbolic ρ) (fun _ _ _ => rfl) hc hd h st st'
    unfold exactDistribution
    cases hg : getWavefunction (symbolic ρ) ρ c none st with
    | mk o t =>
      cases hg' : getWavefunction (symbolic ρ) ρ d none st' with
      | mk o' t' =>
        rw [hg] at h1
        rw [hg'] at h2
        dsimp only at h1 h2
        subst h1 h2
        dsimp only
        rw [probabilities_same hz ha]
        cases Wavefunction.getProbabilities w' <;> rfl
  | some s =>
    have e := measured_same r seed hc hd h (some s) st st' hst
    unfold outcomeDistribution
    dsimp only
    cases hg : simRun r seed ρ c (some s) st with
    | mk o t =>
      cases hg' : simRun r seed ρ d (some s) st' with
      | mk o' t' =>
        rw [hg, hg'] at e
        dsimp only at e
        subst e
        cases o <;> rfl

theorem expectation_phase (M : Mat ℂ) (amps : List ℂ) {z : ℂ} (hz : ‖z‖ = 1) : expectation M (amps.map fun a => z * a) = expectation M amps := by
  unfold expectation matVec
  rw [List.length_map]
  by_cases hl : M.cols ≠ amps.length
  · rw [if_pos hl, if_pos hl]; rfl
  rw [if_neg hl, if_neg hl]
  have hv : (List.range M.rows).map (fun i => ((List.range M.cols).map fun j => M.e i j * (amps.map fun a => z * a).getD j 0).sum) =
      ((List.range M.rows).map fun i => ((List.range M.cols).map fun j => M.e i j * amps.getD j 0).sum).map fun a => z * a := by
    rw [List.map_map]
    refine List.map_congr_left fun i _ => ?_
    rw [Function.comp_apply, ← List.sum_map_mul_left]
    congr 1
    refine List.map_congr_left fun j _ => ?_
    have : (amps.map fun a => z * a).getD j 0 = z * amps.getD j 0 := by
      simp only [List.getD_eq_getElem?_getD, List.getElem?_map]
      cases amps[j]? <;> simp
    rw [this]; ring
  show dot _ _ = dot _ _
  rw [hv]
  generalize (List.range M.rows).map (fun i => ((List.range M.cols).map fun j => M.e i j * amps.getD j 0).sum) = v
  unfold dot
  simp only [List.length_map]
  by_cases h2 : amps.length ≠ v.length
  · rw [if_pos h2, if_pos h2]
  rw [if_neg h2, if_neg h2]
  congr 1
  clear * - hz
  have hzz : star z * z = 1 := by
    rw [Complex.star_def, ← Complex.normSq_eq_conj_mul_self, Complex.normSq_eq_norm_sq, hz]; norm_num
  induction amps generalizing v with
  | nil => rfl
  | cons a l ih =>
    cases v with
    | nil => rfl
    | cons b v =>
      simp only [List.map_cons, List.zipWith_cons_cons, List.sum_cons]
      rw [ih v, star_mul]
      congr 1
      linear_combination (star a * b) * hzz

theorem exactOf_phase (isIsing : Bool) (o : Op.Terms Op.Letter) (amps : List ℂ) {z : ℂ} (hz : ‖z‖ = 1) : exactOf isIsing o (amps.map fun a => z * a) = exactOf isIsing o amps := by
  have e : ∀ o : Op.Terms Op.Letter, termValues o (amps.map fun a => z * a) = termValues o amps := by
    intro o
    unfold termValues getExpectationValue
    simp only [List.length_map, expectation_phase _ amps hz]
  unfold exactOf
  simp only [e]

/-- C135. Exact expectation values are the same, for every operator, on any two correct simulators. -/
theorem expectation_same {ρ : String → ℂ} (sim : Simulator W) (hsim : Correct sim ρ) (sim' : Simulator W') (hsim' : Correct sim' ρ) {c d : Circuit} (hc : Unitary ρ c) (hd : Unitary ρ d)
    (h : Equivalent ρ c d) (isIsing : Bool) (o : Op.Terms Op.Letter) (st : St W) (st' : St W') :
    (getExactExpectationValues sim ρ c isIsing o st).1 = (getExactExpectationValues sim' ρ d isIsing o st').1 := by
  obtain ⟨w, w', z, h1, h2, hz, ha⟩ := wavefunction_same sim hsim sim' hsim' hc hd h st st'
  unfold getExactExpectationValues
  cases hg : getWavefunction sim ρ c none st with
  | mk o t =>
    cases hg' : getWavefunction sim' ρ d none st' with
    | mk o' t' =>
      rw [hg] at h1
      rw [hg'] at h2
      dsimp only at h1 h2
      subst h1 h2
      dsimp only
      rw [ha, exactOf_phase _ _ _ hz]

/-! ### Estimation -/

/-- Specification: the same task, up to a circuit with the same unitary. -/
structure SameTask (ρ : String → ℂ) (t u : Task) : Prop where
  operator : t.operator = u.operator
  shots : t.shots = u.shots
  left : Unitary ρ t.circuit
  right : Unitary ρ u.circuit
  circuits : Equivalent ρ t.circuit u.circuit

theorem simRun_world (r : Randomness) (seed : Option ℕ) (ρ : String → ℂ) (c : Circuit) (s : Option ℤ) (st : St ℕ) :
    (simRun r seed ρ c s st).2.world = if s = none then st.world else st.world + 1 := by
  cases s <;> rfl

theorem simLoop_same (r : Randomness) (seed : Option ℕ) {ρ : String → ℂ} {ts us : List Task} (h : List.Forall₂ (SameTask ρ) ts us) : ∀ (st st' : St ℕ), st.world = st'.world →
    (simLoop r seed ρ (ts.map fun t => (t.circuit, t.shots)) st).1 = (simLoop r seed ρ (us.map fun t => (t.circuit, t.shots)) st').1 := by
  induction h with
  | nil => intro st st' _; rfl
  | @cons t u ts us h hs ih =>
    intro st st' hst
    have e := measured_same r seed h.left h.right h.circuits t.shots st st' hst
    rw [h.shots] at e
    have ew : (simRun r seed ρ t.circuit t.shots st).2.world = (simRun r seed ρ u.circuit u.shots st').2.world := by
      rw [simRun_world, simRun_world, h.shots, hst]
    rw [h.shots] at ew
    rw [List.map_cons, List.map_cons, simLoop, simLoop, h.shots]
    cases hg : simRun r seed ρ t.circuit u.shots st with
    | mk o s1 =>
      cases hg' : simRun r seed ρ u.circuit u.shots st' with
      | mk o' s2 =>
        rw [hg, hg'] at e ew
        dsimp only at e ew
        subst e
        cases o with
        | error e => rfl
        | ok m =>
          have e2 := ih s1 s2 ew
          dsimp only
          cases hl : simLoop r seed ρ (ts.map fun t => (t.circuit, t.shots)) s1 with
          | mk p s3 =>
            cases hl' : simLoop r seed ρ (us.map fun t => (t.circuit, t.shots)) s2 with
            | mk p' s4 =>
              rw [hl, hl'] at e2
              dsimp only at e2
              subst e2
              cases p <;> rfl

theorem notMeasured_same {ρ : String → ℂ} {t u : Task} (h : SameTask ρ t u) : notMeasured t = notMeasured u := by
  unfold notMeasured
  rw [h.operator, h.shots]

theorem splitLoop_same {ρ : String → ℂ} {ts us : List Task} (h : List.Forall₂ (SameTask ρ) ts us) : ∀ i, List.Forall₂ (SameTask ρ) (splitLoop i ts).1 (splitLoop i us).1 ∧
    List.Forall₂ (SameTask ρ) (splitLoop i ts).2.1 (splitLoop i us).2.1 ∧ (splitLoop i ts).2.2 = (splitLoop i us).2.2 := by
  induction h with
  | nil => exact fun i => ⟨.nil, .nil, rfl⟩
  | cons h hs ih =>
    intro i
    obtain ⟨a, b, c⟩ := ih (i + 1)
    rw [splitLoop, splitLoop, notMeasured_same h]
    split
    · exact ⟨a, .cons h b, by rw [c]⟩
    · exact ⟨.cons h a, b, by rw [c]⟩

theorem nonMeasured_same {ρ : String → ℂ} {ts us : List Task} (h : List.Forall₂ (SameTask ρ) ts us) : evaluateNonMeasured ts = evaluateNonMeasured us := by
  unfold evaluateNonMeasured
  induction h with
  | nil => rfl
  | @cons t u ts us h hs ih =>
    have e : evaluateNonMeasured1 t = evaluateNonMeasured1 u := by
      unfold evaluateNonMeasured1
      rw [h.operator, h.shots]
    rw [List.mapM_cons, List.mapM_cons, ih, e]

theorem operators_same {ρ : String → ℂ} {ts us : List Task} (h : List.Forall₂ (SameTask ρ) ts us) : ts.map Task.operator = us.map Task.operator := by
  induction h with
  | nil => rfl
  | cons h hs ih => rw [List.map_cons, List.map_cons, ih, h.operator]

/-- C135. Estimation by averaging: with the same random numbers, lists of tasks whose circuits have the same unitaries up to phases have the same results: values, correlations, covariances
and exceptions. -/
theorem estimates_same (r : Randomness) (seed : Option ℕ) {ρ : String → ℂ} {ts us : List Task} (h : List.Forall₂ (SameTask ρ) ts us) (st st' : St ℕ) (hst : st.world = st'.world) :
    estimateByAveraging (simRunner r seed ρ st) ts = estimateByAveraging (simRunner r seed ρ st') us := by
  obtain ⟨a, b, c⟩ := splitLoop_same h 0
  unfold estimateByAveraging split
  dsimp only
  rw [nonMeasured_same b, operators_same a, a.length_eq, b.length_eq, c]
  have he : (splitLoop 0 ts).1.isEmpty = (splitLoop 0 us).1.isEmpty := by
    revert a
    generalize (splitLoop 0 ts).1 = x
    generalize (splitLoop 0 us).1 = y
    intro a
    cases a <;> rfl
  rw [he]
  have hr : simRunner r seed ρ st ((splitLoop 0 ts).1.map fun t => (t.circuit, t.shots)) = simRunner r seed ρ st' ((splitLoop 0 us).1.map fun t => (t.circuit, t.shots)) :=
    simLoop_same r seed a st st' hst
  rw [hr]

/-! ### Circuits with the same unitary -/

/-- Specification: a U3 with real angles, or a controlled one with real angles whose lost phase is 1 (C16). -/
def RealU3 (ρ : String → ℂ) (op : GateOp) : Prop :=
  ∃ t p l, ((t.eval ρ).im = 0 ∧ (p.eval ρ).im = 0 ∧ (l.eval ρ).im = 0) ∧ (op.gate = .factory u3Base [t, p, l] ∨
    ∃ k, op.gate = .ctrl (.factory u3Base [t, p, l]) k ∧ Complex.exp (-0.5 * Complex.I * (p.eval ρ + l.eval ρ)) = 1)

theorem RealU3.good {ρ : String → ℂ} {op : GateOp} (h : RealU3 ρ op) : GoodU3 ρ op := by
  obtain ⟨t, p, l, ⟨-, hp, hl⟩, h⟩ := h
  rcases h with h | ⟨k, h, hz⟩
  · exact ⟨t, p, l, Or.inl ⟨h, by rw [Complex.add_im, hp, hl, add_zero]⟩⟩
  · exact ⟨t, p, l, Or.inr ⟨k, h, hz⟩⟩

theorem rotation_base {ρ : String → ℂ} {name : String} {m : ℂ → Mat ℂ} (hb : (⟨name, param1 m, 1, false⟩ : Base) ∈ builtinGates) {a : Expr} (ha : (a.eval ρ).im = 0) :
    (Gate.factory ⟨name, param1 m, 1, false⟩ [a]).AllBase fun b ps => (b.factory.matrix ps ρ).onBits b.numQubits ∈ unitaryGroup (Fin b.numQubits → Bool) ℂ :=
  builtin_unitary _ hb [a] ρ (by
    intro p hp
    rw [List.mem_singleton.1 hp]
    exact ha)

theorem production_unitary {ρ : String → ℂ} {n : ℕ} {o : GateOp} (hv : o.Valid n) (h : RealU3 ρ o) {l : List GateOp} (hl : u3Production o = .ok l) : ∀ b ∈ l, b.Valid n ∧ UnitaryOp ρ b ∧ u3Predicate b = false := by
  obtain ⟨g, qs⟩ := o
  obtain ⟨t, p, la, ⟨ht, hp, hla⟩, h⟩ := h
  rcases h with h | ⟨k, h, -⟩
  · dsimp only at h
    subst h
    obtain ⟨out, e, v, -⟩ := u3_decomposition_plain n ρ t p la qs hv
    rw [hl] at e; cases e
    rw [u3Production_plain] at hl
    cases hl
    intro b hb
    refine ⟨v b hb, ?_⟩
    simp only [List.mem_cons, List.not_mem_nil, or_false] at hb
    rcases hb with rfl | rfl | rfl
    · exact ⟨rotation_base Contract.rz_builtin hla, rfl⟩
    · exact ⟨rotation_base Contract.ry_builtin ht, rfl⟩
    · exact ⟨rotation_base Contract.rz_builtin hp, rfl⟩
  · dsimp only at h
    subst h
    obtain ⟨out, e, v, -⟩ := u3_decomposition_ctrl n ρ t p la k qs hv
    rw [hl] at e; cases e
    rw [u3Production_ctrl _ _ _ _ hv.2.2.2.2.1] at hl
    cases hl
    intro b hb
    refine ⟨v b hb, ?_⟩
    simp only [List.mem_cons, List.not_mem_nil, or_false] at hb
    rcases hb with rfl | rfl | rfl
    · exact ⟨rotation_base Contract.rz_builtin hla, rfl⟩
    · exact ⟨rotation_base Contract.ry_builtin ht, rfl⟩
    · exact ⟨rotation_base Contract.rz_builtin hp, rfl⟩

/-- From equality of operators up to a phase. -/
theorem equivalent_of {ρ : String → ℂ} {n : ℕ} {a b : List GateOp} (ha : ∀ o ∈ a, o.Valid n) (hb : ∀ o ∈ b, o.Valid n) (ha0 : a ≠ []) (hb0 : b ≠ [])
    (h : EqUpToPhase (opsOperator n ρ a) (opsOperator n ρ b)) : Equivalent ρ ⟨a, n⟩ ⟨b, n⟩ := by
  obtain ⟨U, u1, -, -, u2⟩ := toUnitary_spec ⟨a, n⟩ ρ ha0 ha
  obtain ⟨V, v1, -, -, v2⟩ := toUnitary_spec ⟨b, n⟩ ρ hb0 hb
  obtain ⟨z, hz, e⟩ := h
  refine ⟨rfl, U, V, z, u1, v1, hz, fun i hi j hj => ?_⟩
  have u2' : U.onBits n = opsOperator n ρ a := u2
  have v2' : V.onBits n = opsOperator n ρ b := v2
  rw [← u2', ← v2'] at e
  have := congrFun (congrFun e (bitsOf n i)) (bitsOf n j)
  change U.e (basisIndex (bitsOf n i)) (basisIndex (bitsOf n j)) = z * V.e (basisIndex (bitsOf n i)) (basisIndex (bitsOf n j)) at this
  rw [basisIndex_bitsOf n i hi, basisIndex_bitsOf n j hj] at this
  exact this

/-- C135. Decomposing the U3 gates with real angles of a circuit gives a circuit with the same unitary up to a phase, so all of the above holds for it. -/
theorem decomposed_same {ρ : String → ℂ} {c : Circuit} (hsize : Circuit.make c.ops none = .ok c) (hne : c.ops ≠ []) (hc : Unitary ρ c)
    (hg : ∀ o ∈ c.ops, u3Predicate o = true → RealU3 ρ o) : ∃ d, decomposeCircuit c [u3Rule] = .ok d ∧ Unitary ρ d ∧ Equivalent ρ d c := by
  obtain ⟨out, h1, h2, h3⟩ := u3_circuit_partial c.ops c.n ρ hc.2.1 fun o ho hp => (hg o ho hp).good
  obtain ⟨g1, -⟩ := decompose_preserves_general (⊤ : Con (Multiplicative ℕ)) (fun _ : GateOp => 1)
    (fun o => o.Valid c.n ∧ UnitaryOp ρ o ∧ (u3Predicate o = true → RealU3 ρ o)) [u3Rule] (by
      intro r hr a l ha hpred hprod
      rw [List.mem_singleton.1 hr] at hpred hprod
      have hu := production_unitary ha.1 (ha.2.2 hpred) hprod
      exact ⟨fun b hb => ⟨(hu b hb).1, (hu b hb).2.1, fun h => by rw [(hu b hb).2.2] at h; cases h⟩, trivial⟩) c.ops out
    (fun a ha => ⟨hc.2.1 a ha, hc.2.2 a ha, hg a ha⟩) h1
  obtain ⟨o, ho⟩ := List.exists_mem_of_ne_nil _ hne
  obtain ⟨q, hq⟩ := List.exists_mem_of_ne_nil _ (hc.2.1 o ho).1
  obtain ⟨b, hb, hqb⟩ := (decompose_qubits c.ops out h1 q).2 ⟨o, ho, hq⟩
  have hout : out ≠ [] := List.ne_nil_of_mem hb
  obtain ⟨d, hd⟩ : ∃ d, Circuit.make out none = .ok d := by
    unfold Circuit.make sizeByOperations
    dsimp only
    rw [if_neg (by simpa using hout)]
    cases hm : (out.flatMap GateOp.qubits).max? with
    | none =>
      rw [List.max?_eq_none_iff] at hm
      have : q ∈ out.flatMap GateOp.qubits := List.mem_flatMap.2 ⟨b, hb, hqb⟩
      rw [hm] at this
      cases this
    | some m => exact ⟨_, rfl⟩
  have hdec : decomposeCircuit c [u3Rule] = .ok d := by
    unfold decomposeCircuit
    rw [h1]
    exact hd
  have hn := decompose_register_partial c d hsize hdec
  obtain ⟨ho1, -, -⟩ := make_default out d hd
  obtain ⟨ops, n⟩ := d
  obtain ⟨cops, cn⟩ := c
  dsimp only at hn ho1
  subst hn ho1
  refine ⟨_, hdec, ⟨?_, h2, fun o ho => (g1 o ho).2.1⟩, equivalent_of h2 hc.2.1 hout hne h3⟩
  intro h0
  exact absurd (h2 b hb).2.2.1 (by
    intro h
    have := h q hqb
    rw [show _ = 0 from h0] at this
    exact absurd this (Nat.not_lt_zero _))

/-! ### Undoing a circuit -/

theorem undo_operator {ρ : String → ℂ} {n : ℕ} {o : GateOp} (hv : o.Valid n) : GateOp.operator n ρ ⟨o.gate.dagger, o.qubits⟩ = (o.operator n ρ)ᴴ := by
  unfold GateOp.operator
  dsimp only
  have e := dagger_onBits o.gate hv.2.2.2.2 ρ
  rw [← hv.2.2.2.1] at e
  rw [dif_pos hv.2.2.1, dif_pos hv.2.2.1, ← actOn_conjTranspose, e]

theorem undo_valid {n : ℕ} {o : GateOp} (hv : o.Valid n) : GateOp.Valid n ⟨o.gate.dagger, o.qubits⟩ :=
  ⟨hv.1, hv.2.1, hv.2.2.1, by rw [hv.2.2.2.1]; exact (Gate.numQubits_dagger _).symm, Gate.wf_dagger hv.2.2.2.2⟩

theorem undo_base (P : Base → List Expr → Prop) (g : Gate) (h : g.AllBase P) : g.dagger.AllBase P := by
  induction g with
  | factory b ps =>
    unfold Gate.dagger
    split <;> exact h
  | ctrl g k ih => exact ih h
  | dag g ih => exact h

theorem undo_prod {ρ : String → ℂ} {n : ℕ} (ops : List GateOp) (hv : ∀ o ∈ ops, o.Valid n) (hu : ∀ o ∈ ops, UnitaryOp ρ o) :
    opsOperator n ρ (ops ++ undo ops) = 1 := by
  induction ops with
  | nil => simp [opsOperator, undo]
  | cons o ops ih =>
    have e : opsOperator n ρ ((o :: ops) ++ undo (o :: ops)) = (o.operator n ρ)ᴴ * (opsOperator n ρ (ops ++ undo ops) * o.operator n ρ) := by
      unfold opsOperator undo
      simp only [List.reverse_cons, List.map_append, List.map_cons, List.map_nil, List.reverse_append, List.cons_append, List.reverse_reverse, List.prod_append, List.prod_cons, List.prod_nil,
        List.reverse_nil, List.nil_append, mul_one, Matrix.mul_assoc]
      rw [undo_operator (hv o (by simp))]
    rw [e, ih (fun a ha => hv a (by simp [ha])) fun a ha => hu a (by simp [ha]), Matrix.one_mul]
    exact mem_unitaryGroup_iff'.1 (operator_unitary n o (hv o (by simp)) ρ (hu o (by simp)))

/-- C135. A circuit followed by the daggers of its operations in reverse order measures zero on every qubit in every sample, whatever the random numbers are. -/
theorem undo_measures_zero {r : Randomness} {seed : Option ℕ} (hr : ∀ k j, 0 ≤ defaultRng r seed k j ∧ defaultRng r seed k j < 1) {ρ : String → ℂ} {c : Circuit} (hc : Unitary ρ c)
    (hn : 0 < c.n) (s : ℕ) (hs : 0 < s) (st : St ℕ) :
    ∃ e, append c (.circuit ⟨undo c.ops, c.n⟩) = .ok e ∧ Unitary ρ e ∧ (simRun r seed ρ e (some s) st).1 = .ok (List.replicate s (List.replicate c.n 0)) := by
  obtain ⟨ops, n⟩ := c
  dsimp only at hn ⊢
  have hu : Unitary ρ ⟨ops ++ undo ops, n⟩ := by
    refine ⟨fun h => absurd h hn.ne', fun o ho => ?_, fun o ho => ?_⟩
    · rcases List.mem_append.1 ho with ho | ho
      · exact hc.2.1 o ho
      · obtain ⟨a, ha, rfl⟩ := List.mem_map.1 ho
        exact undo_valid (hc.2.1 a (List.mem_reverse.1 ha))
    · rcases List.mem_append.1 ho with ho | ho
      · exact hc.2.2 o ho
      · obtain ⟨a, ha, rfl⟩ := List.mem_map.1 ho
        exact undo_base _ _ (hc.2.2 a (List.mem_reverse.1 ha))
  refine ⟨⟨ops ++ undo ops, n⟩, ?_, hu, ?_⟩
  · have := append_circuit ⟨ops, n⟩ ⟨undo ops, n⟩ hc.1 (fun h => absurd h hn.ne')
    simpa using this
  have hrun := symbolicRun_stream (hr st.world) hu hn s hs st
  have hstate : outputState ρ ⟨ops ++ undo ops, n⟩ = Pi.single (fun _ => false) 1 := by
    show opsOperator n ρ (ops ++ undo ops) *ᵥ _ = _
    rw [undo_prod ops hc.2.1 hc.2.2, Matrix.one_mulVec]
  have hout : ∀ u : ℝ, 0 ≤ u ∧ u < 1 → outcome ρ ⟨ops ++ undo ops, n⟩ u = fun _ => false := by
    intro u hu'
    have h0 : pick (bornList ρ ⟨ops ++ undo ops, n⟩) u = 0 := by
      rw [pick_iff (bornList_nonneg _ _) (bornList_sum hu) hu']
      refine ⟨by simpa using hu'.1, ?_⟩
      have : (bornList ρ ⟨ops ++ undo ops, n⟩).take 1 = [1] := by
        unfold bornList
        obtain ⟨m, hm⟩ : ∃ m, 2 ^ n = m + 1 := ⟨2 ^ n - 1, by have := Nat.one_le_two_pow (n := n); omega⟩
        dsimp only
        rw [hm, List.range_succ_eq_map, List.map_cons, List.take_succ_cons, List.take_zero]
        congr 1
        rw [hstate]
        have : bitsOf n 0 = fun _ => false := by
          rw [← bitsOf_basisIndex (fun _ : Fin n => false)]
          congr 1
          simp [basisIndex]
        rw [this, Pi.single_eq_same]
        simp
      rw [zero_add, this]
      simpa using hu'.2
    unfold outcome
    rw [h0]
    have : bitsOf n 0 = fun _ => false := by
      rw [← bitsOf_basisIndex (fun _ : Fin n => false)]
      congr 1
      simp [basisIndex]
    exact this
  refine hrun.trans ?_
  congr 1
  refine List.ext_getElem (by simp) fun j h1 h2 => ?_
  rw [List.getElem_ofFn, List.getElem_replicate, hout _ (hr _ _)]
  refine List.ext_getElem (by simp [bits]) fun q h3 h4 => ?_
  simp [bits]

/-! ### Non-vacuity -/

/-- Non-vacuity: `U3(pi/2, 0, pi)` and its three rotations; the circuits are different, and the phase is not 1. -/
example (ρ : String → ℂ) : ∃ c d, Unitary ρ c ∧ Unitary ρ d ∧ Equivalent ρ d c ∧ d.ops.length = 3 ∧ c.ops.length = 1 := by
  have hb : u3Base ∈ builtinGates := by simp [builtinGates, parametricGates, u3Base]
  have hreal : ∀ p ∈ [Expr.num ((Real.pi / 2 : ℝ) : ℂ), .num ((0 : ℝ) : ℂ), .num ((Real.pi : ℝ) : ℂ)], (p.eval ρ).im = 0 := by
    intro p hp
    simp only [List.mem_cons, List.not_mem_nil, or_false] at hp
    rcases hp with rfl | rfl | rfl <;> exact Complex.ofReal_im _
  have hc : Unitary ρ ⟨[⟨.factory u3Base [.num ((Real.pi / 2 : ℝ) : ℂ), .num ((0 : ℝ) : ℂ), .num ((Real.pi : ℝ) : ℂ)], [0]⟩], 1⟩ := by
    refine Contract.circuit_unitary ρ _ 1 one_pos fun o ho => ?_
    rw [List.mem_singleton.1 ho]
    exact ⟨⟨by simp, by simp, by simp, rfl, builtin_wf _ hb _⟩, builtin_unitary _ hb _ ρ hreal⟩
  obtain ⟨d, h1, h2, h3⟩ := decomposed_same (ρ := ρ) rfl (by simp) hc (by
    intro o ho _
    rw [List.mem_singleton.1 ho]
    exact ⟨_, _, _, ⟨hreal _ (by simp), hreal _ (by simp), hreal _ (by simp)⟩, Or.inl rfl⟩)
  refine ⟨_, d, hc, h2, h3, ?_, rfl⟩
  have : decomposeCircuit ⟨[⟨.factory u3Base [.num ((Real.pi / 2 : ℝ) : ℂ), .num ((0 : ℝ) : ℂ), .num ((Real.pi : ℝ) : ℂ)], [0]⟩], 1⟩ [u3Rule] =
      .ok ⟨[⟨rzGate (.num ((Real.pi : ℝ) : ℂ)), [0]⟩, ⟨ryGate (.num ((Real.pi / 2 : ℝ) : ℂ)), [0]⟩, ⟨rzGate (.num ((0 : ℝ) : ℂ)), [0]⟩], 1⟩ := rfl
  rw [this] at h1
  cases h1
  rfl

/-- Non-vacuity: a Hadamard gate is undone. -/
example (ρ : String → ℂ) (s : ℕ) (hs : 0 < s) (st : St ℕ) :
    ∃ e, append ⟨[Contract.hOp 0], 1⟩ (.circuit ⟨undo [Contract.hOp 0], 1⟩) = .ok e ∧ Unitary ρ e ∧
      (simRun ⟨fun _ _ => 1 / 2, fun _ _ => 1 / 2⟩ (some 7) ρ e (some s) st).1 = .ok (List.replicate s [0]) :=
  undo_measures_zero (by intro k j; norm_num [defaultRng]) (c := ⟨[Contract.hOp 0], 1⟩)
    (Contract.circuit_unitary ρ _ 1 one_pos fun o ho => by rw [List.mem_singleton.1 ho]; exact Contract.hOp_ok ρ one_pos) one_pos s hs st

end ZQ.Same
