import Verif.Lemmas.Workflow
import Verif.Props.Grouping
import Verif.Props.Diagonal
import Verif.Props.BKInteraction

/-!
# C117: chemistry workflows

From a file with an interaction operator to files with its ground state energy, ground state, reduced density matrices and expectation values.
-/

namespace ZQ.Workflow

open ZQ ZQ.Op ZQ.PolyT ZQ.Files ZQ.ArraySerde ZQ.Results ZQ.JWInt ZQ.Ground ZQ.Rdm ZQ.Sparse ZQ.Expect Matrix

/-- The file holds the operator `c + Σ one_pq a†_p a_q + Σ two_pqrs a†_p a†_q a_r a_s` with `n` orbitals. -/
def Stores (fs : FS) (p : Str) (n : ℕ) (c : ℂ) (one two : Tensor) : Prop :=
  ∃ o : InteractionOp, Holds fs p (.interaction o) ∧ o.one.Valid ∧ o.one.shape = [n, n] ∧ o.two.Valid ∧ o.two.shape = [n, n, n, n] ∧
    (o.constantCplx = false → o.constant.im = 0) ∧ o.constant = c ∧ (∀ i, InRange n 2 i → entries n o.one i = one i) ∧ ∀ i, InRange n 4 i → entries n o.two i = two i

/-- The types of the coefficients fit their values: real types are given to real numbers only. -/
def Fit (types : Terms Letter → Term Letter → Bool) : Prop := ∀ o, ∀ kv ∈ o, types o kv.1 = false → kv.2.im = 0

theorem inRange_two {n p q : ℕ} (hp : p < n) (hq : q < n) : InRange n 2 [p, q] := ⟨rfl, by simp [hp, hq]⟩
theorem inRange_four {n p q r s : ℕ} (hp : p < n) (hq : q < n) (hr : r < n) (hs : s < n) : InRange n 4 [p, q, r, s] := ⟨rfl, by simp [hp, hq, hr, hs]⟩

theorem interaction_congr {n : ℕ} {c : ℂ} {one two one' two' : Tensor} (h1 : ∀ i, InRange n 2 i → one' i = one i) (h2 : ∀ i, InRange n 4 i → two' i = two i) :
    polyAction (interaction n c one' two') = polyAction (interaction n c one two) := by
  rw [polyAction, polyAction, interaction, interaction]
  simp only [List.map_cons, List.map_nil]
  rw [tensorAction_congr (t := one') (u := one) h1, tensorAction_congr (t := two') (u := two) h2]

/-- A stored operator is loaded. -/
theorem stores_load {fs : FS} {p : Str} {n : ℕ} (hn : 0 < n) {c : ℂ} {one two : Tensor} (h : Stores fs p n c one two) :
    ∃ one' two', theInteraction fs (.file p) = .ok (.interaction n c one' two') ∧ (∀ i, InRange n 2 i → one' i = one i) ∧ ∀ i, InRange n 4 i → two' i = two i := by
  obtain ⟨o, h1, h2, h3, h4, h5, h6, rfl, h8, h9⟩ := h
  have f1 : Fine o.one := ⟨h2, by rw [h3]; simp [ListShape]; omega⟩
  have f2 : Fine o.two := ⟨h4, by rw [h5]; simp [ListShape]; omega⟩
  refine ⟨entries n o.one, entries n o.two, ?_, h8, h9⟩
  show (loadInteraction fs (.str p) >>= fun o => Except.ok (ofArrays o)) = _
  rw [load_interaction h6 f1 f2 h1]
  show Except.ok (ofArrays _) = _
  rw [ofArrays]
  have : (back o.one).shape.headD 0 = n := by show o.one.shape.headD 0 = n; rw [h3]; rfl
  simp only [this, entries_back]

/-! ## Transforming -/

/-- **The transformed operator**: the Jordan-Wigner transformation of a stored Hermitian operator writes a qubit operator that stands for the same operator,
and the time. -/
theorem transform_jw {types : Terms Letter → Term Letter → Bool} (hT : Fit types) (w : ℝ) {fs : FS} {p : Str} {n : ℕ} (hn : 0 < n) {c : ℂ} {one two : Tensor}
    (h : Stores fs p n c one two) (hH : Hermitian n one two) {δ : ℝ} (hδ : 1 / 10 ^ 8 ≤ δ) (hg : EntriesOn n (16 * δ) c one two) :
    ∃ fs' q, transformStep types w "Jordan-Wigner" (.file p) fs = .ok fs' ∧ loadQubitOp fs' (.str "transformed-operator.json".toList) = .ok q ∧
      Holds fs' "timing.json".toList (.timing w) ∧ (∀ p, p ≠ "transformed-operator.json".toList → p ≠ "timing.json".toList → fs' p = fs p) ∧
      CanonicalOp q ∧ (∀ kv ∈ q, 1 / 10 ^ 8 ≤ ‖kv.2‖) ∧ action pauliAction q = polyAction (interaction n c one two) := by
  obtain ⟨one', two', hl, e1, e2⟩ := stores_load hn h
  have hH' : Hermitian n one' two' := ⟨fun p hp q hq => by
      rw [e1 _ (inRange_two hp hq), e1 _ (inRange_two hq hp)]; exact hH.1 p hp q hq, fun p hp q hq r hr s hs => by
      rw [e2 _ (inRange_four hp hq hr hs), e2 _ (inRange_four hs hr hq hp)]; exact hH.2 p hp q hq r hr s hs⟩
  have hg' : EntriesOn n (16 * δ) c one' two' := ⟨hg.1, fun p hp q hq => by
      rw [e1 _ (inRange_two hp hq)]; exact hg.2.1 p hp q hq, fun p hp q hq r hr s hs => by
      rw [e2 _ (inRange_four hp hq hr hs)]; exact hg.2.2 p hp q hq r hr s hs⟩
  obtain ⟨o, o1, o2⟩ := jwInteraction_standsFor hδ n c one' two'
  obtain ⟨og, oa⟩ := o2.exact hg'
  have ho : CanonicalOp o := ⟨o2.wf, o2.terms⟩
  obtain ⟨k1, k2, k3, k4⟩ := kept_spec hδ ho og
  obtain ⟨fs1, s1, s2, s3⟩ := save_spec fs "transformed-operator.json" (.qubitOp (types o) o) (plain_op _)
  obtain ⟨fs2, t1, t2, t3⟩ := save_spec fs1 "timing.json" (.timing w) (plain_timing w)
  have hne : ("transformed-operator.json".toList : Str) ≠ "timing.json".toList := by decide
  have hh : Holds fs2 "transformed-operator.json".toList (.qubitOp (types o) o) := by
    obtain ⟨j, j1, j2⟩ := s2
    exact ⟨j, j1, by rw [t3 _ hne]; exact j2⟩
  refine ⟨fs2, OpSerde.kept o, ?_, load_qubitOp ho (fun kv hkv => hT o kv hkv) hh, t2, fun p h1 h2 => by rw [t3 p h2, s3 p h1], k1, k3, ?_⟩
  · have ht : transformed "Jordan-Wigner" (.interaction n c one' two') = .ok o := by
      rw [transformed, if_pos rfl]; exact o1
    show (theInteraction fs (.file p) >>= fun x => lift (transformed "Jordan-Wigner" x) >>= fun q =>
      save fs "transformed-operator.json" (.qubitOp (types q) q) >>= fun fs1 => save fs1 "timing.json" (.timing w)) = _
    rw [hl]
    show (lift (transformed "Jordan-Wigner" (.interaction n c one' two')) >>= _) = _
    rw [ht]
    show (save fs "transformed-operator.json" (.qubitOp (types o) o) >>= fun fs1 => save fs1 "timing.json" (.timing w)) = _
    rw [s1]
    exact t1
  · rw [k2, oa, herm_action hH', interaction_congr e1 e2]

/-! ## The ground state -/

theorem wavefunction_made {m : ℕ} {wf : List ℂ} (hl : wf.length = 2 ^ m) (h : Ground.inner (stateOn m wf) (stateOn m wf) = 1) :
    ∃ w : Wavefunction.Wf Empty, Wavefunction.mk? (wf.map .num) = .ok w ∧ w.amps = wf.map .num := by
  have hcount : ¬ (Bits.pyBin (wf.map (Wavefunction.Amp.num : ℂ → Wavefunction.Amp Empty)).length).count 1 ≠ 1 := by
    rw [Bits.count_one_pyBin, List.length_map, hl]; simp [Bits.popcount_two_pow]
  have hsum : ((wf.map (Wavefunction.Amp.num : ℂ → Wavefunction.Amp Empty)).map Wavefunction.ampSq).sum = 1 := by
    have e : Ground.inner (stateOn m wf) (stateOn m wf) = ((∑ x : Fin m → Bool, Complex.normSq (stateOn m wf x) : ℝ) : ℂ) := by
      rw [Ground.inner, dotProduct]
      push_cast
      refine Finset.sum_congr rfl fun x _ => ?_
      rw [Pi.star_apply, Complex.normSq_eq_conj_mul_self]; rfl
    rw [e] at h
    have h' : (∑ x : Fin m → Bool, Complex.normSq (stateOn m wf x)) = 1 := by exact_mod_cast h
    rw [List.map_map]
    have e2 : (∑ x : Fin m → Bool, Complex.normSq (stateOn m wf x)) = ∑ i : Fin (2 ^ m), Complex.normSq (wf.getD i 0) :=
      Fintype.sum_equiv (bitsEquiv m) _ _ fun x => rfl
    rw [e2] at h'
    rw [← h', ← List.sum_ofFn]
    congr 1
    apply List.ext_getElem
    · simp [hl]
    · intro i h1 h2
      simp at h1
      simp [Wavefunction.ampSq, h1]
  refine ⟨⟨(wf.map (Wavefunction.Amp.num : ℂ → Wavefunction.Amp Empty)).all Wavefunction.Amp.isNum, wf.map .num⟩, ?_, rfl⟩
  rw [Wavefunction.mk?, if_neg hcount]
  dsimp only
  rw [if_pos]
  exact Wavefunction.checkNorm_of_sum_one _ (Or.inr (by simp [Wavefunction.Amp.isNum])) hsum

/-- The step that finds ground states, on a file with a Hermitian qubit operator. -/
theorem ground_step {eigh eigsh : Mat ℂ → Eigen} (h1 : Solves eigh) (h2 : Solves eigsh) {fs : FS} {p : Str} {q : Terms Letter} (hq : loadQubitOp fs (.str p) = .ok q)
    (hc : CanonicalOp q) {m : ℕ} (hm : countQubit q = m) (hH : (matrixOf m (action pauliAction q)).IsHermitian) {k : ℕ} (hk : k ≤ m) :
    ∃ fs' e w ψ, groundStep eigh eigsh k (.file p) fs = .ok fs' ∧ loadValue fs' (.str "value-estimate.json".toList) = .ok ⟨e, none⟩ ∧
      loadWavefunction fs' (.str "ground-state.json".toList) = .ok w ∧ w.amps = ψ.map .num ∧ ψ.length = 2 ^ m ∧
      (∀ p, p ≠ "ground-state.json".toList → p ≠ "value-estimate.json".toList → fs' p = fs p) ∧
      GroundState (matrixOf m (action pauliAction q)) k e (stateOn m ψ) ∧
      (Conserves (matrixOf m (action pauliAction q)) → matrixOf m (action pauliAction q) *ᵥ stateOn m ψ = (e : ℂ) • stateOn m ψ) := by
  have hbelow : Below m q := fun kv hkv f hf => hm ▸ countQubit_bound hc kv hkv f hf
  obtain ⟨M, m1, m2, m3, m4⟩ := qubitOperatorSparse_spec hc none m hm (le_of_eq hm)
  rw [opMatrix_eq_matrixOf hc hbelow] at m4
  rw [← m4] at hH
  obtain ⟨e, wf, g1, g2, g3, g4⟩ := groundStateAt_spec h1 h2 hk m2 m3 hH
  rw [m4] at g3 g4
  obtain ⟨w, w1, w2⟩ := wavefunction_made g2 g3.unit
  obtain ⟨fs1, s1, s2, s3⟩ := save_spec fs "ground-state.json" (.wavefunction wf) (plain_wavefunction wf)
  obtain ⟨fs2, t1, t2, t3⟩ := save_spec fs1 "value-estimate.json" (.value ⟨e, none⟩) (plain_value _)
  have hne : ("ground-state.json".toList : Str) ≠ "value-estimate.json".toList := by decide
  have hh : Holds fs2 "ground-state.json".toList (.wavefunction wf) := by
    obtain ⟨j, j1, j2⟩ := s2
    exact ⟨j, j1, by rw [t3 _ hne]; exact j2⟩
  refine ⟨fs2, e, w, wf, ?_, load_value t2, load_wavefunction w1 hh rfl, w2, g2, fun p h1 h2 => by rw [t3 p h2, s3 p h1], g3, g4⟩
  show (loadQubitOp fs (.str p) >>= fun o => lift (qubitOperatorSparse o none) >>= fun M => lift (groundStateAt eigh eigsh M k) >>= fun ea =>
    makeWavefunction ⟨[ea.2.length], ea.2, true⟩ >>= fun _ => save fs "ground-state.json" (.wavefunction ea.2) >>= fun fs1 =>
    save fs1 "value-estimate.json" (.value ⟨ea.1, none⟩)) = _
  rw [hq]
  show (lift (qubitOperatorSparse q none) >>= fun M => lift (groundStateAt eigh eigsh M k) >>= fun ea =>
    makeWavefunction ⟨[ea.2.length], ea.2, true⟩ >>= fun _ => save fs "ground-state.json" (.wavefunction ea.2) >>= fun fs1 =>
    save fs1 "value-estimate.json" (.value ⟨ea.1, none⟩)) = _
  rw [m1]
  show (lift (groundStateAt eigh eigsh M k) >>= fun ea =>
    makeWavefunction ⟨[ea.2.length], ea.2, true⟩ >>= fun _ => save fs "ground-state.json" (.wavefunction ea.2) >>= fun fs1 =>
    save fs1 "value-estimate.json" (.value ⟨ea.1, none⟩)) = _
  rw [g1]
  show (makeWavefunction ⟨[wf.length], wf, true⟩ >>= fun _ => save fs "ground-state.json" (.wavefunction wf) >>= fun fs1 =>
    save fs1 "value-estimate.json" (.value ⟨e, none⟩)) = _
  rw [makeWavefunction, w1]
  show (save fs "ground-state.json" (.wavefunction wf) >>= fun fs1 => save fs1 "value-estimate.json" (.value ⟨e, none⟩)) = _
  rw [s1]
  exact t1

/-- **The ground state workflow**: transform a stored Hermitian interaction operator and diagonalise the result at `k` particles.  Let `m` be the number of modes
up to the last one that the operator involves.  If `k ≤ m`, the files hold the lowest energy of the operator among the states of the **first `m` modes** with `k`
particles and such a state, an eigenvector; if `k > m`, the second step raises an `IndexError`. -/
theorem workflow_ground {types : Terms Letter → Term Letter → Bool} (hT : Fit types) (w : ℝ) {eigh eigsh : Mat ℂ → Eigen} (h1 : Solves eigh) (h2 : Solves eigsh)
    (h0 : ∀ A : Mat ℂ, A.rows = 0 → (eigh A).vecs.cols = 0) {fs : FS} {p : Str} {n : ℕ} (hn : 0 < n) {c : ℂ} {one two : Tensor}
    (h : Stores fs p n c one two) (hc : c.im = 0) (hH : Hermitian n one two) {δ : ℝ} (hδ : 1 / 10 ^ 8 ≤ δ) (hg : EntriesOn n (16 * δ) c one two)
    {m : ℕ} (hm : Involved (polyAction (interaction n c one two)) m) (k : ℕ) :
    ∃ fs1, transformStep types w "Jordan-Wigner" (.file p) fs = .ok fs1 ∧
      (k ≤ m → ∃ fs2 e wf ψ, groundStep eigh eigsh k (.file "transformed-operator.json".toList) fs1 = .ok fs2 ∧
        loadValue fs2 (.str "value-estimate.json".toList) = .ok ⟨e, none⟩ ∧ loadWavefunction fs2 (.str "ground-state.json".toList) = .ok wf ∧ wf.amps = ψ.map .num ∧
        ψ.length = 2 ^ m ∧ GroundState (matrixOf m (polyAction (interaction n c one two))) k e (stateOn m ψ) ∧
        matrixOf m (polyAction (interaction n c one two)) *ᵥ stateOn m ψ = (e : ℂ) • stateOn m ψ) ∧
      (m < k → groundStep eigh eigsh k (.file "transformed-operator.json".toList) fs1 = .error (.py .indexError)) := by
  obtain ⟨fs1, q, t1, t2, -, -, t5, t6, t7⟩ := transform_jw hT w hn h hH hδ hg
  have hnz : ∀ kv ∈ q, kv.2 ≠ 0 := fun kv hkv e => by
    have := t6 kv hkv
    rw [e, norm_zero] at this
    norm_num at this
  have hcount : countQubit q = m := countQubit_involved t5 hnz (by rw [t7]; exact hm)
  refine ⟨fs1, t1, fun hk => ?_, fun hk => ?_⟩
  · obtain ⟨fs2, e, wf, ψ, g1, g2, g3, g4, g5, -, g6, g7⟩ := ground_step h1 h2 t2 t5 hcount (by rw [t7]; exact matrixOf_hermitian (interaction_adjoint hc hH) m) hk
    rw [t7] at g6 g7
    exact ⟨fs2, e, wf, ψ, g1, g2, g3, g4, g5, g6, g7 (interaction_conserves m n c one two)⟩
  · obtain ⟨M, m1, m2, m3, -⟩ := qubitOperatorSparse_spec t5 none m hcount (le_of_eq hcount)
    show (loadQubitOp fs1 (.str "transformed-operator.json".toList) >>= fun o => lift (qubitOperatorSparse o none) >>= fun M => lift (groundStateAt eigh eigsh M k) >>= fun ea =>
      makeWavefunction ⟨[ea.2.length], ea.2, true⟩ >>= fun _ => save fs1 "ground-state.json" (.wavefunction ea.2) >>= fun fs1 =>
      save fs1 "value-estimate.json" (.value ⟨ea.1, none⟩)) = _
    rw [t2]
    show (lift (qubitOperatorSparse q none) >>= _) = _
    rw [m1]
    show (lift (groundStateAt eigh eigsh M k) >>= _) = _
    rw [groundStateAt_none h0 eigsh hk m2 m3]
    rfl

/-- **The ground state energy in a file**, if the operator involves its last orbital: the files hold the lowest energy of the stored operator among the states with
`k` particles, and such a state.  Missing: operators that do not involve the last orbitals (`workflow_counterexample`). -/
theorem workflow_energy_partial {types : Terms Letter → Term Letter → Bool} (hT : Fit types) (w : ℝ) {eigh eigsh : Mat ℂ → Eigen} (h1 : Solves eigh) (h2 : Solves eigsh)
    (h0 : ∀ A : Mat ℂ, A.rows = 0 → (eigh A).vecs.cols = 0) {fs : FS} {p : Str} {n : ℕ} (hn : 0 < n) {c : ℂ} {one two : Tensor}
    (h : Stores fs p n c one two) (hc : c.im = 0) (hH : Hermitian n one two) {δ : ℝ} (hδ : 1 / 10 ^ 8 ≤ δ) (hg : EntriesOn n (16 * δ) c one two)
    (hl : ¬ Idle (polyAction (interaction n c one two)) (n - 1)) {k : ℕ} (hk : k ≤ n) :
    ∃ fs1 fs2 e wf ψ, transformStep types w "Jordan-Wigner" (.file p) fs = .ok fs1 ∧
      groundStep eigh eigsh k (.file "transformed-operator.json".toList) fs1 = .ok fs2 ∧
      loadValue fs2 (.str "value-estimate.json".toList) = .ok ⟨e, none⟩ ∧ loadWavefunction fs2 (.str "ground-state.json".toList) = .ok wf ∧ wf.amps = ψ.map .num ∧
      GroundState (matrixOf n (polyAction (interaction n c one two))) k e (stateOn n ψ) ∧
      matrixOf n (polyAction (interaction n c one two)) *ᵥ stateOn n ψ = (e : ℂ) • stateOn n ψ := by
  have hm : Involved (polyAction (interaction n c one two)) n := by
    refine ⟨fun j hj => ?_, fun j hj => by obtain rfl : j = n - 1 := by omega
                                           exact hl⟩
    obtain ⟨E, -, e2, e3⟩ := mem_dictSpan.1 (interaction_strings n c one two)
    rw [← e3]
    refine idle_of_strings fun kv hkv f hf => ?_
    have := (e2 kv.1 (List.mem_map_of_mem hkv)).2.2 f hf
    omega
  obtain ⟨fs1, t1, t2, -⟩ := workflow_ground hT w h1 h2 h0 hn h hc hH hδ hg hm k
  obtain ⟨fs2, e, wf, ψ, g1, g2, g3, g4, -, g6, g7⟩ := t2 hk
  exact ⟨fs1, fs2, e, wf, ψ, t1, g1, g2, g3, g4, g6, g7⟩

/-! ## Reduced density matrices -/

theorem represents_arrays {m : ℕ} (hm : 0 < m) {D1 D2 : Tensor} {φ : Expect} (h : Represents (make m D1 D2) φ) :
    Represents (ofRdmArrays (back (arrayFrom m 2 D1 true), back (arrayFrom m 4 D2 true))) φ := by
  obtain ⟨⟨o1, a1, a2⟩, o2, b1, b2⟩ := h
  obtain rfl : D1 = o1 := by
    have : PyDict.get? (make m D1 D2).tensors [true, false] = some D1 := rfl
    rw [this] at a1; exact Option.some.inj a1
  obtain rfl : D2 = o2 := by
    have : PyDict.get? (make m D1 D2).tensors [true, true, false, false] = some D2 := rfl
    rw [this] at b1; exact Option.some.inj b1
  have hs : (back (arrayFrom m 2 D1 true)).shape.headD 0 = m := rfl
  refine ⟨⟨entries m (arrayFrom m 2 D1 true), rfl, fun p hp q hq => ?_⟩, entries m (arrayFrom m 4 D2 true), rfl, fun p hp q hq r hr s hs => ?_⟩
  · exact (entries_arrayFrom (n := m) D1 true (inRange_two hp hq)).trans (a2 p hp q hq)
  · exact (entries_arrayFrom (n := m) D2 true (inRange_four hp hq hr hs)).trans (b2 p hp q hq r hr s hs)

/-- The step that writes the reduced density matrices of a ground state. -/
theorem rdm_step {eigh eigsh : Mat ℂ → Eigen} (h1 : Solves eigh) (h2 : Solves eigsh) {fs : FS} {p : Str} {q : Terms Letter} (hq : loadQubitOp fs (.str p) = .ok q)
    (hc : CanonicalOp q) {m : ℕ} (hm : countQubit q = m) (hpos : 0 < m) (hH : (matrixOf m (action pauliAction q)).IsHermitian) {k : ℕ} (hk : k ≤ m) :
    ∃ fs' a e ψ, rdmStep eigh eigsh k p fs = .ok fs' ∧ loadRdm fs' (.str "rdms.json".toList) = .ok a ∧ (∀ p, p ≠ "rdms.json".toList → fs' p = fs p) ∧
      GroundState (matrixOf m (action pauliAction q)) k e ψ ∧ (ofRdmArrays a).n = m ∧ Represents (ofRdmArrays a) (stateExpect m ψ) := by
  subst hm
  have hbelow : Below (countQubit q) q := countQubit_bound hc
  rw [← opMatrix_eq_matrixOf hc hbelow] at hH ⊢
  obtain ⟨D1, D2, e, ψ, g1, g2, g3⟩ := groundStateRdm_spec h1 h2 hc hk hH
  obtain ⟨fs1, s1, s2, s3⟩ := save_spec fs "rdms.json" (rdmArtefact (make (countQubit q) D1 D2)) (plain_rdm _ _)
  refine ⟨fs1, _, e, ψ, ?_, load_rdm (arrayFrom_fine hpos D1) (arrayFrom_fine hpos D2) s2, s3, g2, rfl, represents_arrays hpos g3⟩
  show (loadQubitOp fs (.str p) >>= fun o => lift (groundStateRdm eigh eigsh o k) >>= fun R => save fs "rdms.json" (rdmArtefact R)) = _
  rw [hq]
  show (lift (groundStateRdm eigh eigsh q k) >>= fun R => save fs "rdms.json" (rdmArtefact R)) = _
  rw [g1]
  exact s1

/-! ## Grouping, expectation values and their sum -/

theorem group_step {types : Terms Letter → Term Letter → Bool} (hT : Fit types) {fs : FS} {p : Str} {q : Terms Letter} (hq : loadQubitOp fs (.str p) = .ok q)
    (hc : CanonicalOp q) (hb : ∀ kv ∈ q, 1 / 10 ^ 8 ≤ ‖kv.2‖) (sort : Bool) :
    ∃ fs', groupStep types (.file p) sort fs = .ok fs' ∧ loadQubitOps fs' (.str "grouped-operator.json".toList) = .ok (groupGreedy q sort) ∧
      (∀ p, p ≠ "grouped-operator.json".toList → fs' p = fs p) ∧ ∀ g ∈ groupGreedy q sort, CanonicalOp g ∧ ∀ kv ∈ g, kv ∈ q := by
  have hp := groupGreedy_partition hc sort hb
  have hg : ∀ g ∈ groupGreedy q sort, CanonicalOp g ∧ ∀ kv ∈ g, kv ∈ q := by
    intro g hg
    have hs : g.Sublist (groupGreedy q sort).flatten := List.sublist_flatten_of_mem hg
    have hm : ∀ kv ∈ g, kv ∈ q := fun kv hkv => hp.mem_iff.1 (hs.subset hkv)
    refine ⟨⟨List.Nodup.sublist (hs.map Prod.fst) ((hp.map Prod.fst).nodup_iff.2 hc.1), fun t ht => ?_⟩, hm⟩
    obtain ⟨kv, hkv, rfl⟩ := List.mem_map.1 ht
    exact hc.2 _ (List.mem_map_of_mem (hm kv hkv))
  obtain ⟨fs1, s1, s2, s3⟩ := save_spec fs "grouped-operator.json" (.qubitOps ((groupGreedy q sort).map fun g => (types g, g))) (plain_qubitOps _)
  refine ⟨fs1, ?_, ?_, s3, hg⟩
  · show (loadQubitOp fs (.str p) >>= fun o => save fs "grouped-operator.json" (.qubitOps ((groupGreedy o sort).map fun g => (types g, g)))) = _
    rw [hq]; exact s1
  · rw [load_qubitOps (fun x hx => ?_) (fun x hx => ?_) s2, List.map_map]
    · congr 1
      rw [List.map_congr_left (g := id) fun g hg' => ?_, List.map_id]
      exact OpSerde.kept_eq fun kv hkv => hb kv ((hg g hg').2 kv hkv)
    · obtain ⟨g, hg', rfl⟩ := List.mem_map.1 hx
      exact (hg g hg').1
    · obtain ⟨g, hg', rfl⟩ := List.mem_map.1 hx
      exact fun kv hkv => hT g kv hkv

theorem rdm_list_step {fs : FS} {rp op : Str} {a : NDArray × NDArray} (ha : loadRdm fs (.str rp) = .ok a) {gs : List (Terms Letter)} (hgs : loadQubitOps fs (.str op) = .ok gs)
    {φ : Expect} (hR : Represents (ofRdmArrays a) φ) (h1 : φ 1 = 1) (hφ : Conserving φ) (hreal : Physical φ)
    (hg : ∀ g ∈ gs, CanonicalOp g ∧ ∀ kv ∈ g, (∀ f ∈ kv.1, f.1 < (ofRdmArrays a).n) ∧ 1 / 10 ^ 8 ≤ ‖kv.2‖ ∧ TwoBody (termAction pauliAction kv.1)) :
    ∃ fs', rdmListStep rp op false fs = .ok fs' ∧ (∀ p, p ≠ "expectation_values.json".toList → fs' p = fs p) ∧
      ∃ e, loadExpectation fs' (.str "expectation_values.json".toList) = .ok e ∧ e.values.data = gs.flatten.map fun kv => φ (termAction pauliAction kv.1) := by
  have hv : expectationValuesList (ofRdmArrays a) gs false = .ok (gs.map fun g => g.map fun kv => (φ (termAction pauliAction kv.1)).re).flatten := by
    refine expectation_list _ _ _ _ ?_
    rw [List.forall₂_map_right_iff, List.forall₂_same]
    intro g hgm
    obtain ⟨c1, c2⟩ := hg g hgm
    obtain ⟨v1, -, v3, -⟩ := expectation_values_partial hR h1 hφ hreal c1 (fun t ht => by
        obtain ⟨kv, hkv, rfl⟩ := List.mem_map.1 ht
        exact (c2 kv hkv).1) (fun kv hkv => not_lt.2 (c2 kv hkv).2.1) (fun t ht => by
        obtain ⟨kv, hkv, rfl⟩ := List.mem_map.1 ht
        exact (c2 kv hkv).2.2) false
    rw [v1, v3 rfl]
  set vs := (gs.map fun g => g.map fun kv => (φ (termAction pauliAction kv.1)).re).flatten with hvs
  obtain ⟨fs1, s1, s2, s3⟩ := save_spec fs "expectation_values.json" (.expectation ⟨realArray vs, none, none⟩) (plain_expectation _)
  have hf : Fine (realArray vs) := ⟨⟨by simp [realArray], fun _ z hz => by
    obtain ⟨v, _, rfl⟩ : ∃ v ∈ vs, (v : ℂ) = z := List.mem_map.1 hz
    exact Complex.ofReal_im v⟩, by simp [realArray, ListShape]⟩
  refine ⟨fs1, ?_, s3, _, load_expectation hf (by simp) (by simp) s2 rfl, ?_⟩
  · show (loadQubitOps fs (.str op) >>= fun os => loadRdm fs (.str rp) >>= fun a => lift (expectationValuesList (ofRdmArrays a) os false) >>= fun vs =>
      save fs "expectation_values.json" (.expectation ⟨realArray vs, none, none⟩)) = _
    rw [hgs]
    show (loadRdm fs (.str rp) >>= fun a => lift (expectationValuesList (ofRdmArrays a) gs false) >>= fun vs =>
      save fs "expectation_values.json" (.expectation ⟨realArray vs, none, none⟩)) = _
    rw [ha]
    show (lift (expectationValuesList (ofRdmArrays a) gs false) >>= fun vs => save fs "expectation_values.json" (.expectation ⟨realArray vs, none, none⟩)) = _
    rw [hv]
    exact s1
  · show vs.map (fun v : ℝ => (v : ℂ)) = _
    rw [hvs, List.map_flatten, List.map_map, List.map_flatten]
    congr 1
    refine List.map_congr_left fun g hgm => ?_
    show List.map _ (List.map _ g) = _
    rw [List.map_map]
    refine List.map_congr_left fun kv hkv => ?_
    have hct := (hg g hgm).1.2 kv.1 (List.mem_map_of_mem hkv)
    exact Complex.ext rfl (hreal kv.1 hct).1.symm

theorem evaluate_list_step {fs : FS} {op ep : Str} {gs : List (Terms Letter)} (hgs : loadQubitOps fs (.str op) = .ok gs) {e : ExpectationValues}
    (he : loadExpectation fs (.str ep) = .ok e) (φ : Expect) (hv : e.values.data = gs.flatten.map fun kv => φ (termAction pauliAction kv.1)) :
    ∃ fs', evaluateListStep op ep fs = .ok fs' ∧ loadValue fs' (.str "value-estimate.json".toList) = .ok ⟨(φ (action pauliAction gs.flatten)).re, none⟩ := by
  have hev : Evaluate.evaluateQubitOperatorList gs e.values.data = .ok (φ (action pauliAction gs.flatten)).re := by
    rw [hv, ← Evaluate.evaluateQubitOperator_expectation gs.flatten φ]
    rw [(Evaluate.evaluateQubitOperatorList_spec gs _).1 (by rw [List.length_map]), (Evaluate.evaluateQubitOperator_spec _ _).1 (by rw [List.length_map])]
  obtain ⟨fs1, s1, s2, -⟩ := save_spec fs "value-estimate.json" (.value ⟨(φ (action pauliAction gs.flatten)).re, none⟩) (plain_value _)
  refine ⟨fs1, ?_, load_value s2⟩
  show (loadQubitOps fs (.str op) >>= fun os => loadExpectation fs (.str ep) >>= fun e => lift (Evaluate.evaluateQubitOperatorList os e.values.data) >>= fun v =>
    save fs "value-estimate.json" (.value ⟨v, none⟩)) = _
  rw [hgs]
  show (loadExpectation fs (.str ep) >>= fun e => lift (Evaluate.evaluateQubitOperatorList gs e.values.data) >>= fun v => save fs "value-estimate.json" (.value ⟨v, none⟩)) = _
  rw [he]
  show (lift (Evaluate.evaluateQubitOperatorList gs e.values.data) >>= fun v => save fs "value-estimate.json" (.value ⟨v, none⟩)) = _
  rw [hev]
  exact s1

theorem loadRdm_congr {fs fs' : FS} {p : Str} (h : fs' p = fs p) : loadRdm fs' (.str p) = loadRdm fs (.str p) := by simp only [loadRdm, readStr, readFile, h]
theorem loadQubitOp_congr {fs fs' : FS} {p : Str} (h : fs' p = fs p) : loadQubitOp fs' (.str p) = loadQubitOp fs (.str p) := by simp only [loadQubitOp, readStr, readFile, h]
theorem loadQubitOps_congr {fs fs' : FS} {p : Str} (h : fs' p = fs p) : loadQubitOps fs' (.str p) = loadQubitOps fs (.str p) := by simp only [loadQubitOps, readStr, readFile, h]

/-- **The whole workflow**: transform a stored Hermitian operator, write the reduced density matrices of its ground state at `k` particles, group the terms of the
transformed operator, write the expectation values of the terms of the groups from the density matrices, and sum them up.  The density matrices are those of a
state of lowest energy, and the value in the end is the lowest energy, both among the states of the first `m` modes with `k` particles, whatever the grouping. -/
theorem workflow_terms {types : Terms Letter → Term Letter → Bool} (hT : Fit types) (w : ℝ) {eigh eigsh : Mat ℂ → Eigen} (h1 : Solves eigh) (h2 : Solves eigsh)
    {fs : FS} {p : Str} {n : ℕ} (hn : 0 < n) {c : ℂ} {one two : Tensor}
    (h : Stores fs p n c one two) (hc : c.im = 0) (hH : Hermitian n one two) {δ : ℝ} (hδ : 1 / 10 ^ 8 ≤ δ) (hg : EntriesOn n (16 * δ) c one two)
    {m : ℕ} (hm : Involved (polyAction (interaction n c one two)) m) (hpos : 0 < m) {k : ℕ} (hk : k ≤ m) (sort : Bool) :
    ∃ fs1 fs2 fs3 fs4 fs5 a e ψ, transformStep types w "Jordan-Wigner" (.file p) fs = .ok fs1 ∧
      rdmStep eigh eigsh k "transformed-operator.json".toList fs1 = .ok fs2 ∧
      groupStep types (.file "transformed-operator.json".toList) sort fs2 = .ok fs3 ∧
      rdmListStep "rdms.json".toList "grouped-operator.json".toList false fs3 = .ok fs4 ∧
      evaluateListStep "grouped-operator.json".toList "expectation_values.json".toList fs4 = .ok fs5 ∧
      GroundState (matrixOf m (polyAction (interaction n c one two))) k e ψ ∧
      loadRdm fs2 (.str "rdms.json".toList) = .ok a ∧ (ofRdmArrays a).n = m ∧ Represents (ofRdmArrays a) (stateExpect m ψ) ∧
      loadValue fs5 (.str "value-estimate.json".toList) = .ok ⟨e, none⟩ := by
  obtain ⟨fs1, q, t1, t2, -, -, t5, t6, t7⟩ := transform_jw hT w hn h hH hδ hg
  have hnz : ∀ kv ∈ q, kv.2 ≠ 0 := fun kv hkv e => by
    have := t6 kv hkv
    rw [e, norm_zero] at this
    norm_num at this
  have hcount : countQubit q = m := countQubit_involved t5 hnz (by rw [t7]; exact hm)
  obtain ⟨fs2, a, e, ψ, r1, r2, r3, r4, r5, r6⟩ := rdm_step h1 h2 t2 t5 hcount hpos (by rw [t7]; exact matrixOf_hermitian (interaction_adjoint hc hH) m) hk
  obtain ⟨fs3, g1, g2, g3, g4⟩ := group_step (fs := fs2) (p := "transformed-operator.json".toList) hT (by rw [loadQubitOp_congr (r3 _ (by decide))]; exact t2) t5 t6 sort
  obtain ⟨fs4, l1, l2, ev, l3, l4⟩ := rdm_list_step (fs := fs3) (rp := "rdms.json".toList) (by rw [loadRdm_congr (g3 _ (by decide))]; exact r2) g2 r6
    (stateExpect_one r4.unit) (state_conserving r4.particles) (state_physical r4.unit) (fun g hgm => by
      refine ⟨(g4 g hgm).1, fun kv hkv => ?_⟩
      have hkq := (g4 g hgm).2 kv hkv
      have hco : coeff q kv.1 ≠ 0 := by
        rw [coeff_of_mem t5.1 hkq]
        exact hnz kv hkq
      obtain ⟨-, s2, -⟩ := string_of_interaction t5 t7 hco
      refine ⟨fun f hf => ?_, t6 kv hkq, s2⟩
      rw [r5, ← hcount]
      exact countQubit_bound t5 kv hkq f hf)
  obtain ⟨fs5, v1, v2⟩ := evaluate_list_step (fs := fs4) (op := "grouped-operator.json".toList) (by rw [loadQubitOps_congr (l2 _ (by decide))]; exact g2) l3 _ l4
  rw [t7] at r4
  refine ⟨fs1, fs2, fs3, fs4, fs5, a, e, ψ, t1, r1, g1, l1, v1, r4, r2, r5, r6, ?_⟩
  rw [v2, action_perm pauliAction (groupGreedy_partition t5 sort t6), t7]
  congr 3
  show (Ground.inner ψ (matrixOf m (polyAction (interaction n c one two)) *ᵥ ψ)).re = e
  rw [r4.energy, Complex.ofReal_re]

/-! ## Operators that do not involve their last orbitals -/

/-- The operator that counts the particles in the first of two orbitals. -/
def firstOne : Tensor := fun idx => if idx = [0, 0] then 1 else 0

theorem firstOne_action : polyAction (interaction 2 0 firstOne fun _ => 0) = hop 0 0 := by
  rw [polyAction_interaction]
  simp [List.range_succ, firstOne]

theorem hop_strings : hop 0 0 = action pauliAction [([], 1 / 2), ([(0, .Z)], -1 / 2)] := by
  rw [action_cons, action_cons, action_nil, termAction_cons, termAction_nil, mul_one, z_eq]
  module

theorem firstOne_involved : Involved (polyAction (interaction 2 0 firstOne fun _ => 0)) 1 := by
  rw [firstOne_action, hop_strings]
  refine ⟨fun j hj => idle_of_strings fun kv hkv f hf => ?_, fun j hj hI => ?_⟩
  · simp only [List.mem_cons, List.not_mem_nil, or_false] at hkv
    rcases hkv with rfl | rfl
    · simp at hf
    · simp only [List.mem_cons, List.not_mem_nil, or_false] at hf
      rw [hf]; show j ≠ 0; omega
  · obtain rfl : j = 0 := by omega
    have hc : CanonicalOp [(([] : Term Letter), (1 / 2 : ℂ)), ([(0, .Z)], -1 / 2)] := by
      refine ⟨by simp [WF, PyDict.keys], fun t ht => ?_⟩
      simp only [PyDict.keys, List.map_cons, List.map_nil, List.mem_cons, List.not_mem_nil, or_false] at ht
      rcases ht with rfl | rfl
      · exact ⟨by simp, by simp⟩
      · exact ⟨by simp, by simp⟩
    have := strings_of_idle hc hI (t := [(0, .Z)]) (by rw [coeff_of_mem hc.1 (c := -1 / 2) (by simp)]; norm_num)
    exact this (0, .Z) (by simp) rfl

theorem hop_matrix {m : ℕ} (hm : 0 < m) (ψ : (Fin m → Bool) → ℂ) : matrixOf m (hop 0 0) *ᵥ ψ = fun x => if x ⟨0, hm⟩ then ψ x else 0 := by
  funext x
  have hpad : ∀ y : Fin m → Bool, pad x = pad y ↔ x = y := fun y => ⟨fun h => funext fun q => by
    have := congrFun h q
    rwa [pad, pad, dif_pos q.2, dif_pos q.2] at this, fun h => by rw [h]⟩
  have e : ∀ y, matrixOf m (hop 0 0) x y = if x ⟨0, hm⟩ = true ∧ x = y then 1 else 0 := by
    intro y
    rw [matrixOf, hop_diag]
    have : pad x 0 = x ⟨0, hm⟩ := by rw [pad, dif_pos hm]
    rw [this]
    by_cases h1 : x ⟨0, hm⟩ = true
    · rw [if_pos h1, basisState]
      by_cases h2 : x = y
      · rw [if_pos (by rw [h2]), if_pos ⟨h1, h2⟩]
      · rw [if_neg fun h => h2 ((hpad y).1 h), if_neg fun h => h2 h.2]
    · rw [if_neg h1, if_neg fun h => h1 h.1]
  rw [Matrix.mulVec, dotProduct]
  simp only [e]
  by_cases h1 : x ⟨0, hm⟩ = true
  · simp [h1]
  · simp [h1]

theorem firstOne_hermitian : Hermitian 2 firstOne fun _ => 0 := by
  refine ⟨fun p _ q _ => ?_, fun _ _ _ _ _ _ _ _ => (map_zero _).symm⟩
  by_cases h : p = 0 <;> by_cases h' : q = 0 <;> simp [firstOne, h, h']

theorem firstOne_entries : EntriesOn 2 (16 * (1 / 16)) 0 firstOne fun _ => 0 := by
  refine ⟨(Grid _).zero_mem, fun p _ q _ => ?_, fun _ _ _ _ _ _ _ _ => (Grid _).zero_mem⟩
  rw [firstOne]
  split_ifs
  · exact ⟨1, 0, by norm_num⟩
  · exact (Grid _).zero_mem

/-- A file with a given operator exists. -/
theorem stores_exists (fs : FS) (name : String) (n : ℕ) (hn : 0 < n) (c : ℂ) (one two : Tensor) : ∃ fs', Stores fs' name.toList n c one two := by
  have hp : Plain (record (.interaction ⟨c, true, arrayFrom n 2 one true, arrayFrom n 4 two true⟩)) := plain_dict (by
    simp only [List.mem_cons, List.not_mem_nil, or_false, forall_eq_or_imp, forall_eq]
    exact ⟨plain_txt _, plain_array _, plain_array _, plain_array _⟩)
  obtain ⟨fs1, -, s2, -⟩ := save_spec fs name _ hp
  exact ⟨fs1, _, s2, (arrayFrom_fine hn one).1, rfl, (arrayFrom_fine hn two).1, rfl, fun h => (nomatch h), rfl, fun i hi => entries_arrayFrom one true hi,
    fun i hi => entries_arrayFrom two true hi⟩

/-- **The ground state is looked for in the wrong space**: for the operator that counts the particles in the first of two orbitals (stored with two orbitals), the
value for one particle is 1, although a state with one particle has energy 0; for two particles there is an `IndexError`, although there is a state with two particles. -/
theorem workflow_energy_counterexample {types : Terms Letter → Term Letter → Bool} (hT : Fit types) (w : ℝ) {eigh eigsh : Mat ℂ → Eigen} (h1 : Solves eigh) (h2 : Solves eigsh)
    (h0 : ∀ A : Mat ℂ, A.rows = 0 → (eigh A).vecs.cols = 0) {fs : FS} {p : Str} (h : Stores fs p 2 0 firstOne fun _ => 0) :
    ∃ fs1, transformStep types w "Jordan-Wigner" (.file p) fs = .ok fs1 ∧
      (∃ fs2, groundStep eigh eigsh 1 (.file "transformed-operator.json".toList) fs1 = .ok fs2 ∧ loadValue fs2 (.str "value-estimate.json".toList) = .ok ⟨1, none⟩) ∧
      (∃ φ, HasParticles 1 φ ∧ Ground.inner φ φ = 1 ∧ Ground.inner φ (matrixOf 2 (polyAction (interaction 2 0 firstOne fun _ => 0)) *ᵥ φ) = 0) ∧
      groundStep eigh eigsh 2 (.file "transformed-operator.json".toList) fs1 = .error (.py .indexError) ∧
      ∃ φ : (Fin 2 → Bool) → ℂ, HasParticles 2 φ ∧ Ground.inner φ φ = 1 := by
  obtain ⟨fs1, t1, t2, -⟩ := workflow_ground hT w h1 h2 h0 (by norm_num) h rfl firstOne_hermitian (by norm_num) firstOne_entries firstOne_involved 1
  obtain ⟨fs1', t1', -, t3⟩ := workflow_ground hT w h1 h2 h0 (by norm_num) h rfl firstOne_hermitian (by norm_num) firstOne_entries firstOne_involved 2
  obtain rfl : fs1 = fs1' := by rw [t1] at t1'; exact Except.ok.inj t1'
  obtain ⟨fs2, e, wf, ψ, g1, g2, -, -, -, g6, -⟩ := t2 le_rfl
  have he : e = 1 := by
    have h3 := g6.energy
    rw [firstOne_action, hop_matrix (by norm_num)] at h3
    have h4 : (fun x : Fin 1 → Bool => if x ⟨0, by norm_num⟩ then stateOn 1 ψ x else 0) = stateOn 1 ψ := by
      funext x
      by_cases hx : stateOn 1 ψ x = 0
      · rw [hx, ite_self]
      · have := g6.particles x hx
        rw [if_pos]
        by_contra hf
        have h5 : x = fun _ => false := funext fun q => by
          obtain rfl : q = ⟨0, by norm_num⟩ := Subsingleton.elim _ _
          simpa using hf
        rw [h5, occupied] at this
        simp at this
    rw [h4, g6.unit] at h3
    exact_mod_cast h3.symm
  subst he
  refine ⟨fs1, t1, ⟨fs2, g1, g2⟩, ⟨fun x => if x = ![false, true] then 1 else 0, fun x hx => ?_, ?_, ?_⟩, t3 (by norm_num),
    fun x => if x = ![true, true] then 1 else 0, fun x hx => ?_, ?_⟩
  · have : x = ![false, true] := by by_contra hc; exact hx (if_neg hc)
    rw [this]; decide
  · simp [Ground.inner, dotProduct]
  · rw [firstOne_action, hop_matrix (by norm_num), Ground.inner, dotProduct]
    refine Finset.sum_eq_zero fun x _ => ?_
    by_cases hx : x = ![false, true]
    · rw [hx]; simp
    · simp [hx]
  · have : x = ![true, true] := by by_contra hc; exact hx (if_neg hc)
    rw [this]; decide
  · simp [Ground.inner, dotProduct]

/-- The hypotheses can be met. -/
example : ∃ (types : Terms Letter → Term Letter → Bool) (eigh eigsh : Mat ℂ → Eigen) (fs : FS), Fit types ∧ Solves eigh ∧ Solves eigsh ∧
    (∀ A : Mat ℂ, A.rows = 0 → (eigh A).vecs.cols = 0) ∧ Stores fs "h.json".toList 2 0 firstOne (fun _ => 0) ∧ Hermitian 2 firstOne (fun _ => 0) ∧
    EntriesOn 2 (16 * (1 / 16)) 0 firstOne (fun _ => 0) ∧ Involved (polyAction (interaction 2 0 firstOne fun _ => 0)) 1 := by
  obtain ⟨S, s1, s2⟩ := exists_solver
  obtain ⟨fs, hfs⟩ := stores_exists (fun _ => none) "h.json" 2 (by norm_num) 0 firstOne fun _ => 0
  exact ⟨fun _ _ => true, S, S, fs, fun _ _ _ h => (nomatch h), s1, s1, s2, hfs, firstOne_hermitian, firstOne_entries, firstOne_involved⟩

/-- The operator with one orbital more at the end that is occupied involves its last orbital. -/
example : ¬ Idle (polyAction (interaction 1 0 firstOne fun _ => 0)) (1 - 1) := by
  have e : polyAction (interaction 1 0 firstOne fun _ => 0) = polyAction (interaction 2 0 firstOne fun _ => 0) := by
    rw [firstOne_action, polyAction_interaction]; simp [List.range_succ, firstOne]
  rw [e]; exact firstOne_involved.2 0 rfl

/-! ## Other transformations -/

/-- Other names are refused. -/
theorem transform_unknown (types : Terms Letter → Term Letter → Bool) (w : ℝ) {name : String} (h1 : name ≠ "Jordan-Wigner") (h2 : name ≠ "Bravyi-Kitaev")
    {fs : FS} {p : Str} {n : ℕ} (hn : 0 < n) {c : ℂ} {one two : Tensor} (h : Stores fs p n c one two) :
    transformStep types w name (.file p) fs = .error (.py .runtimeError) := by
  obtain ⟨one', two', hl, -, -⟩ := stores_load hn h
  show (theInteraction fs (.file p) >>= fun x => lift (transformed name x) >>= fun q =>
    save fs "transformed-operator.json" (.qubitOp (types q) q) >>= fun fs1 => save fs1 "timing.json" (.timing w)) = _
  rw [hl]
  show (lift (transformed name (.interaction n c one' two')) >>= _) = _
  rw [transformed, if_neg h1, if_neg h2]
  rfl

/-- The coefficients of a Bravyi-Kitaev transform are on the grid. -/
theorem bravyiKitaev_onGrid {f : Terms Bool} {δ : ℝ} (hδ : 1 / 10 ^ 8 ≤ δ) (hg : ∀ kv ∈ f, kv.2 ∈ Grid (2 ^ kv.1.length * δ)) {q : Terms Letter} (h : bravyiKitaev f none = .ok q) :
    OnGrid δ q := by
  have spec := fun kv (hkv : kv ∈ f) => bkTerm_spec (countFermion f) kv.1 kv.2 (countFermion_bound f kv hkv)
  have := (foldl_add_onGrid hδ f (fun kv => bkTerm (countFermion f) kv.1 kv.2) [] wf_nil (OnGrid.nil δ)
    (fun kv hkv => ⟨(spec kv hkv).1.1, (spec kv hkv).2.2 δ (hg kv hkv)⟩)).2.1
  rw [bravyiKitaev, if_neg (by simp)] at h
  cases h
  exact this

/-- **Bravyi-Kitaev**: the qubit operator in the file, with bit strings read as encoded occupations, acts as the stored operator, which need not be Hermitian. -/
theorem transform_bk {types : Terms Letter → Term Letter → Bool} (hT : Fit types) (w : ℝ) {fs : FS} {p : Str} {n : ℕ} (hn : 0 < n) {c : ℂ} {one two : Tensor}
    (h : Stores fs p n c one two) {δ : ℝ} (hδ : 1 / 10 ^ 8 ≤ δ) (hg : EntriesOn n (16 * δ) c one two) :
    ∃ fs' q N, transformStep types w "Bravyi-Kitaev" (.file p) fs = .ok fs' ∧ loadQubitOp fs' (.str "transformed-operator.json".toList) = .ok q ∧
      Holds fs' "timing.json".toList (.timing w) ∧ CanonicalOp q ∧ N ≤ n ∧
      decodeState N * action pauliAction q = polyAction (interaction n c one two) * decodeState N := by
  obtain ⟨one', two', hl, e1, e2⟩ := stores_load hn h
  have hg' : EntriesOn n (16 * δ) c one' two' := ⟨hg.1, fun p hp q hq => by
      rw [e1 _ (inRange_two hp hq)]; exact hg.2.1 p hp q hq, fun p hp q hq r hr s hs => by
      rw [e2 _ (inRange_four hp hq hr hs)]; exact hg.2.2 p hp q hq r hr s hs⟩
  have hv : Valid (interaction n c one' two') := by simp [Valid, interaction, PyDict.keys]
  obtain ⟨f, f1, f2, f3, f4, f5⟩ := toFermion_spec hv
  have hδ0 : (0 : ℝ) < δ := lt_of_lt_of_le (by norm_num) hδ
  have hb : ∀ kv ∈ f, ∀ x ∈ kv.1, x.1 < n := by
    rw [toFermion_eq hv] at f1
    cases f1
    intro kv hkv
    obtain ⟨t, ht, rfl⟩ := List.mem_map.1 (List.mem_filter.1 hkv).1
    rcases mem_iter.1 ht with ⟨rfl, _⟩ | ⟨_, k, _⟩
    · simp
    · exact k
  have hgr : ∀ kv ∈ f, kv.2 ∈ Grid (2 ^ kv.1.length * δ) := by
    intro kv hkv
    have e := f3 kv.1 (hb kv hkv)
    rw [coeff_of_mem f2 hkv] at e
    rw [e]
    split_ifs with hs
    · exact (Grid _).zero_mem
    · rcases eq_or_ne (termValue (interaction n c one' two') kv.1) 0 with h0 | h0
      · rw [h0]; exact (Grid _).zero_mem
      · obtain ⟨k, hk⟩ := Nat.exists_eq_add_of_le ((termValue_grid hg' (hb kv hkv)).2 h0)
        refine Grid.sub_int ((2 : ℤ) ^ k) ?_
        have := (termValue_grid hg' (hb kv hkv)).1
        rwa [show (16 : ℝ) * δ = (((2 : ℤ) ^ k : ℤ) : ℝ) * (2 ^ kv.1.length * δ) by
          push_cast; rw [← mul_assoc, ← pow_add, add_comm k, ← hk]; norm_num] at this
  obtain ⟨q, q1, q2, q3⟩ := bravyiKitaev_action f none le_rfl δ hδ hgr
  obtain ⟨k1, k2, -, -⟩ := kept_spec hδ q2 (bravyiKitaev_onGrid hδ hgr q1)
  obtain ⟨fs1, s1, s2, s3⟩ := save_spec fs "transformed-operator.json" (.qubitOp (types q) q) (plain_op _)
  obtain ⟨fs2, t1, t2, t3⟩ := save_spec fs1 "timing.json" (.timing w) (plain_timing w)
  have hne : ("transformed-operator.json".toList : Str) ≠ "timing.json".toList := by decide
  have hh : Holds fs2 "transformed-operator.json".toList (.qubitOp (types q) q) := by
    obtain ⟨j, j1, j2⟩ := s2
    exact ⟨j, j1, by rw [t3 _ hne]; exact j2⟩
  refine ⟨fs2, OpSerde.kept q, countFermion f, ?_, load_qubitOp q2 (fun kv hkv => hT q kv hkv) hh, t2, k1, ZQ.FTools.countFermion_le hb, ?_⟩
  · have ht : transformed "Bravyi-Kitaev" (.interaction n c one' two') = .ok q := by
      rw [transformed, if_neg (by decide), if_pos rfl]
      show (toFermion (interaction n c one' two') >>= fun f => bravyiKitaev f none) = _
      rw [f1]
      exact q1
    show (theInteraction fs (.file p) >>= fun x => lift (transformed "Bravyi-Kitaev" x) >>= fun q =>
      save fs "transformed-operator.json" (.qubitOp (types q) q) >>= fun fs1 => save fs1 "timing.json" (.timing w)) = _
    rw [hl]
    show (lift (transformed "Bravyi-Kitaev" (.interaction n c one' two')) >>= _) = _
    rw [ht]
    show (save fs "transformed-operator.json" (.qubitOp (types q) q) >>= fun fs1 => save fs1 "timing.json" (.timing w)) = _
    rw [s1]
    exact t1
  · rw [k2]
    have q3' : decodeState (countFermion f) * action pauliAction q = action ladderAction f * decodeState (countFermion f) := q3
    rw [q3', f5, interaction_congr e1 e2]
    intro t ht
    rcases eq_or_ne (termValue (interaction n c one' two') t) 0 with h0 | h0
    · exact Or.inl h0
    · exact Or.inr (le_trans (by linarith) (Grid.norm_ge (by linarith) (termValue_grid hg' ht).1 h0))

/-- Fermion operators given as objects: the Jordan-Wigner transformation is done, the Bravyi-Kitaev transformation raises a `TypeError`. -/
theorem transform_fermion (types : Terms Letter → Term Letter → Bool) (w : ℝ) (fs : FS) (o : Terms Bool) :
    (∃ fs', transformStep types w "Jordan-Wigner" (.fermion o) fs = .ok fs' ∧ Holds fs' "transformed-operator.json".toList (.qubitOp (types (jordanWigner o)) (jordanWigner o))) ∧
    transformStep types w "Bravyi-Kitaev" (.fermion o) fs = .error (.py .typeError) := by
  obtain ⟨fs1, s1, s2, s3⟩ := save_spec fs "transformed-operator.json" (.qubitOp (types (jordanWigner o)) (jordanWigner o)) (plain_op _)
  obtain ⟨fs2, t1, t2, t3⟩ := save_spec fs1 "timing.json" (.timing w) (plain_timing w)
  refine ⟨⟨fs2, ?_, ?_⟩, ?_⟩
  · show (lift (transformed "Jordan-Wigner" (.fermion o)) >>= fun q =>
      save fs "transformed-operator.json" (.qubitOp (types q) q) >>= fun fs1 => save fs1 "timing.json" (.timing w)) = _
    rw [transformed, if_pos rfl]
    show (save fs "transformed-operator.json" (.qubitOp (types (jordanWigner o)) (jordanWigner o)) >>= fun fs1 => save fs1 "timing.json" (.timing w)) = _
    rw [s1]
    exact t1
  · obtain ⟨j, j1, j2⟩ := s2
    exact ⟨j, j1, by rw [t3 _ (by decide)]; exact j2⟩
  · show (lift (transformed "Bravyi-Kitaev" (.fermion o)) >>= fun q =>
      save fs "transformed-operator.json" (.qubitOp (types q) q) >>= fun fs1 => save fs1 "timing.json" (.timing w)) = _
    rw [transformed, if_neg (by decide), if_pos rfl]
    rfl

/-- Qubit operators given as objects: both transformations raise a `TypeError`. -/
theorem transform_qubit (types : Terms Letter → Term Letter → Bool) (w : ℝ) (fs : FS) (o : Terms Letter) :
    transformStep types w "Jordan-Wigner" (.qubit o) fs = .error (.py .typeError) ∧ transformStep types w "Bravyi-Kitaev" (.qubit o) fs = .error (.py .typeError) := by
  constructor
  · show (lift (transformed "Jordan-Wigner" (.qubit o)) >>= fun q =>
      save fs "transformed-operator.json" (.qubitOp (types q) q) >>= fun fs1 => save fs1 "timing.json" (.timing w)) = _
    rw [transformed, if_pos rfl]
    rfl
  · show (lift (transformed "Bravyi-Kitaev" (.qubit o)) >>= fun q =>
      save fs "transformed-operator.json" (.qubitOp (types q) q) >>= fun fs1 => save fs1 "timing.json" (.timing w)) = _
    rw [transformed, if_neg (by decide), if_pos rfl]
    rfl

/-- The step with one operator: the values of its terms, in the order of the file or of the sizes of the coefficients. -/
theorem rdm_values_step {fs : FS} {rp op : Str} {a : NDArray × NDArray} (ha : loadRdm fs (.str rp) = .ok a) {q : Terms Letter} (hq : loadQubitOp fs (.str op) = .ok q)
    {φ : Expect} (hR : Represents (ofRdmArrays a) φ) (h1 : φ 1 = 1) (hφ : Conserving φ) (hreal : Physical φ) (hc : CanonicalOp q)
    (hg : ∀ kv ∈ q, (∀ f ∈ kv.1, f.1 < (ofRdmArrays a).n) ∧ 1 / 10 ^ 8 ≤ ‖kv.2‖ ∧ TwoBody (termAction pauliAction kv.1)) (sort : Bool) :
    ∃ fs' q', rdmValuesStep rp op sort fs = .ok fs' ∧ q'.Perm q ∧ (sort = false → q' = q) ∧ (sort = true → q'.Pairwise fun x y => ‖y.2‖ ≤ ‖x.2‖) ∧
      ∃ e, loadExpectation fs' (.str "expectation_values.json".toList) = .ok e ∧ e.values.data = q'.map fun kv => φ (termAction pauliAction kv.1) := by
  obtain ⟨v1, v2, v3, v4⟩ := expectation_values_partial hR h1 hφ hreal hc (fun t ht => by
      obtain ⟨kv, hkv, rfl⟩ := List.mem_map.1 ht
      exact (hg kv hkv).1) (fun kv hkv => not_lt.2 (hg kv hkv).2.1) (fun t ht => by
      obtain ⟨kv, hkv, rfl⟩ := List.mem_map.1 ht
      exact (hg kv hkv).2.2) sort
  set vs := (greedyOrder q sort).map fun kv => (φ (termAction pauliAction kv.1)).re with hvs
  obtain ⟨fs1, s1, s2, s3⟩ := save_spec fs "expectation_values.json" (.expectation ⟨realArray vs, none, none⟩) (plain_expectation _)
  have hf : Fine (realArray vs) := ⟨⟨by simp [realArray], fun _ z hz => by
    obtain ⟨v, _, rfl⟩ : ∃ v ∈ vs, (v : ℂ) = z := List.mem_map.1 hz
    exact Complex.ofReal_im v⟩, by simp [realArray, ListShape]⟩
  refine ⟨fs1, greedyOrder q sort, ?_, v2, v3, v4, _, load_expectation hf (by simp) (by simp) s2 rfl, ?_⟩
  · show (loadQubitOp fs (.str op) >>= fun o => loadRdm fs (.str rp) >>= fun a => lift (expectationValues (ofRdmArrays a) o sort) >>= fun vs =>
      save fs "expectation_values.json" (.expectation ⟨realArray vs, none, none⟩)) = _
    rw [hq]
    show (loadRdm fs (.str rp) >>= fun a => lift (expectationValues (ofRdmArrays a) q sort) >>= fun vs =>
      save fs "expectation_values.json" (.expectation ⟨realArray vs, none, none⟩)) = _
    rw [ha]
    show (lift (expectationValues (ofRdmArrays a) q sort) >>= fun vs => save fs "expectation_values.json" (.expectation ⟨realArray vs, none, none⟩)) = _
    rw [v1]
    exact s1
  · show vs.map (fun v : ℝ => (v : ℂ)) = _
    rw [hvs, List.map_map]
    refine List.map_congr_left fun kv hkv => ?_
    exact Complex.ext rfl (hreal kv.1 (hc.2 kv.1 (List.mem_map_of_mem (v2.mem_iff.1 hkv)))).1.symm

/-! ## Sorted terms -/

/-- **Sorted terms spoil the sum**: with `sort_terms`, the values come in the order of the sizes of the coefficients, but the sum takes them in the order of the file.
For the operator `Z1 + 2 Z2` and the density matrices of the Hartree-Fock state of two electrons in four spin orbitals, whose energy is 1, the result is -1. -/
theorem sorted_counterexample {fs : FS} {rp op : Str} {D1 D2 : Tensor} (hD : make 4 D1 D2 = hfRdm 1 1 2)
    (hr : loadRdm fs (.str rp) = .ok (back (arrayFrom 4 2 D1 true), back (arrayFrom 4 4 D2 true)))
    (hne : op ≠ "expectation_values.json".toList) (ho : loadQubitOps fs (.str op) = .ok [[([(1, .Z)], 1), ([(2, .Z)], 2)]]) :
    ∃ fs1 fs2, rdmListStep rp op true fs = .ok fs1 ∧ evaluateListStep op "expectation_values.json".toList fs1 = .ok fs2 ∧
      loadValue fs2 (.str "value-estimate.json".toList) = .ok ⟨-1, none⟩ ∧
      basisExpect (hartreeFock 1 1) (action pauliAction [([(1, .Z)], 1), ([(2, .Z)], 2)]) = 1 := by
  have hR := represents_arrays (m := 4) (by norm_num) (D1 := D1) (D2 := D2) (φ := basisExpect (hartreeFock 1 1)) (by rw [hD]; exact hf_rdm 1 1 2)
  have hc : CanonicalOp [([(1, .Z)], 1), ([(2, .Z)], 2)] := by
    refine ⟨by simp [WF, PyDict.keys], fun t ht => ?_⟩
    simp only [PyDict.keys, List.map_cons, List.map_nil, List.mem_cons, List.not_mem_nil, or_false] at ht
    rcases ht with rfl | rfl <;> exact ⟨by simp, by simp⟩
  have e : ∀ q, basisExpect (hartreeFock 1 1) (termAction pauliAction [(q, .Z)]) = if hartreeFock 1 1 q then -1 else 1 := by
    intro q
    show termAction pauliAction [(q, .Z)] (basisState _) _ = _
    rw [allZ_action (by simp [AllZ]), show basisState (hartreeFock 1 1) (hartreeFock 1 1) = 1 from if_pos rfl]
    simp [zSign]
  have hv : expectationValues (ofRdmArrays (back (arrayFrom 4 2 D1 true), back (arrayFrom 4 4 D2 true))) [([(1, .Z)], 1), ([(2, .Z)], 2)] true = .ok [1, -1] := by
    have h := (expectation_values_partial hR (basis_one _) (basis_conserving _) (basis_physical _) hc (by
        intro t ht f hf
        show f.1 < 4
        simp only [PyDict.keys, List.map_cons, List.map_nil, List.mem_cons, List.not_mem_nil, or_false] at ht
        rcases ht with rfl | rfl <;> simp at hf <;> rw [hf] <;> norm_num) (by
        intro kv hkv
        simp only [List.mem_cons, List.not_mem_nil, or_false] at hkv
        rcases hkv with rfl | rfl <;> simp [IsSmall, eqTol] <;> norm_num) (by
        intro t ht
        simp only [PyDict.keys, List.map_cons, List.map_nil, List.mem_cons, List.not_mem_nil, or_false] at ht
        rcases ht with rfl | rfl <;> exact twoBody_z _) true).1
    rw [h]
    have hs : greedyOrder [([(1, Letter.Z)], (1 : ℂ)), ([(2, .Z)], 2)] true = [([(2, .Z)], 2), ([(1, .Z)], 1)] := by
      show List.insertionSort _ _ = _
      rw [List.insertionSort_cons, List.insertionSort_cons, List.insertionSort_nil, List.orderedInsert_nil, List.orderedInsert_cons, if_neg (by simp), List.orderedInsert_nil]
    rw [hs]
    simp only [List.map_cons, List.map_nil, e]
    simp [hartreeFock]
  have hl : expectationValuesList (ofRdmArrays (back (arrayFrom 4 2 D1 true), back (arrayFrom 4 4 D2 true))) [[([(1, .Z)], 1), ([(2, .Z)], 2)]] true = .ok [1, -1] :=
    expectation_list _ _ _ [[1, -1]] (.cons hv .nil)
  obtain ⟨fs1, s1, s2, s3⟩ := save_spec fs "expectation_values.json" (.expectation ⟨realArray [1, -1], none, none⟩) (plain_expectation _)
  have hf : Fine (realArray [1, -1]) := ⟨⟨by simp [realArray], fun _ z hz => by
    obtain ⟨v, _, rfl⟩ : ∃ v ∈ [1, -1], Complex.ofReal v = z := List.mem_map.1 hz
    exact Complex.ofReal_im v⟩, by simp [realArray, ListShape]⟩
  have hx := load_expectation hf (by simp) (by simp) s2 (t := .str "expectation_values.json".toList) rfl
  obtain ⟨fs2, u1, u2, -⟩ := save_spec fs1 "value-estimate.json" (.value ⟨-1, none⟩) (plain_value _)
  refine ⟨fs1, fs2, ?_, ?_, load_value u2, ?_⟩
  · show (loadQubitOps fs (.str op) >>= fun os => loadRdm fs (.str rp) >>= fun a => lift (expectationValuesList (ofRdmArrays a) os true) >>= fun vs =>
      save fs "expectation_values.json" (.expectation ⟨realArray vs, none, none⟩)) = _
    rw [ho]
    show (loadRdm fs (.str rp) >>= fun a => lift (expectationValuesList (ofRdmArrays a) [[([(1, .Z)], 1), ([(2, .Z)], 2)]] true) >>= fun vs =>
      save fs "expectation_values.json" (.expectation ⟨realArray vs, none, none⟩)) = _
    rw [hr]
    show (lift (expectationValuesList _ [[([(1, .Z)], 1), ([(2, .Z)], 2)]] true) >>= fun vs => save fs "expectation_values.json" (.expectation ⟨realArray vs, none, none⟩)) = _
    rw [hl]
    exact s1
  · have hev : Evaluate.evaluateQubitOperatorList [[([(1, .Z)], 1), ([(2, .Z)], 2)]] (realArray [1, -1]).data = .ok (-1) := by
      rw [(Evaluate.evaluateQubitOperatorList_spec _ _).1 (by simp [realArray])]
      simp [realArray]; norm_num
    show (loadQubitOps fs1 (.str op) >>= fun os => loadExpectation fs1 (.str "expectation_values.json".toList) >>= fun e =>
      lift (Evaluate.evaluateQubitOperatorList os e.values.data) >>= fun v => save fs1 "value-estimate.json" (.value ⟨v, none⟩)) = _
    rw [loadQubitOps_congr (s3 op hne), ho]
    show (loadExpectation fs1 (.str "expectation_values.json".toList) >>= fun e =>
      lift (Evaluate.evaluateQubitOperatorList [[([(1, .Z)], 1), ([(2, .Z)], 2)]] e.values.data) >>= fun v => save fs1 "value-estimate.json" (.value ⟨v, none⟩)) = _
    rw [hx]
    show (lift (Evaluate.evaluateQubitOperatorList [[([(1, .Z)], 1), ([(2, .Z)], 2)]] (realArray [1, -1]).data) >>= fun v => save fs1 "value-estimate.json" (.value ⟨v, none⟩)) = _
    rw [hev]
    exact u1
  · rw [action_cons, action_cons, action_nil, map_add, map_add, map_smul, map_smul, map_zero, e, e]
    simp [hartreeFock]; norm_num

/-- The hypotheses can be met. -/
example : ∃ (fs : FS) (D1 D2 : Tensor), make 4 D1 D2 = hfRdm 1 1 2 ∧
    loadRdm fs (.str "r".toList) = .ok (back (arrayFrom 4 2 D1 true), back (arrayFrom 4 4 D2 true)) ∧
    loadQubitOps fs (.str "o".toList) = .ok [[([(1, .Z)], 1), ([(2, .Z)], 2)]] := by
  obtain ⟨D1, D2, hD⟩ : ∃ D1 D2 : Tensor, make 4 D1 D2 = hfRdm 1 1 2 := ⟨_, _, rfl⟩
  obtain ⟨fs1, -, s2, -⟩ := save_spec (fun _ => none) "r" (.rdm (arrayFrom 4 2 D1 true) (arrayFrom 4 4 D2 true)) (plain_rdm _ _)
  obtain ⟨fs2, -, t2, t3⟩ := save_spec fs1 "o" (.qubitOps [(fun _ => true, [([(1, .Z)], 1), ([(2, .Z)], 2)])]) (plain_qubitOps _)
  refine ⟨fs2, D1, D2, hD, ?_, ?_⟩
  · rw [loadRdm_congr (t3 _ (by decide))]
    exact load_rdm (arrayFrom_fine (by norm_num) D1) (arrayFrom_fine (by norm_num) D2) s2
  · rw [load_qubitOps (fun x hx => ?_) (fun x hx => ?_) t2]
    · simp only [List.map_cons, List.map_nil]
      rw [OpSerde.kept_eq]
      intro kv hkv
      simp only [List.mem_cons, List.not_mem_nil, or_false] at hkv
      rcases hkv with rfl | rfl <;> norm_num
    · rw [List.mem_singleton.1 hx]
      refine ⟨by simp [WF, PyDict.keys], fun t ht => ?_⟩
      simp only [PyDict.keys, List.map_cons, List.map_nil, List.mem_cons, List.not_mem_nil, or_false] at ht
      rcases ht with rfl | rfl <;> exact ⟨by simp, by simp⟩
    · rw [List.mem_singleton.1 hx]; exact fun kv _ h => (nomatch h)

end ZQ.Workflow
