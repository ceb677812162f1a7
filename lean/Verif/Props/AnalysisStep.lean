import Verif.Model.AnalysisStep
import Verif.Props.Workflow
import Verif.Props.Budget
import Verif.Props.Hermitian
import Verif.Props.GroupingOrder

/-!
# C121: the step that counts the measurements a grouped operator needs
-/

namespace ZQ.Analysis

open ZQ ZQ.PyDict ZQ.Op ZQ.PolyT ZQ.Files ZQ.ArraySerde ZQ.Workflow ZQ.Est ZQ.Results ZQ.Circuits ZQ.JWInt ZQ.Ground ZQ.Rdm ZQ.Sparse ZQ.Expect ZQ.Stat MeasureTheory ProbabilityTheory

/-! ### Specification -/

/-- The expectation values that a step is given: none, or the real parts of those in a file. -/
def Given (fs : FS) (values : Option Str) (prior : Option (List ℝ)) : Prop :=
  (values = none ∧ prior = none) ∨ ∃ p e, values = some p ∧ loadExpectation fs (.str p) = .ok e ∧ prior = some (e.values.data.map Complex.re)

/-- The file of the analysis holds the number of terms, and for frames of the given variances the numbers of measurements for a precision of one: the root of the
variance times the sum of the roots for each frame, the square of the sum of the roots in total. -/
def Reported (fs : FS) (vars : List ℝ) (terms : ℕ) (K : ℝ) (frames : List ℝ) : Prop :=
  ∃ a : NDArray, loadNmeas fs (.str "hamiltonian_analysis.json".toList) = .ok (.num K, .num terms, a) ∧ a.shape = [vars.length] ∧
    a.data = frames.map Complex.ofReal ∧ a.cplx = false ∧ K = (vars.map Real.sqrt).sum ^ 2 ∧ frames = vars.map fun v => (vars.map Real.sqrt).sum * √v

/-- The tasks of measuring each group with its own number of shots after the same circuit. -/
def measureGroups (c : Circuit) (gs : List (Terms Letter)) (shots : List ℕ) : List Task := List.zipWith (fun g (s : ℕ) => ⟨g, c, some (s : ℤ)⟩) gs shots

/-- The variance of the terms of a group in a state, leaving out the covariances of different terms. -/
noncomputable def termVariance {n : ℕ} (ψ : (Fin n → Bool) → ℂ) (g : Terms Letter) : ℝ :=
  (g.map fun kv => kv.2.re ^ 2 * (1 - (braket ψ (pauliString n kv.1)).re ^ 2)).sum

/-! ### The step -/

theorem thePrior_given {fs : FS} {values : Option Str} {prior : Option (List ℝ)} (h : Given fs values prior) : thePrior fs values = .ok prior := by
  rcases h with ⟨rfl, rfl⟩ | ⟨p, e, rfl, he, rfl⟩
  · rfl
  · show (loadExpectation fs (.str p) >>= fun e => Except.ok (some (e.values.data.map Complex.re))) = _
    rw [he]; rfl

theorem plain_nmeas (k n : ℝ) (a : NDArray) : Plain (record (.nmeas k n (some a))) := plain_dict (by
  simp only [List.cons_append, List.nil_append, List.mem_cons, List.not_mem_nil, or_false, forall_eq_or_imp, forall_eq]
  exact ⟨plain_txt _, plain_num _, plain_num _, plain_array a⟩)

/-- C121. For groups in a file, with or without expectation values, the step writes the numbers of measurements and leaves all other files alone. -/
theorem analysis_step {fs : FS} {gp : Str} {gs : List (Terms Letter)} (hgs : loadQubitOps fs (.str gp) = .ok gs) {values : Option Str} {prior : Option (List ℝ)}
    (hp : Given fs values prior) {vars : List ℝ} (hvars : groupVariances gs prior = .ok vars) :
    ∃ fs' K frames, analysisStep gp values fs = .ok fs' ∧ Reported fs' vars (gs.map List.length).sum K frames ∧
      ∀ p, p ≠ "hamiltonian_analysis.json".toList → fs' p = fs p := by
  set S := (vars.map Real.sqrt).sum with hS
  have hest := estimateNmeas_spec hvars
  have hf : Fine (realArray (vars.map fun v => S * √v)) := ⟨⟨by simp [realArray], fun _ z hz => by
    obtain ⟨v, _, rfl⟩ := List.mem_map.1 hz
    exact Complex.ofReal_im _⟩, by simp [realArray, ListShape]⟩
  obtain ⟨fs1, s1, s2, s3⟩ := save_spec fs "hamiltonian_analysis.json"
    (.nmeas (S ^ 2) ((gs.map List.length).sum : ℕ) (some (realArray (vars.map fun v => S * √v)))) (plain_nmeas _ _ _)
  refine ⟨fs1, S ^ 2, vars.map fun v => S * √v, ?_, ⟨_, load_nmeas_partial hf s2 rfl, ?_, rfl, rfl, rfl, rfl⟩, s3⟩
  · show (loadQubitOps fs (.str gp) >>= fun gs => thePrior fs values >>= fun prior => lift (estimateNmeas gs prior) >>= fun r =>
      save fs "hamiltonian_analysis.json" (.nmeas r.1 r.2.1 (some (realArray r.2.2)))) = _
    rw [hgs]
    show (thePrior fs values >>= fun prior => lift (estimateNmeas gs prior) >>= fun r =>
      save fs "hamiltonian_analysis.json" (.nmeas r.1 r.2.1 (some (realArray r.2.2)))) = _
    rw [thePrior_given hp]
    show (lift (estimateNmeas gs prior) >>= fun r => save fs "hamiltonian_analysis.json" (.nmeas r.1 r.2.1 (some (realArray r.2.2)))) = _
    rw [hest]
    exact s1
  · show [(vars.map fun v => S * √v).length] = _
    rw [List.length_map]

/-- C121. Expectation values that are not one per term, or not between -1 and 1, are refused, and nothing is written. -/
theorem analysis_rejects {fs : FS} {gp : Str} {gs : List (Terms Letter)} (hgs : loadQubitOps fs (.str gp) = .ok gs) (hreal : ∀ g ∈ gs, ∀ kv ∈ g, kv.2.im = 0)
    {values : Option Str} {vs : List ℝ} (hp : Given fs values (some vs)) (h : (gs.map List.length).sum ≠ vs.length ∨ ∃ v ∈ vs, ¬ (-1 ≤ v ∧ v ≤ 1)) :
    analysisStep gp values fs = .error (.py .valueError) := by
  show (loadQubitOps fs (.str gp) >>= fun gs => thePrior fs values >>= fun prior => lift (estimateNmeas gs prior) >>= fun r =>
    save fs "hamiltonian_analysis.json" (.nmeas r.1 r.2.1 (some (realArray r.2.2)))) = _
  rw [hgs]
  show (thePrior fs values >>= fun prior => lift (estimateNmeas gs prior) >>= fun r =>
    save fs "hamiltonian_analysis.json" (.nmeas r.1 r.2.1 (some (realArray r.2.2)))) = _
  rw [thePrior_given hp]
  show (lift (estimateNmeas gs (some vs)) >>= fun r => save fs "hamiltonian_analysis.json" (.nmeas r.1 r.2.1 (some (realArray r.2.2)))) = _
  rw [show estimateNmeas gs (some vs) = .error .valueError by rw [estimateNmeas, groupVariances_rejects hreal h]; rfl]
  rfl

/-! ### From a stored operator to a sufficient number of measurements -/

theorem zipWith_operators (c : Circuit) : ∀ {gs : List (Terms Letter)} {shots : List ℕ}, gs.length = shots.length → (measureGroups c gs shots).map Task.operator = gs := by
  intro gs
  induction gs with
  | nil => intro shots _; rfl
  | cons g gs ih =>
    intro shots h
    cases shots with
    | nil => simp at h
    | cons s shots =>
      rw [measureGroups, List.zipWith_cons_cons, List.map_cons]
      exact congrArg (g :: ·) (ih (by simpa using h))

theorem measureGroups_mem {c : Circuit} {gs : List (Terms Letter)} {shots : List ℕ} {t : Task} (h : t ∈ measureGroups c gs shots) :
    ∃ g ∈ gs, ∃ s ∈ shots, t = ⟨g, c, some (s : ℤ)⟩ := by
  rw [measureGroups, ← List.map_uncurry_zip_eq_zipWith] at h
  obtain ⟨x, hx, rfl⟩ := List.mem_map.1 h
  exact ⟨x.1, (List.of_mem_zip hx).1, x.2, (List.of_mem_zip hx).2, rfl⟩

theorem flatten_length (gs : List (Terms Letter)) : (gs.map List.length).sum = gs.flatten.length := List.length_flatten.symm

/-- Groups of a real operator, measured after a circuit. -/
theorem groups_ready {ρ : String → ℂ} {c : Circuit} (hc : Unitary ρ c) (hq : 0 < c.n) {H : Terms Letter} (h : CanonicalOp H)
    (hbig : ∀ kv ∈ H, 1 / 10 ^ 8 ≤ ‖kv.2‖) (hreal : ∀ kv ∈ H, kv.2.im = 0) (hb : Below c.n H) (sort : Bool) {shots : List ℕ} (hs : ∀ s ∈ shots, 0 < s) :
    ∀ t ∈ measureGroups c (groupGreedy H sort) shots, Groupable ρ t := by
  have hpart := groupGreedy_partition h sort hbig
  intro t ht
  obtain ⟨g, hg, s, hs', rfl⟩ := measureGroups_mem ht
  have hnd : (keys (groupGreedy H sort).flatten).Nodup := (hpart.map Prod.fst).nodup_iff.2 h.1
  obtain ⟨a, b, d, e⟩ := group_ok h hbig hreal hb (fun kv hkv => hpart.mem_iff.1 (List.mem_flatten.2 ⟨g, hg, hkv⟩)) (hnd.sublist ((List.sublist_flatten_of_mem hg).map Prod.fst))
  exact ⟨a, ((groupGreedy_spec h sort).2.1 g hg).2, b, d, e, hc, hq, s, hs s hs', rfl⟩

/-- C121. **From an operator in a file to its measured value.**  For every real operator of the qubits of a circuit: after grouping its terms and analysing the groups, the
file holds the number of terms of the operator and the numbers of measurements of the groups for the largest possible variances of their terms.  These numbers add up to the
reported total, no other numbers of measurements with the same guarantee add up to less, and measuring each group at least `k / ε²` times its number, for `k` the number of
terms in the largest group, gives the expectation value of the operator in the state of the circuit with a variance of at most `ε²`. -/
theorem analysis_workflow_partial {types : Terms Letter → Term Letter → Bool} (hT : Fit types) {fs : FS} {p : Str} {H : Terms Letter} (hH : loadQubitOp fs (.str p) = .ok H)
    {ρ : String → ℂ} {c : Circuit} (hc : Unitary ρ c) (hq : 0 < c.n) (h : CanonicalOp H)
    (hbig : ∀ kv ∈ H, 1 / 10 ^ 8 ≤ ‖kv.2‖) (hreal : ∀ kv ∈ H, kv.2.im = 0) (hb : Below c.n H) (sort : Bool) :
    ∃ fs1 fs2 gs K frames, groupStep types (.file p) sort fs = .ok fs1 ∧ loadQubitOps fs1 (.str "grouped-operator.json".toList) = .ok gs ∧
      analysisStep "grouped-operator.json".toList none fs1 = .ok fs2 ∧ gs.flatten.Perm H ∧
      Reported fs2 (gs.map fun g => ((g.filter fun kv => decide (kv.1 ≠ [])).map fun kv => kv.2.re ^ 2).sum) H.length K frames ∧ frames.sum = K ∧
      ∀ {ε : ℝ}, 0 < ε →
        ((∃ kv ∈ H, kv.1 ≠ []) → ∀ ms : List ℝ, ms.length = gs.length → (∀ m ∈ ms, 0 < m) →
          (List.zipWith (fun g m => ((g.filter fun kv => decide (kv.1 ≠ [])).map fun kv => kv.2.re ^ 2).sum / m) gs ms).sum ≤ ε ^ 2 → K / ε ^ 2 ≤ ms.sum) ∧
        ∀ {k : ℕ}, (∀ g ∈ gs, (g.filter fun kv => decide (kv.1 ≠ [])).length ≤ k) → ∀ {shots : List ℕ}, (∀ s ∈ shots, 0 < s) →
          List.Forall₂ (fun m (s : ℕ) => k * m / ε ^ 2 ≤ s) frames shots →
          ∃ out, performContextSelection (measureGroups c gs shots) = .ok out ∧
            ∀ {Ω : Type} [MeasurableSpace Ω] (P : Measure Ω) [IsProbabilityMeasure P] {run : Ω → Runner}
              {draw : (k : Fin (measuredTasks out).length) → Fin (shotsOf (measuredTasks out)[k]) → Ω → (Fin (measuredTasks out)[k].circuit.n → Bool)},
              Returns run (measuredTasks out) draw → Measures P ρ (measuredTasks out) draw →
              ∃ X : Ω → ℝ, (∀ ω, ∃ r, estimateByAveraging (run ω) out = .ok r ∧ total r = X ω) ∧ MemLp X 2 P ∧
                P[X] = (braket (outputState ρ c) (opMatrix c.n H)).re ∧ Var[X; P] ≤ ε ^ 2 := by
  obtain ⟨fs1, g1, g2, -, g4⟩ := group_step hT hH h hbig sort
  have hpart := groupGreedy_partition h sort hbig
  set gs := groupGreedy H sort with hgsdef
  have hw : ∀ g ∈ gs, WF g := fun g hg => (g4 g hg).1.1
  have hr : ∀ g ∈ gs, ∀ kv ∈ g, kv.2.im = 0 := fun g hg kv hkv => hreal kv ((g4 g hg).2 kv hkv)
  have hvars := groupVariances_none hw hr
  obtain ⟨fs2, K, frames, a1, a2, -⟩ := analysis_step (values := none) g2 (.inl ⟨rfl, rfl⟩) hvars
  have hlen : (gs.map List.length).sum = H.length := by rw [flatten_length]; exact hpart.length_eq
  rw [hlen] at a2
  obtain ⟨-, -, -, -, -, hK, hframes⟩ := id a2
  have hest := estimateNmeas_spec hvars
  rw [← hK, ← hframes] at hest
  refine ⟨fs1, fs2, gs, K, frames, g1, g2, a1, hpart, a2, ?_, fun {ε} hε => ⟨?_, ?_⟩⟩
  · rw [hframes, hK, List.sum_map_mul_left, sq]
  · rintro ⟨kv, hkv, hne⟩ ms hl hm hle
    obtain ⟨g, hg, hkg⟩ := List.mem_flatten.1 (hpart.mem_iff.2 hkv)
    have hpos : 0 < varianceBound g := by
      have hz : kv.2.re ≠ 0 := fun e => by
        have := hbig kv hkv
        rw [show kv.2 = 0 from Complex.ext e (hreal kv hkv), norm_zero] at this
        norm_num at this
      refine lt_of_lt_of_le (pow_pos (abs_pos.2 hz) 2) ?_
      rw [sq_abs]
      refine List.single_le_sum ?_ _ (List.mem_map.2 ⟨kv, List.mem_filter.2 ⟨hkg, by simpa using hne⟩, rfl⟩)
      intro x hx
      obtain ⟨y, -, rfl⟩ := List.mem_map.1 hx
      exact sq_nonneg _
    obtain ⟨K2, nt, fm, b1, -, -, b4⟩ := budget_optimal hvars ⟨_, List.mem_map_of_mem hg, hpos⟩ hε
    rw [hest] at b1
    cases b1
    refine b4 ms (by rw [hl, List.length_map]) hm ?_
    rw [List.zipWith_map_left]
    exact hle
  · intro k hk shots hs hfs
    have hls : gs.length = shots.length := by
      have := hfs.length_eq
      rw [hframes, List.length_map, List.length_map] at this
      exact this
    have hops := zipWith_operators c hls
    obtain ⟨K2, nt, fm, b1, b2⟩ := budget_meets_partial (groups_ready hc hq h hbig hreal hb sort hs) (.inl rfl) (k := k) (fun t ht => by
      obtain ⟨g, hg, s, -, rfl⟩ := measureGroups_mem ht
      exact hk g hg) hε
    rw [← hgsdef, hops, hest] at b1
    cases b1
    rw [← hgsdef] at b2
    obtain ⟨out, o1, o2⟩ := b2 (by
      clear b2 hops hest hK
      have : ∀ (gs : List (Terms Letter)) (frames : List ℝ) (shots : List ℕ), gs.length = shots.length → List.Forall₂ (fun m (s : ℕ) => k * m / ε ^ 2 ≤ s) frames shots →
          List.Forall₂ (fun t m => k * m / ε ^ 2 ≤ shotsOf t) (measureGroups c gs shots) frames := by
        intro gs frames shots hl hf
        induction hf generalizing gs with
        | nil => cases gs with | nil => exact .nil | cons => simp at hl
        | @cons m s frames shots h1 _ ih =>
          cases gs with
          | nil => simp at hl
          | cons g gs => exact .cons (by simpa [shotsOf] using h1) (ih gs (by simpa using hl))
      exact this gs frames shots hls hfs)
    refine ⟨out, o1, fun {Ω} _ P _ {run draw} hrun hdraw => ?_⟩
    obtain ⟨X, x1, x2, x3, x4⟩ := o2 P hrun hdraw
    refine ⟨X, fun ω => ?_, x2, ?_, x4⟩
    · obtain ⟨r, r1, -, -, r4⟩ := x1 ω
      exact ⟨r, r1, r4⟩
    · rw [x3, ← braket_perm _ hpart, braket_flatten]
      congr 1
      clear x3 x4 x2 x1 o2 o1 hops hfs
      have : ∀ (gs : List (Terms Letter)) (shots : List ℕ), gs.length = shots.length →
          (measureGroups c gs shots).map (exactMean ρ) = gs.map fun g => (braket (outputState ρ c) (opMatrix c.n g)).re := by
        intro gs
        induction gs with
        | nil => intro shots _; rfl
        | cons g gs ih =>
          intro shots hl
          cases shots with
          | nil => simp at hl
          | cons s shots =>
            rw [measureGroups, List.zipWith_cons_cons, List.map_cons, List.map_cons]
            exact congrArg _ (ih shots (by simpa using hl))
      exact this gs shots hls

/-! ### With the expectation values of a state -/

/-- C121. With the expectation values of the terms in a state, the numbers of measurements are those for the variances of the groups in this state, leaving out the
covariances of different terms. -/
theorem analysis_values {fs : FS} {gp vp : Str} {gs : List (Terms Letter)} (hgs : loadQubitOps fs (.str gp) = .ok gs) (hreal : ∀ g ∈ gs, ∀ kv ∈ g, kv.2.im = 0)
    {n : ℕ} {ψ : (Fin n → Bool) → ℂ} (hψ : ∑ x, Complex.normSq (ψ x) = 1) {e : ArraySerde.ExpectationValues} (he : loadExpectation fs (.str vp) = .ok e)
    (hv : e.values.data = gs.flatten.map fun kv => braket ψ (pauliString n kv.1)) :
    ∃ fs' K frames, analysisStep gp (some vp) fs = .ok fs' ∧ Reported fs' (gs.map (termVariance ψ)) (gs.map List.length).sum K frames ∧
      ∀ p, p ≠ "hamiltonian_analysis.json".toList → fs' p = fs p := by
  refine analysis_step hgs (.inr ⟨vp, e, rfl, he, rfl⟩) ?_
  have hflat : e.values.data.map Complex.re = (gs.map fun g => g.map fun kv => (braket ψ (pauliString n kv.1)).re).flatten := by
    rw [hv, List.map_map, List.map_flatten]; rfl
  rw [hflat, groupVariances_some hreal]
  · congr 1
    rw [List.zipWith_map_right, List.zipWith_self]
    exact List.map_congr_left fun g _ => varianceFrom_true ψ g
  · rw [List.forall₂_map_right_iff, List.forall₂_same]
    exact fun g _ => List.length_map .. |>.symm
  · intro vs hvs v hv
    obtain ⟨g, -, rfl⟩ := List.mem_map.1 hvs
    obtain ⟨kv, -, rfl⟩ := List.mem_map.1 hv
    exact abs_le.1 ((sq_le_one_iff_abs_le_one _).1 (pauli_bound hψ kv.1))

theorem unit_normSq {n : ℕ} {ψ : (Fin n → Bool) → ℂ} (h : Ground.inner ψ ψ = 1) : ∑ x, Complex.normSq (ψ x) = 1 := by
  rw [Ground.inner, dotProduct] at h
  have : ((∑ x, Complex.normSq (ψ x) : ℝ) : ℂ) = 1 := by
    rw [← h, Complex.ofReal_sum]
    exact Finset.sum_congr rfl fun x _ => Complex.normSq_eq_conj_mul_self
  exact_mod_cast this

theorem loadExpectation_congr {fs fs' : FS} {p : Str} (h : fs' p = fs p) : loadExpectation fs' (.str p) = loadExpectation fs (.str p) := by
  simp only [loadExpectation, readAny, readFile, h]

/-- C121. **From a stored fermionic operator to the numbers of measurements in its ground state**: transform the operator, write the reduced density matrices of its ground
state at `k` particles, group the terms, write the expectation values of the terms from the density matrices, and analyse the groups with these values.  The numbers of
measurements reported in the end are those for the variances of the groups in a state of lowest energy. -/
theorem analysis_ground {types : Terms Letter → Term Letter → Bool} (hT : Fit types) (w : ℝ) {eigh eigsh : Mat ℂ → Eigen} (h1 : Solves eigh) (h2 : Solves eigsh)
    {fs : FS} {p : Str} {n : ℕ} (hn : 0 < n) {c : ℂ} {one two : Tensor}
    (h : Stores fs p n c one two) (hc : c.im = 0) (hH : Hermitian n one two) {δ : ℝ} (hδ : 1 / 10 ^ 8 ≤ δ) (hg : EntriesOn n (16 * δ) c one two)
    {m : ℕ} (hm : Involved (polyAction (interaction n c one two)) m) (hpos : 0 < m) {k : ℕ} (hk : k ≤ m) (sort : Bool) :
    ∃ fs1 fs2 fs3 fs4 fs5 gs e ψ K frames, transformStep types w "Jordan-Wigner" (.file p) fs = .ok fs1 ∧
      rdmStep eigh eigsh k "transformed-operator.json".toList fs1 = .ok fs2 ∧
      groupStep types (.file "transformed-operator.json".toList) sort fs2 = .ok fs3 ∧
      rdmListStep "rdms.json".toList "grouped-operator.json".toList false fs3 = .ok fs4 ∧
      analysisStep "grouped-operator.json".toList (some "expectation_values.json".toList) fs4 = .ok fs5 ∧
      GroundState (matrixOf m (polyAction (interaction n c one two))) k e ψ ∧
      loadQubitOps fs5 (.str "grouped-operator.json".toList) = .ok gs ∧ action pauliAction gs.flatten = polyAction (interaction n c one two) ∧
      Reported fs5 (gs.map (termVariance ψ)) gs.flatten.length K frames := by
  obtain ⟨fs1, q, t1, t2, -, -, t5, t6, t7⟩ := transform_jw hT w hn h hH hδ hg
  have hnz : ∀ kv ∈ q, kv.2 ≠ 0 := fun kv hkv e => by
    have := t6 kv hkv
    rw [e, norm_zero] at this
    norm_num at this
  have hcount : countQubit q = m := countQubit_involved t5 hnz (by rw [t7]; exact hm)
  obtain ⟨fs2, a, e, ψ, r1, r2, r3, r4, r5, r6⟩ := rdm_step h1 h2 t2 t5 hcount hpos (by rw [t7]; exact matrixOf_hermitian (interaction_adjoint hc hH) m) hk
  obtain ⟨fs3, g1, g2, g3, g4⟩ := group_step (fs := fs2) (p := "transformed-operator.json".toList) hT (by rw [loadQubitOp_congr (r3 _ (by decide))]; exact t2) t5 t6 sort
  have hbelow : ∀ g ∈ groupGreedy q sort, ∀ kv ∈ g, ∀ f ∈ kv.1, f.1 < m := fun g hgm kv hkv f hf => by
    rw [← hcount]
    exact countQubit_bound t5 kv ((g4 g hgm).2 kv hkv) f hf
  obtain ⟨fs4, l1, l2, ev, l3, l4⟩ := rdm_list_step (fs := fs3) (rp := "rdms.json".toList) (by rw [loadRdm_congr (g3 _ (by decide))]; exact r2) g2 r6
    (stateExpect_one r4.unit) (state_conserving r4.particles) (state_physical r4.unit) (fun g hgm => by
      refine ⟨(g4 g hgm).1, fun kv hkv => ?_⟩
      have hkq := (g4 g hgm).2 kv hkv
      have hco : coeff q kv.1 ≠ 0 := by
        rw [coeff_of_mem t5.1 hkq]
        exact hnz kv hkq
      obtain ⟨-, s2, -⟩ := string_of_interaction t5 t7 hco
      exact ⟨fun f hf => by rw [r5]; exact hbelow g hgm kv hkv f hf, t6 kv hkq, s2⟩)
  have hreal : ∀ g ∈ groupGreedy q sort, ∀ kv ∈ g, kv.2.im = 0 := fun g hgm kv hkv => by
    obtain ⟨common, hcom⟩ := isCommon_exists (b := hcQubit q) t5.1
    have := (isHermitianQubit_of_selfadjoint t5 common hcom (by rw [t7]; exact interaction_adjoint hc hH)).2 kv.1
    rw [coeff_of_mem t5.1 ((g4 g hgm).2 kv hkv)] at this
    exact Complex.conj_eq_iff_im.1 this
  obtain ⟨fs5, K, frames, a1, a2, a3⟩ := analysis_values (ψ := ψ) (fs := fs4) (gp := "grouped-operator.json".toList) (vp := "expectation_values.json".toList)
    (by rw [loadQubitOps_congr (l2 _ (by decide))]; exact g2) hreal (unit_normSq r4.unit) l3 (by
      rw [l4]
      refine List.map_congr_left fun kv hkv => ?_
      obtain ⟨g, hgm, hkg⟩ := List.mem_flatten.1 hkv
      rw [pauliString_eq_matrixOf ((g4 g hgm).1.2 _ (List.mem_map_of_mem hkg)) (hbelow g hgm kv hkg)]
      rfl)
  rw [t7] at r4
  rw [flatten_length] at a2
  refine ⟨fs1, fs2, fs3, fs4, fs5, _, e, ψ, K, frames, t1, r1, g1, l1, a1, r4, ?_, ?_, a2⟩
  · rw [loadQubitOps_congr (a3 _ (by decide)), loadQubitOps_congr (l2 _ (by decide))]; exact g2
  · rw [action_perm pauliAction (groupGreedy_partition t5 sort t6), t7]

/-! ### The names of decomposition methods -/

/-- C121. The two names give functions that split an operator into groups of co-measurable terms, by the first fit in the order of the operator or from large to small.
All other names are refused. -/
theorem decomposition_function (name : String) :
    (name ≠ "greedy" ∧ name ≠ "greedy-sorted" ∧ decompositionFunction name = .error .valueError) ∨
    ((name = "greedy" ∨ name = "greedy-sorted") ∧ ∃ f, decompositionFunction name = .ok f ∧
      ∀ {H : Terms Letter}, CanonicalOp H → (∀ kv ∈ H, 1 / 10 ^ 8 ≤ ‖kv.2‖) → (f H).flatten.Perm H ∧
        (∀ g ∈ f H, g ≠ [] ∧ ∀ s ∈ keys g, ∀ t ∈ keys g, CoMeasurable s t) ∧
        ∃ items gs, Visits H (decide (name = "greedy-sorted")) items ∧ FirstFit items gs ∧ f H = gs ++ if [] ∈ keys H then [[([], coeff H [])]] else []) := by
  unfold decompositionFunction
  by_cases h1 : name = "greedy"
  · subst h1
    refine .inr ⟨.inl rfl, _, if_pos rfl, fun {H} h hb => ⟨groupGreedy_partition h false hb, (groupGreedy_spec h false).2.1, ?_⟩⟩
    obtain ⟨items, gs, a, b, -, d⟩ := groupGreedy_first_fit h false hb
    exact ⟨items, gs, a, b, d⟩
  · rw [if_neg h1]
    by_cases h2 : name = "greedy-sorted"
    · subst h2
      refine .inr ⟨.inr rfl, _, if_pos rfl, fun {H} h hb => ⟨groupGreedy_partition h true hb, (groupGreedy_spec h true).2.1, ?_⟩⟩
      obtain ⟨items, gs, a, b, -, d⟩ := groupGreedy_first_fit h true hb
      exact ⟨items, gs, a, b, d⟩
    · exact .inl ⟨h1, h2, if_neg h2⟩

/-! ### Examples -/

/-- A stored operator on two orbitals, with one particle: the hypotheses of `analysis_ground` can be met. -/
example {types : Terms Letter → Term Letter → Bool} (hT : Fit types) : ∃ fs : FS, ∃ p : Str, Stores fs p 2 0 firstOne (fun _ => 0) ∧ ∃ fs1, transformStep types 1 "Jordan-Wigner" (.file p) fs = .ok fs1 := by
  obtain ⟨fs, h⟩ := stores_exists (fun _ => none) "operator.json" 2 (by norm_num) 0 firstOne (fun _ => 0)
  obtain ⟨solver, hs, -⟩ := exists_solver
  obtain ⟨fs1, fs2, fs3, fs4, fs5, gs, e, ψ, K, frames, a, -⟩ :=
    analysis_ground hT 1 hs hs (by norm_num) h rfl firstOne_hermitian (δ := 1 / 16) (by norm_num) firstOne_entries firstOne_involved (by norm_num) (k := 1) le_rfl true
  exact ⟨fs, _, h, fs1, a⟩

end ZQ.Analysis
