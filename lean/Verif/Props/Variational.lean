import Verif.Props.Workflow
import Verif.Props.Budget
import Verif.Props.Spectrum
import Mathlib.Analysis.Matrix.Order

/-!
# C118: the variational principle

The exact cost function of a transformed operator and the ground state energies of the other workflow.
-/

namespace ZQ.Variational

open ZQ ZQ.Op ZQ.Gates ZQ.PolyT ZQ.Files ZQ.Results ZQ.JWInt ZQ.Ground ZQ.Sparse ZQ.Expect ZQ.Circuits ZQ.Backend ZQ.Workflow Matrix
open scoped ComplexOrder

variable {n : ℕ}

/-- The part of a state with `k` particles. -/
noncomputable def part (k : ℕ) (ψ : (Fin n → Bool) → ℂ) : (Fin n → Bool) → ℂ := fun x => if occupied x = k then ψ x else 0

theorem part_particles (k : ℕ) (ψ : (Fin n → Bool) → ℂ) : HasParticles k (part k ψ) := fun x hx => by
  by_contra h
  exact hx (if_neg h)

theorem occupied_le (x : Fin n → Bool) : occupied x ≤ n := by
  rw [occupied]
  exact (Finset.card_le_univ _).trans (by simp)

theorem split {A : Matrix (Fin n → Bool) (Fin n → Bool) ℂ} (hA : Conserves A) (ψ : (Fin n → Bool) → ℂ) :
    Ground.inner ψ (A *ᵥ ψ) = ∑ k ∈ Finset.range (n + 1), Ground.inner (part k ψ) (A *ᵥ part k ψ) := by
  unfold Ground.inner dotProduct
  rw [Finset.sum_comm]
  refine Finset.sum_congr rfl fun x _ => ?_
  rw [Finset.sum_eq_single (occupied x)]
  · simp only [Pi.star_apply]
    rw [part, if_pos rfl]
    congr 1
    unfold Matrix.mulVec dotProduct
    refine Finset.sum_congr rfl fun y _ => ?_
    change A x y * ψ y = A x y * part (occupied x) ψ y
    by_cases h : A x y = 0
    · rw [h, zero_mul, zero_mul]
    · rw [part, if_pos (hA x y h).symm]
  · intro k _ hk
    rw [Pi.star_apply, part, if_neg (Ne.symm hk), star_zero, zero_mul]
  · intro h
    exact absurd (Finset.mem_range.2 (Nat.lt_succ_of_le (occupied_le x))) h

theorem conserves_one : Conserves (1 : Matrix (Fin n → Bool) (Fin n → Bool) ℂ) := fun x y h => by
  by_cases e : x = y
  · rw [e]
  · exact absurd (Matrix.one_apply_ne e) h

theorem inner_self_nonneg (ψ : (Fin n → Bool) → ℂ) : 0 ≤ (Ground.inner ψ ψ).re := by
  rw [Ground.inner, dotProduct, Complex.re_sum]
  refine Finset.sum_nonneg fun x _ => ?_
  rw [Pi.star_apply, show star (ψ x) * ψ x = ((Complex.normSq (ψ x) : ℝ) : ℂ) from (Complex.normSq_eq_conj_mul_self).symm, Complex.ofReal_re]
  exact Complex.normSq_nonneg _

/-- No state has less energy than all the ground states with 0, 1, 2, ... particles. -/
theorem energy_bound {A : Matrix (Fin n → Bool) (Fin n → Bool) ℂ} (hA : Conserves A) {e : ℕ → ℝ} {g : ℕ → (Fin n → Bool) → ℂ}
    (hg : ∀ k ≤ n, GroundState A k (e k) (g k)) {ψ : (Fin n → Bool) → ℂ} (hψ : Ground.inner ψ ψ = 1) : ∃ k ≤ n, e k ≤ (Ground.inner ψ (A *ᵥ ψ)).re := by
  by_contra hc
  push Not at hc
  set v := (Ground.inner ψ (A *ᵥ ψ)).re with hv
  have h1 : v = ∑ k ∈ Finset.range (n + 1), (Ground.inner (part k ψ) (A *ᵥ part k ψ)).re := by rw [hv, split hA, Complex.re_sum]
  have h2 : (1 : ℝ) = ∑ k ∈ Finset.range (n + 1), (Ground.inner (part k ψ) (part k ψ)).re := by
    have := split (conserves_one (n := n)) ψ
    simp only [Matrix.one_mulVec] at this
    rw [hψ] at this
    have := congrArg Complex.re this
    rwa [Complex.re_sum, Complex.one_re] at this
  have h3 : ∀ k ∈ Finset.range (n + 1), v * (Ground.inner (part k ψ) (part k ψ)).re ≤ (Ground.inner (part k ψ) (A *ᵥ part k ψ)).re := by
    intro k hk
    have hk' := Nat.le_of_lt_succ (Finset.mem_range.1 hk)
    refine le_trans ?_ ((hg k hk').lowest _ (part_particles k ψ))
    exact mul_le_mul_of_nonneg_right (hc k hk').le (inner_self_nonneg _)
  have h4 : ∃ k ∈ Finset.range (n + 1), 0 < (Ground.inner (part k ψ) (part k ψ)).re := by
    by_contra h
    push Not at h
    have : (1 : ℝ) ≤ 0 := by rw [h2]; exact Finset.sum_nonpos h
    linarith
  obtain ⟨k, hk, hpos⟩ := h4
  have hk' := Nat.le_of_lt_succ (Finset.mem_range.1 hk)
  have h5 : v * (Ground.inner (part k ψ) (part k ψ)).re < (Ground.inner (part k ψ) (A *ᵥ part k ψ)).re :=
    lt_of_lt_of_le (mul_lt_mul_of_pos_right (hc k hk') hpos) ((hg k hk').lowest _ (part_particles k ψ))
  have h6 := Finset.sum_lt_sum h3 ⟨k, hk, h5⟩
  rw [← Finset.mul_sum, ← h2, mul_one, ← h1] at h6
  exact lt_irrefl _ h6

theorem output_unit {ρ : String → ℂ} {c : Circuit} (hc : Unitary ρ c) : Ground.inner (outputState ρ c) (outputState ρ c) = 1 := by
  have := Stat.output_normalised hc
  rw [Ground.inner, dotProduct]
  have e : ∀ x, star (outputState ρ c) x * outputState ρ c x = ((Complex.normSq (outputState ρ c x) : ℝ) : ℂ) := fun x => by
    rw [Pi.star_apply]; exact (Complex.normSq_eq_conj_mul_self).symm
  simp only [e]
  rw [← Complex.ofReal_sum, this, Complex.ofReal_one]

/-- **The variational principle in the workflows**: let a file hold a Hermitian interaction operator that involves `m` modes.  Transform it, and let `e k` be the value the
ground state step writes for `k ≤ m` particles.  Then for every circuit on `m` qubits and all parameters, the cost function made from the transformed operator with exact
estimation has a value that is at least one of the `e k`, and at least `e k` if the state of the circuit has `k` particles. -/
theorem vqe_bound {W : Type} {types : Terms Letter → Term Letter → Bool} (hT : Fit types) (w : ℝ) {eigh eigsh : Mat ℂ → Eigen} (h1 : Solves eigh) (h2 : Solves eigsh)
    {fs : FS} {p : Str} {n : ℕ} (hn : 0 < n) {c : ℂ} {one two : Tensor}
    (h : Stores fs p n c one two) (hc : c.im = 0) (hH : Hermitian n one two) {δ : ℝ} (hδ : 1 / 10 ^ 8 ≤ δ) (hg : EntriesOn n (16 * δ) c one two)
    {m : ℕ} (hm : Involved (polyAction (interaction n c one two)) m)
    (sim : Simulator W) (ρ : String → ℂ) (hsim : Correct sim ρ) (order : List String → List String) (ho : Cost.IsSetOrder order)
    (key : List Char → List Sorting.Item) (hk : ∀ x, Sorting.Alternating (key x)) (circuit : Circuit) (hcn : circuit.n = m) (hbind : Ansatz.Bindable circuit) (st : St W) :
    ∃ fs1 q symbols, ∃ e : ℕ → ℝ, transformStep types w "Jordan-Wigner" (.file p) fs = .ok fs1 ∧ loadQubitOp fs1 (.str "transformed-operator.json".toList) = .ok q ∧
      (∀ k ≤ m, ∃ fs2, groundStep eigh eigsh k (.file "transformed-operator.json".toList) fs1 = .ok fs2 ∧
        loadValue fs2 (.str "value-estimate.json".toList) = .ok ⟨e k, none⟩) ∧
      Cost.prepare order key q circuit [] st () = (.ok ([⟨q, circuit, none⟩], symbols), st) ∧
      ∀ (ps : List ℝ) (ρ' : String → ℂ), symbols.length = ps.length → Assigns symbols ps ρ ρ' → Unitary ρ' circuit →
        ∃ v, (Cost.createCostFunction (exactMethod sim ρ false) (Cost.expectationValueFactory ([⟨q, circuit, none⟩], symbols)) [] st ps).1 = .ok ⟨v, none⟩ ∧
          (∃ k ≤ m, e k ≤ v) ∧ ∀ k, HasParticles k (outputState ρ' circuit) → k ≤ m ∧ e k ≤ v := by
  subst hcn
  obtain ⟨fs1, q, t1, t2, -, -, t5, t6, t7⟩ := transform_jw hT w hn h hH hδ hg
  have hnz : ∀ kv ∈ q, kv.2 ≠ 0 := fun kv hkv e => by
    have := t6 kv hkv
    rw [e, norm_zero] at this
    norm_num at this
  have hcount : countQubit q = circuit.n := countQubit_involved t5 hnz (by rw [t7]; exact hm)
  have hherm : (matrixOf circuit.n (action pauliAction q)).IsHermitian := by rw [t7]; exact matrixOf_hermitian (interaction_adjoint hc hH) _
  have hbelow : Below circuit.n q := fun kv hkv f hf => hcount ▸ countQubit_bound t5 kv hkv f hf
  have hcons : Conserves (matrixOf circuit.n (action pauliAction q)) := by rw [t7]; exact interaction_conserves _ n c one two
  have key' : ∀ k, ∃ (e : ℝ) (g : (Fin circuit.n → Bool) → ℂ), k ≤ circuit.n → GroundState (matrixOf circuit.n (action pauliAction q)) k e g ∧
      ∃ fs2, groundStep eigh eigsh k (.file "transformed-operator.json".toList) fs1 = .ok fs2 ∧ loadValue fs2 (.str "value-estimate.json".toList) = .ok ⟨e, none⟩ := by
    intro k
    by_cases hkm : k ≤ circuit.n
    · obtain ⟨fs2, e, wf, ψ, g1, g2, -, -, -, -, g6, -⟩ := ground_step h1 h2 t2 t5 hcount hherm hkm
      exact ⟨e, _, fun _ => ⟨g6, fs2, g1, g2⟩⟩
    · exact ⟨0, fun _ => 0, fun h => absurd h hkm⟩
  choose e g heg using key'
  obtain ⟨symbols, c1, -, -, c4⟩ := exactCost_spec sim ρ hsim order ho key hk t5 circuit hbelow hbind st
  refine ⟨fs1, q, symbols, e, t1, t2, fun k hk => (heg k hk).2, c1, fun ps ρ' hl ha hu => ?_⟩
  refine ⟨_, c4 ps ρ' hl ha hu, ?_, fun k hpart => ?_⟩
  · rw [opMatrix_eq_matrixOf t5 hbelow]
    exact energy_bound hcons (fun k hk => (heg k hk).1) (output_unit hu)
  · have hk' : k ≤ circuit.n := by
      by_contra hkn
      have hz : outputState ρ' circuit = 0 := funext fun x => by
        by_contra hx
        have := hpart x hx
        have := occupied_le x
        omega
      have := output_unit hu
      rw [hz] at this
      simp [Ground.inner] at this
    refine ⟨hk', ?_⟩
    rw [opMatrix_eq_matrixOf t5 hbelow]
    have := (heg k hk').1.lowest _ hpart
    rw [output_unit hu, Complex.one_re, mul_one] at this
    exact this

/-! ## Any Hermitian operator -/

theorem lowest_attained {ι : Type} [Fintype ι] [DecidableEq ι] {A : Matrix ι ι ℂ} (hA : A.IsHermitian) {e : ℝ}
    (h : ∀ (μ : ℝ) (w : ι → ℂ), w ≠ 0 → A *ᵥ w = (μ : ℂ) • w → e ≤ μ) {w : ι → ℂ} (hw : Ground.inner w w = 1) :
    (Ground.inner w (A *ᵥ w)).re = e ↔ A *ᵥ w = (e : ℂ) • w := by
  have hp := lowest_posSemidef hA h
  have hz := hp.dotProduct_mulVec_zero_iff w
  rw [Matrix.sub_mulVec, Matrix.smul_mulVec, Matrix.one_mulVec, dotProduct_sub, dotProduct_smul, sub_eq_zero, sub_eq_zero] at hz
  rw [← hz]
  rw [Ground.inner] at hw
  rw [hw, Ground.inner]
  have him : (star w ⬝ᵥ A *ᵥ w).im = 0 := hA.im_star_dotProduct_mulVec_self w
  constructor
  · intro h
    apply Complex.ext
    · rw [h]; simp
    · rw [him]; simp
  · intro h
    rw [h]; simp

theorem spectrum_mem {ι : Type} [Fintype ι] [DecidableEq ι] {A : Matrix ι ι ℂ} {L : List ℂ} (h : Spectrum.IsSpectrum A L) {μ : ℂ} {w : ι → ℂ} (hw : w ≠ 0)
    (he : A *ᵥ w = μ • w) : μ ∈ L := by
  have : μ ∈ (L : Multiset ℂ) := by
    rw [h.roots, Polynomial.mem_roots A.charpoly_monic.ne_zero, Polynomial.IsRoot, Matrix.eval_charpoly]
    refine Matrix.exists_mulVec_eq_zero_iff.1 ⟨w, hw, ?_⟩
    rw [Matrix.sub_mulVec, he, Matrix.scalar_apply, ← Matrix.smul_one_eq_diagonal, Matrix.smul_mulVec, Matrix.one_mulVec, sub_self]
  exact this

/-- **The exact cost function lies between the least and the greatest number of the spectrum**: for a qubit operator with real coefficients, a circuit with all its qubits and all parameters,
the value is at least the first and at most the last number `eigenspectrum` returns, and it is the first exactly if the state of the circuit is an eigenvector for it. -/
theorem spectrum_bound {W : Type} {eigvalsh : Mat ℂ → List ℝ} {eigvals : Mat ℂ → List ℂ} (h1 : Spectrum.SolvesH eigvalsh) (h2 : Spectrum.SolvesG eigvals)
    (sim : Simulator W) (ρ : String → ℂ) (hsim : Correct sim ρ) (order : List String → List String) (ho : Cost.IsSetOrder order)
    (key : List Char → List Sorting.Item) (hk : ∀ x, Sorting.Alternating (key x)) {H : Terms Letter} (h : CanonicalOp H) (circuit : Circuit) (hb : Below circuit.n H)
    (hreal : ∀ kv ∈ H, kv.2.im = 0) (hbind : Ansatz.Bindable circuit) (st : St W) :
    ∃ symbols L, ∃ hL : L ≠ [], Cost.prepare order key H circuit [] st () = (.ok ([⟨H, circuit, none⟩], symbols), st) ∧
      Spectrum.eigenspectrum eigvalsh eigvals (.qubit H) (some circuit.n) = .ok L ∧
      ∀ (ps : List ℝ) (ρ' : String → ℂ), symbols.length = ps.length → Assigns symbols ps ρ ρ' → Unitary ρ' circuit →
        ∃ v, (Cost.createCostFunction (exactMethod sim ρ false) (Cost.expectationValueFactory ([⟨H, circuit, none⟩], symbols)) [] st ps).1 = .ok ⟨v, none⟩ ∧
          (L.head hL).re ≤ v ∧ v ≤ (L.getLast hL).re ∧
          (v = (L.head hL).re ↔ opMatrix circuit.n H *ᵥ outputState ρ' circuit = L.head hL • outputState ρ' circuit) := by
  obtain ⟨symbols, c1, -, -, c4⟩ := exactCost_spec sim ρ hsim order ho key hk h circuit hb hbind st
  have hH : (opMatrix circuit.n H).IsHermitian := Stat.opMatrix_hermitian hreal
  obtain ⟨L, l1, l2⟩ := Spectrum.eigenspectrum_qubit h1 h2 h (some circuit.n) circuit.n rfl (Expect.countQubit_le _ _ hb) (Or.inl hH)
  have hL : L ≠ [] := by
    intro e
    have := l2.length
    rw [e, List.length_nil] at this
    exact absurd this.symm Fintype.card_ne_zero
  obtain ⟨r1, r2⟩ := l2.real hH
  have hhead : ∀ z ∈ L, (L.head hL).re ≤ z.re := by
    intro z hz
    cases L with
    | nil => exact absurd rfl hL
    | cons a L =>
      rcases List.mem_cons.1 hz with rfl | hz
      · exact le_rfl
      · exact (List.pairwise_cons.1 r2).1 z hz
  have hlast : ∀ z ∈ L, z.re ≤ (L.getLast hL).re := by
    intro z hz
    rw [← List.dropLast_append_getLast hL] at hz r2
    rcases List.mem_append.1 hz with hz | hz
    · exact (List.pairwise_append.1 r2).2.2 z hz _ (by simp)
    · rw [List.mem_singleton.1 hz]
  have hre : L.head hL = ((L.head hL).re : ℂ) := Complex.ext (by simp) (by simpa using r1 _ (List.head_mem hL))
  have hlow : ∀ (μ : ℝ) (w : (Fin circuit.n → Bool) → ℂ), w ≠ 0 → opMatrix circuit.n H *ᵥ w = (μ : ℂ) • w → (L.head hL).re ≤ μ :=
    fun μ w hw he => by simpa using hhead _ (spectrum_mem l2 hw he)
  refine ⟨symbols, L, hL, c1, l1, fun ps ρ' hl ha hu => ⟨_, c4 ps ρ' hl ha hu, ?_, ?_, ?_⟩⟩
  · have := lowest_le hH hlow (outputState ρ' circuit)
    rw [output_unit hu, Complex.one_re, mul_one] at this
    exact this
  · have := lowest_le (A := -opMatrix circuit.n H) (e := -(L.getLast hL).re) hH.neg (fun μ w hw he => by
      have h5 : opMatrix circuit.n H *ᵥ w = ((-μ : ℝ) : ℂ) • w := by
        rw [Matrix.neg_mulVec] at he
        rw [Complex.ofReal_neg, neg_smul, ← he, neg_neg]
      have := hlast _ (spectrum_mem l2 hw h5)
      rw [Complex.ofReal_re] at this
      linarith) (outputState ρ' circuit)
    rw [output_unit hu, Complex.one_re, mul_one, Matrix.neg_mulVec, Ground.inner, dotProduct_neg, Complex.neg_re] at this
    exact neg_le_neg_iff.1 this
  · rw [hre]
    simp only [Complex.ofReal_re]
    exact lowest_attained hH hlow (output_unit hu)

/-! ## Non-vacuity -/

/-- The circuits of the mock ansatz are unitary if its parameters are real. -/
theorem mock_unitary (L n : ℕ) (hn : 0 < n) {ρ : String → ℂ} (hρ : ∀ s, (ρ s).im = 0) : Unitary ρ ⟨Ansatz.layersOf n ((List.range L).map fun i => .sym (Ansatz.theta i)), n⟩ := by
  refine ⟨(Ansatz.mock_bindable L n hn).1, fun op hop => ?_, fun op hop => ?_⟩ <;>
  · obtain ⟨a, ha, h⟩ := List.mem_flatMap.1 hop
    obtain ⟨i, -, rfl⟩ := List.mem_map.1 ha
    obtain ⟨q, hq, rfl⟩ := List.mem_map.1 h
    first
    | exact ⟨by simp, by simp, by simpa using hq, rfl, builtin_wf _ (by simp [builtinGates, parametricGates]) _⟩
    | exact Gates.builtin_unitary _ (by simp [builtinGates, parametricGates]) [.sym (Ansatz.theta i)] ρ (by
        intro p hp
        rw [List.mem_singleton.1 hp]
        exact hρ _)

/-- A stored operator, routines, a simulator, an order and a circuit with three parameters that meet the hypotheses of `vqe_bound`. -/
example : ∃ (types : Terms Letter → Term Letter → Bool) (eigh : Mat ℂ → Eigen) (fs : FS) (sim : Simulator Unit) (circuit : Circuit), Fit types ∧ Solves eigh ∧
    Stores fs "h.json".toList 2 0 firstOne (fun _ => 0) ∧ Hermitian 2 firstOne (fun _ => 0) ∧
    EntriesOn 2 (16 * (1 / 16)) 0 firstOne (fun _ => 0) ∧ Involved (polyAction (interaction 2 0 firstOne fun _ => 0)) 1 ∧
    Correct sim (fun _ => 0) ∧ Cost.IsSetOrder id ∧ (∀ x, Sorting.Alternating (Sorting.naturalKey x)) ∧ circuit.n = 1 ∧ Ansatz.Bindable circuit ∧ circuit.ops.length = 3 ∧
    Unitary (fun _ => 1) circuit := by
  obtain ⟨S, s1, s2⟩ := exists_solver
  obtain ⟨fs, hfs⟩ := stores_exists (fun _ => none) "h.json" 2 (by norm_num) 0 firstOne fun _ => 0
  exact ⟨fun _ _ => true, S, fs, ⟨fun _ => true, fun w sub v => (applyAll (fun _ => 0) sub.ops v, w)⟩, _, fun _ _ _ h => (nomatch h), s1, hfs, firstOne_hermitian, firstOne_entries,
    firstOne_involved, fun _ _ _ => rfl, fun _ => .refl _, Sorting.naturalKey_alternating, rfl, Ansatz.mock_bindable 3 1 one_pos, rfl, mock_unitary 3 1 one_pos fun _ => Complex.one_im⟩

/-- An operator for `spectrum_bound`: `Z₀ - 2 X₁`. -/
example : CanonicalOp [([(0, Letter.Z)], (1 : ℂ)), ([(1, .X)], -2)] ∧ Below 2 [([(0, Letter.Z)], (1 : ℂ)), ([(1, .X)], -2)] ∧
    ∀ kv ∈ [([(0, Letter.Z)], (1 : ℂ)), ([(1, Letter.X)], -2)], kv.2.im = 0 := by
  refine ⟨⟨by simp [WF, PyDict.keys], fun t ht => ?_⟩, fun kv hkv => ?_, fun kv hkv => ?_⟩
  · simp only [PyDict.keys, List.map_cons, List.map_nil, List.mem_cons, List.not_mem_nil, or_false] at ht
    rcases ht with rfl | rfl <;> exact ⟨by simp, by simp⟩
  · simp only [List.mem_cons, List.not_mem_nil, or_false] at hkv
    rcases hkv with rfl | rfl <;> simp
  · simp only [List.mem_cons, List.not_mem_nil, or_false] at hkv
    rcases hkv with rfl | rfl <;> simp

end ZQ.Variational
