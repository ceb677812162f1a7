import Verif.Props.Statistics

/-!
# C103: from an operator and a circuit to the estimate
-/

namespace ZQ.Stat

open ZQ ZQ.PyDict ZQ.Op ZQ.Circuits ZQ.Gates ZQ.Est ZQ.Expect ZQ.Backend MeasureTheory ProbabilityTheory Matrix

/-! ### Context selection -/

/-- Specification: a task whose terms can be measured together. -/
structure Groupable (ρ : String → ℂ) (t : Task) : Prop where
  canonical : CanonicalOp t.operator
  together : ∀ s ∈ keys t.operator, ∀ u ∈ keys t.operator, CoMeasurable s u
  big : ∀ kv ∈ t.operator, 1 / 10 ^ 8 ≤ ‖kv.2‖
  real : ∀ kv ∈ t.operator, kv.2.im = 0
  below : Below t.circuit.n t.operator
  unitary : Unitary ρ t.circuit
  qubits : 0 < t.circuit.n
  shots : ∃ s : ℕ, 0 < s ∧ t.shots = some (s : ℤ)

theorem appendOps_size {n : ℕ} : ∀ (ops : List GateOp) (c c' : Circuit), appendOps c ops = .ok c' → c.Inv → c.n ≤ n → (∀ op ∈ ops, op.qubits ≠ [] ∧ ∀ q ∈ op.qubits, q < n) →
    c'.Inv ∧ c'.n ≤ n := by
  intro ops
  induction ops with
  | nil => intro c c' h hi hn _; cases h; exact ⟨hi, hn⟩
  | cons o ops ih =>
    intro c c' h hi hn ho
    obtain ⟨h1, h2⟩ := ho o (by simp)
    cases hm : o.qubits.max? with
    | none => exact absurd (List.max?_eq_none_iff.1 hm) h1
    | some m =>
      rw [appendOps, append_op c o m hm] at h
      refine ih _ c' h (fun h0 => absurd h0 (by dsimp only; omega)) ?_ fun op hop => ho op (by simp [hop])
      have := h2 m (List.max?_mem hm)
      dsimp only
      omega

theorem contextGate_ok {n : ℕ} (ρ : String → ℂ) {f : ℕ × Letter} (hf : f.1 < n) : ∀ op ∈ contextGate f, op.Valid n ∧ UnitaryOp ρ op := by
  obtain ⟨q, a⟩ := f
  intro op hop
  cases a
  · exact absurd hop (by simp [contextGate])
  · rw [contextGate, List.mem_singleton] at hop
    subst hop
    refine ⟨⟨by simp, by simp, by simpa using hf, rfl, builtin_wf _ (by simp [builtinGates, parametricGates]) _⟩, ?_⟩
    exact builtin_unitary _ (by simp [builtinGates, parametricGates]) [.num (((-Real.pi / 2 : ℝ)) : ℂ)] ρ (by
      intro p hp
      rw [List.mem_singleton.1 hp]
      exact Complex.ofReal_im _)
  · rw [contextGate, List.mem_singleton] at hop
    subst hop
    refine ⟨⟨by simp, by simp, by simpa using hf, rfl, builtin_wf _ (by simp [builtinGates, parametricGates]) _⟩, ?_⟩
    exact builtin_unitary _ (by simp [builtinGates, parametricGates]) [.num (((Real.pi / 2 : ℝ)) : ℂ)] ρ (by
      intro p hp
      rw [List.mem_singleton.1 hp]
      exact Complex.ofReal_im _)
  · exact absurd hop (by simp [contextGate])

theorem contextSelection_circuit {o : Terms Letter} (h : CanonicalOp o) (hco : ∀ s ∈ keys o, ∀ t ∈ keys o, CoMeasurable s t) {c : Circuit} {D : Terms Letter}
    (hr : contextSelection o = .ok (c, D)) {n : ℕ} (hn : Below n o) (ρ : String → ℂ) : c.Inv ∧ c.n ≤ n ∧ ∀ op ∈ c.ops, op.Valid n ∧ UnitaryOp ρ op := by
  have hcan : ∀ kv ∈ o, Canonical kv.1 := fun kv hkv => h.2 kv.1 (List.mem_map_of_mem hkv)
  obtain ⟨ctx, h1, h2, h3⟩ := contextLoop_ok o [] [] hcan (by simp [GoodContext]) (by simp)
    (fun kv hkv kv' hkv' => hco _ (List.mem_map_of_mem hkv) _ (List.mem_map_of_mem hkv'))
  have hctx : ∀ op ∈ ctx.flatMap contextGate, op.Valid n ∧ UnitaryOp ρ op := by
    intro op hop
    obtain ⟨f, hf, hop⟩ := List.mem_flatMap.1 hop
    refine contextGate_ok ρ ?_ op hop
    rcases (h3 f).1 hf with hf | ⟨kv, hkv, hf⟩
    · simp at hf
    · exact hn kv hkv f hf
  obtain ⟨c', h4, h5⟩ := appendOps_spec (ctx.flatMap contextGate) ⟨[], 0⟩ fun op hop => (hctx op hop).1.1
  have h6 := appendOps_size (n := n) _ _ _ h4 (fun _ => rfl) (Nat.zero_le _) fun op hop => ⟨(hctx op hop).1.1, (hctx op hop).1.2.2.1⟩
  have : contextSelection o = .ok (c', o.foldl (fun acc kv => Op.add acc [(zTerm kv.1, kv.2)]) []) := by
    rw [contextSelection]
    show (contextLoop o [] [] >>= _) = _
    rw [h1]
    show (appendOps ⟨[], 0⟩ (ctx.flatMap contextGate) >>= _) = _
    rw [h4]
    rfl
  rw [hr] at this
  injection this with this
  obtain ⟨rfl, -⟩ := Prod.mk.inj this
  refine ⟨h6.1, h6.2, ?_⟩
  rw [h5]
  exact hctx

theorem canonical_zTerm {t : Term Letter} (h : Canonical t) : Canonical (zTerm t) := by
  refine ⟨by rw [zTerm_fst]; exact h.1, fun f hf => ?_⟩
  obtain ⟨g, -, rfl⟩ := List.mem_map.1 hf
  simp

theorem braket_conj {ι : Type} [Fintype ι] (ψ : ι → ℂ) (U A : Matrix ι ι ℂ) : braket (U *ᵥ ψ) A = braket ψ (Uᴴ * A * U) := by
  unfold braket
  rw [Matrix.star_mulVec, ← Matrix.dotProduct_mulVec, Matrix.mulVec_mulVec, Matrix.mulVec_mulVec, Matrix.mul_assoc]

/-- C103. Context selection keeps what is estimated: after it, each task is ready for measurement, with the same shots, and its operator has the same mean and the same
variance in the state of its circuit as before. -/
theorem contextSelected {ρ : String → ℂ} {tasks : List Task} (h : ∀ t ∈ tasks, Groupable ρ t) :
    ∃ out, performContextSelection tasks = .ok out ∧
      List.Forall₂ (fun t u => Ready ρ u ∧ u.shots = t.shots ∧ exactMean ρ u = exactMean ρ t ∧ exactVar ρ u = exactVar ρ t) tasks out := by
  have key : ∀ t, Groupable ρ t → ∃ u, (∃ c, contextSelection t.operator = .ok (c, u.operator) ∧ append t.circuit (.circuit c) = .ok u.circuit ∧ u.shots = t.shots) ∧
      (Ready ρ u ∧ u.shots = t.shots ∧ exactMean ρ u = exactMean ρ t ∧ exactVar ρ u = exactVar ρ t) := by
    intro t ht
    obtain ⟨c, D, h1, h2, h3⟩ := contextSelection_spec ht.canonical ht.together
    obtain ⟨i1, i2, i3⟩ := contextSelection_circuit ht.canonical ht.together h1 ht.below ρ
    obtain ⟨u1, u2⟩ := h3 t.circuit.n ρ ht.below
    rw [bigTerms_eq_self ht.big] at h2 u2
    have happ := append_circuit t.circuit c ht.unitary.1 i1
    rw [max_eq_left i2] at happ
    have hkeys : keys D = (keys t.operator).map zTerm := by
      rw [h2, keys, keys, List.map_map, List.map_map]; rfl
    have hD : ∀ kv ∈ D, ∃ kv' ∈ t.operator, kv = (zTerm kv'.1, kv'.2) := by
      intro kv hkv
      rw [h2] at hkv
      obtain ⟨kv', h', rfl⟩ := List.mem_map.1 hkv
      exact ⟨kv', h', rfl⟩
    have hstate : outputState ρ ⟨t.circuit.ops ++ c.ops, t.circuit.n⟩ = opsOperator t.circuit.n ρ c.ops *ᵥ outputState ρ t.circuit := by
      show opsOperator t.circuit.n ρ (t.circuit.ops ++ c.ops) *ᵥ _ = opsOperator t.circuit.n ρ c.ops *ᵥ (opsOperator t.circuit.n ρ t.circuit.ops *ᵥ _)
      rw [opsOperator_append, Matrix.mulVec_mulVec]
    have u1' := mul_eq_one_comm.1 u1
    have hsq : (opsOperator t.circuit.n ρ c.ops)ᴴ * (opMatrix t.circuit.n D * opMatrix t.circuit.n D) * opsOperator t.circuit.n ρ c.ops =
        opMatrix t.circuit.n t.operator * opMatrix t.circuit.n t.operator := by
      rw [← u2]
      calc _ = (opsOperator t.circuit.n ρ c.ops)ᴴ * (opMatrix t.circuit.n D * 1 * opMatrix t.circuit.n D) * opsOperator t.circuit.n ρ c.ops := by rw [Matrix.mul_one]
        _ = _ := by rw [← u1']; simp only [Matrix.mul_assoc]
    have hm : exactMean ρ ⟨D, ⟨t.circuit.ops ++ c.ops, t.circuit.n⟩, t.shots⟩ = exactMean ρ t := by
      show (braket (outputState ρ ⟨t.circuit.ops ++ c.ops, t.circuit.n⟩) (opMatrix t.circuit.n D)).re = _
      rw [hstate, braket_conj, u2]
      rfl
    refine ⟨⟨D, ⟨t.circuit.ops ++ c.ops, t.circuit.n⟩, t.shots⟩, ⟨c, h1, happ, rfl⟩, ⟨?_, ?_, ?_, ?_, ?_, ?_, ht.qubits, ht.shots⟩, rfl, hm, ?_⟩
    · refine ⟨?_, ?_⟩
      · show (keys D).Nodup
        rw [hkeys]
        exact List.Nodup.map_on (fun s hs u hu => zTerm_injOn (ht.canonical.2 s hs) (ht.canonical.2 u hu) (ht.together s hs u hu)) ht.canonical.1
      · intro s hs
        have hs : s ∈ keys D := hs
        rw [hkeys] at hs
        obtain ⟨s', h', rfl⟩ := List.mem_map.1 hs
        exact canonical_zTerm (ht.canonical.2 s' h')
    · intro s hs
      have hs : s ∈ keys D := hs
      rw [hkeys] at hs
      obtain ⟨s', h', rfl⟩ := List.mem_map.1 hs
      intro f hf
      obtain ⟨g, -, rfl⟩ := List.mem_map.1 hf
      rfl
    · intro kv hkv
      obtain ⟨kv', h', rfl⟩ := hD kv hkv
      exact ht.big kv' h'
    · intro kv hkv
      obtain ⟨kv', h', rfl⟩ := hD kv hkv
      exact ht.real kv' h'
    · intro kv hkv f hf
      obtain ⟨kv', h', rfl⟩ := hD kv hkv
      obtain ⟨g, hg, rfl⟩ := List.mem_map.1 hf
      exact ht.below kv' h' g hg
    · refine ⟨fun h0 => absurd h0 ht.qubits.ne', fun op hop => ?_, fun op hop => ?_⟩
      · rcases List.mem_append.1 hop with hop | hop
        · exact ht.unitary.2.1 op hop
        · exact (i3 op hop).1
      · rcases List.mem_append.1 hop with hop | hop
        · exact ht.unitary.2.2 op hop
        · exact (i3 op hop).2
    · have hm' := hm
      unfold exactMean at hm'
      unfold exactVar qvar
      rw [hm']
      congr 1
      show (braket (outputState ρ ⟨t.circuit.ops ++ c.ops, t.circuit.n⟩) (opMatrix t.circuit.n D * opMatrix t.circuit.n D)).re = _
      rw [hstate, braket_conj, hsq]
  suffices ∃ out, List.Forall₂ (fun t u => (∃ c, contextSelection t.operator = .ok (c, u.operator) ∧ append t.circuit (.circuit c) = .ok u.circuit ∧ u.shots = t.shots) ∧
      (Ready ρ u ∧ u.shots = t.shots ∧ exactMean ρ u = exactMean ρ t ∧ exactVar ρ u = exactVar ρ t)) tasks out by
    obtain ⟨out, hout⟩ := this
    exact ⟨out, (performContextSelection_spec tasks out).2 (hout.imp fun _ _ h => h.1), hout.imp fun _ _ h => h.2⟩
  induction tasks with
  | nil => exact ⟨[], .nil⟩
  | cons t tasks ih =>
    obtain ⟨out, hout⟩ := ih fun t ht => h t (by simp [ht])
    obtain ⟨u, hu⟩ := key t (h t (by simp))
    exact ⟨u :: out, .cons hu hout⟩

/-! ### The whole way -/

theorem braket_perm {n : ℕ} (ψ : (Fin n → Bool) → ℂ) {a b : Terms Letter} (h : a.Perm b) : braket ψ (opMatrix n a) = braket ψ (opMatrix n b) := by
  rw [braket_opMatrix, braket_opMatrix]
  exact (h.map _).sum_eq

theorem braket_flatten {n : ℕ} (ψ : (Fin n → Bool) → ℂ) (gs : List (Terms Letter)) :
    (braket ψ (opMatrix n gs.flatten)).re = (gs.map fun g => (braket ψ (opMatrix n g)).re).sum := by
  induction gs with
  | nil => rw [braket_opMatrix]; simp
  | cons g gs ih =>
    rw [List.flatten_cons, List.map_cons, List.sum_cons, ← ih, braket_opMatrix, List.map_append, List.sum_append, ← braket_opMatrix, ← braket_opMatrix, Complex.add_re]

/-- Tasks that measure the groups `gs` of an operator, all with the circuit `c`. -/
theorem pipeline {ρ : String → ℂ} {c : Circuit} (hc : Unitary ρ c) (hq : 0 < c.n) {gs : List (Terms Letter)} (s : ℕ) (hs : 0 < s)
    (hg : ∀ g ∈ gs, CanonicalOp g ∧ (∀ t ∈ keys g, ∀ u ∈ keys g, CoMeasurable t u) ∧ (∀ kv ∈ g, 1 / 10 ^ 8 ≤ ‖kv.2‖) ∧ (∀ kv ∈ g, kv.2.im = 0) ∧ Below c.n g) :
    ∃ out, performContextSelection (gs.map fun g => ⟨g, c, some (s : ℤ)⟩) = .ok out ∧ (∀ u ∈ out, Ready ρ u) ∧
      ∀ {Ω : Type} [MeasurableSpace Ω] (P : Measure Ω) [IsProbabilityMeasure P] {run : Ω → Runner}
        {draw : (k : Fin (measuredTasks out).length) → Fin (shotsOf (measuredTasks out)[k]) → Ω → (Fin (measuredTasks out)[k].circuit.n → Bool)},
        Returns run (measuredTasks out) draw → Measures P ρ (measuredTasks out) draw →
        ∃ X : Ω → ℝ, (∀ ω, ∃ r, estimateByAveraging (run ω) out = .ok r ∧ r.length = out.length ∧ (∀ e ∈ r, e ≠ none) ∧ total r = X ω) ∧ MemLp X 2 P ∧
          P[X] = (gs.map fun g => (braket (outputState ρ c) (opMatrix c.n g)).re).sum ∧
          Var[X; P] = (gs.map fun g => qvar (outputState ρ c) (opMatrix c.n g)).sum / s := by
  obtain ⟨out, h1, h2⟩ := contextSelected (ρ := ρ) (tasks := gs.map fun g => ⟨g, c, some (s : ℤ)⟩) (by
    intro t ht
    obtain ⟨g, hgm, rfl⟩ := List.mem_map.1 ht
    obtain ⟨a, b, d, e, f⟩ := hg g hgm
    exact ⟨a, b, d, e, f, hc, hq, s, hs, rfl⟩)
  have key : ∀ {gs : List (Terms Letter)} {out : List Task},
      List.Forall₂ (fun g u => Ready ρ u ∧ u.shots = some (s : ℤ) ∧ exactMean ρ u = exactMean ρ ⟨g, c, some (s : ℤ)⟩ ∧ exactVar ρ u = exactVar ρ ⟨g, c, some (s : ℤ)⟩) gs out →
      (∀ u ∈ out, Ready ρ u) ∧ (out.map (exactMean ρ)).sum = (gs.map fun g => (braket (outputState ρ c) (opMatrix c.n g)).re).sum ∧
        (out.map fun u => exactVar ρ u / shotsOf u).sum = (gs.map fun g => qvar (outputState ρ c) (opMatrix c.n g)).sum / s := by
    intro gs out h
    induction h with
    | nil => simp
    | @cons g u gs out hgu _ ih =>
      obtain ⟨a1, a2, a3⟩ := ih
      obtain ⟨b1, b2, b3, b4⟩ := hgu
      refine ⟨?_, ?_, ?_⟩
      · intro v hv
        rcases List.mem_cons.1 hv with rfl | hv
        · exact b1
        · exact a1 v hv
      · rw [List.map_cons, List.sum_cons, a2, b3]; rfl
      · rw [List.map_cons, List.sum_cons, a3, b4, List.map_cons, List.sum_cons, add_div, show shotsOf u = s by rw [shotsOf, b2]; rfl]
        rfl
  rw [List.forall₂_map_left_iff] at h2
  obtain ⟨hready, k1, k2⟩ := key h2
  refine ⟨out, h1, hready, ?_⟩
  intro Ω _ P _ run draw hrun hdraw
  obtain ⟨X, x1, x2, x3, x4⟩ := averaging_statistics P hready hrun hdraw
  exact ⟨X, x1, x2, by rw [x3, k1], by rw [x4, k2]⟩

theorem group_ok {H g : Terms Letter} {n : ℕ} (h : CanonicalOp H) (hbig : ∀ kv ∈ H, 1 / 10 ^ 8 ≤ ‖kv.2‖) (hreal : ∀ kv ∈ H, kv.2.im = 0) (hb : Below n H)
    (hsub : ∀ kv ∈ g, kv ∈ H) (hnd : (keys g).Nodup) :
    CanonicalOp g ∧ (∀ kv ∈ g, 1 / 10 ^ 8 ≤ ‖kv.2‖) ∧ (∀ kv ∈ g, kv.2.im = 0) ∧ Below n g := by
  refine ⟨⟨hnd, fun t ht => ?_⟩, fun kv hkv => hbig kv (hsub kv hkv), fun kv hkv => hreal kv (hsub kv hkv), fun kv hkv => hb kv (hsub kv hkv)⟩
  obtain ⟨kv, hkv, rfl⟩ := List.mem_map.1 ht
  exact h.2 _ (List.mem_map_of_mem (hsub kv hkv))

/-- C103. From an operator and a circuit to the estimate of the energy: the operator's terms are grouped greedily, each group gets `s` shots and its basis change, and the
measurements are averaged.  For all real operators, unitary circuits, numbers of shots and sortings, no step fails, the mean of the sum of the estimates is `⟨ψ|H|ψ⟩` and its variance
is the sum of the groups' variances in the state `ψ` of the circuit, divided by `s`. -/
theorem greedy_estimate {ρ : String → ℂ} {c : Circuit} (hc : Unitary ρ c) (hq : 0 < c.n) {H : Terms Letter} (h : CanonicalOp H)
    (hbig : ∀ kv ∈ H, 1 / 10 ^ 8 ≤ ‖kv.2‖) (hreal : ∀ kv ∈ H, kv.2.im = 0) (hb : Below c.n H) (sortTerms : Bool) (s : ℕ) (hs : 0 < s) :
    ∃ tasks out, allocateUniformly (groupGreedily [⟨H, c, none⟩] sortTerms) s = .ok tasks ∧ performContextSelection tasks = .ok out ∧ (∀ u ∈ out, Ready ρ u) ∧
      ∀ {Ω : Type} [MeasurableSpace Ω] (P : Measure Ω) [IsProbabilityMeasure P] {run : Ω → Runner}
        {draw : (k : Fin (measuredTasks out).length) → Fin (shotsOf (measuredTasks out)[k]) → Ω → (Fin (measuredTasks out)[k].circuit.n → Bool)},
        Returns run (measuredTasks out) draw → Measures P ρ (measuredTasks out) draw →
        ∃ X : Ω → ℝ, (∀ ω, ∃ r, estimateByAveraging (run ω) out = .ok r ∧ r.length = out.length ∧ (∀ e ∈ r, e ≠ none) ∧ total r = X ω) ∧ MemLp X 2 P ∧
          P[X] = (braket (outputState ρ c) (opMatrix c.n H)).re ∧
          Var[X; P] = ((groupGreedy H sortTerms).map fun g => qvar (outputState ρ c) (opMatrix c.n g)).sum / s := by
  have hpart := groupGreedy_partition h sortTerms hbig
  have hnd : ∀ g ∈ groupGreedy H sortTerms, (keys g).Nodup := by
    intro g hg
    have : (keys (groupGreedy H sortTerms).flatten).Nodup := (hpart.map Prod.fst).nodup_iff.2 h.1
    exact this.sublist ((List.sublist_flatten_of_mem hg).map Prod.fst)
  have hall : ∀ g ∈ groupGreedy H sortTerms, CanonicalOp g ∧ (∀ t ∈ keys g, ∀ u ∈ keys g, CoMeasurable t u) ∧ (∀ kv ∈ g, 1 / 10 ^ 8 ≤ ‖kv.2‖) ∧
      (∀ kv ∈ g, kv.2.im = 0) ∧ Below c.n g := by
    intro g hg
    obtain ⟨a, b, d, e⟩ := group_ok h hbig hreal hb (fun kv hkv => hpart.mem_iff.1 (List.mem_flatten.2 ⟨g, hg, hkv⟩)) (hnd g hg)
    exact ⟨a, ((groupGreedy_spec h sortTerms).2.1 g hg).2, b, d, e⟩
  obtain ⟨out, h1, hr, h2⟩ := pipeline hc hq s hs hall
  refine ⟨_, out, (allocateUniformly_spec _ _).1 (by exact_mod_cast hs), ?_, hr, ?_⟩
  · rw [← h1, groupGreedily]
    simp [Function.comp_def]
  · intro Ω _ P _ run draw hrun hdraw
    obtain ⟨X, x1, x2, x3, x4⟩ := h2 P hrun hdraw
    exact ⟨X, x1, x2, by rw [x3, ← braket_flatten, braket_perm _ hpart], x4⟩

theorem qvar_term {n : ℕ} {ψ : (Fin n → Bool) → ℂ} (hn : ∑ x, Complex.normSq (ψ x) = 1) (kv : Term Letter × ℂ) (hreal : kv.2.im = 0) :
    qvar ψ (opMatrix n [kv]) = kv.2.re ^ 2 * (1 - (braket ψ (pauliString n kv.1)).re ^ 2) := by
  have h1 : opMatrix n [kv] = kv.2 • pauliString n kv.1 := by simp [opMatrix]
  have h2 : kv.2 = ((kv.2.re : ℝ) : ℂ) := Complex.ext rfl (by simpa using hreal)
  have hone : braket ψ 1 = 1 := by
    have := braket_diagonal ψ fun _ => 1
    rw [show (Matrix.diagonal fun _ : Fin n → Bool => ((1 : ℝ) : ℂ)) = 1 by simp] at this
    rw [this]
    simp [hn]
  rw [qvar, h1, Matrix.smul_mul, Matrix.mul_smul, Evol.pauliString_sq, braket_smul, braket_smul, braket_smul, hone, mul_one, h2, ← Complex.ofReal_mul, Complex.ofReal_re,
    Complex.re_ofReal_mul, Complex.ofReal_re]
  ring

/-- C103. The same with every term measured on its own: the variance is `∑ c² (1 - ⟨P⟩²) / s` over the terms `c P`. -/
theorem individual_estimate {ρ : String → ℂ} {c : Circuit} (hc : Unitary ρ c) (hq : 0 < c.n) {H : Terms Letter} (h : CanonicalOp H)
    (hbig : ∀ kv ∈ H, 1 / 10 ^ 8 ≤ ‖kv.2‖) (hreal : ∀ kv ∈ H, kv.2.im = 0) (hb : Below c.n H) (s : ℕ) (hs : 0 < s) :
    ∃ tasks out, allocateUniformly (groupIndividually [⟨H, c, none⟩]) s = .ok tasks ∧ performContextSelection tasks = .ok out ∧ (∀ u ∈ out, Ready ρ u) ∧
      ∀ {Ω : Type} [MeasurableSpace Ω] (P : Measure Ω) [IsProbabilityMeasure P] {run : Ω → Runner}
        {draw : (k : Fin (measuredTasks out).length) → Fin (shotsOf (measuredTasks out)[k]) → Ω → (Fin (measuredTasks out)[k].circuit.n → Bool)},
        Returns run (measuredTasks out) draw → Measures P ρ (measuredTasks out) draw →
        ∃ X : Ω → ℝ, (∀ ω, ∃ r, estimateByAveraging (run ω) out = .ok r ∧ r.length = out.length ∧ (∀ e ∈ r, e ≠ none) ∧ total r = X ω) ∧ MemLp X 2 P ∧
          P[X] = (braket (outputState ρ c) (opMatrix c.n H)).re ∧
          Var[X; P] = (H.map fun kv => kv.2.re ^ 2 * (1 - (braket (outputState ρ c) (pauliString c.n kv.1)).re ^ 2)).sum / s := by
  obtain ⟨out, h1, hr, h2⟩ := pipeline hc hq s hs (gs := H.map fun kv => [kv]) (by
    intro g hg
    obtain ⟨kv, hkv, rfl⟩ := List.mem_map.1 hg
    obtain ⟨a, b, d, e⟩ := group_ok (g := [kv]) h hbig hreal hb (by simpa using hkv) (by simp [keys])
    refine ⟨a, ?_, b, d, e⟩
    intro t ht u hu q x y hx hy
    simp only [keys, List.map_cons, List.map_nil, List.mem_singleton] at ht hu
    subst ht
    subst hu
    have hnd := (h.2 _ (List.mem_map_of_mem hkv)).nodup
    exact congrArg Prod.snd (List.inj_on_of_nodup_map hnd hx hy rfl))
  refine ⟨_, out, (allocateUniformly_spec _ _).1 (by exact_mod_cast hs), ?_, hr, ?_⟩
  · rw [← h1, groupIndividually_spec _ (by simpa using h)]
    simp [Function.comp_def]
  · intro Ω _ P _ run draw hrun hdraw
    obtain ⟨X, x1, x2, x3, x4⟩ := h2 P hrun hdraw
    refine ⟨X, x1, x2, ?_, ?_⟩
    · rw [x3, ← braket_flatten]
      congr 3
      simp [← List.flatMap_def]
    · rw [x4, List.map_map]
      congr 2
      exact List.map_congr_left fun kv hkv => qvar_term (output_normalised hc) kv (hreal kv hkv)

end ZQ.Stat
