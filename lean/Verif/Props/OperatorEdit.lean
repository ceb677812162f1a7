import Verif.Props.ModeOrder
import Verif.Props.Inactive
import Verif.Props.NumberConserving
import Verif.Props.Reorder

/-!
# C122: steps that rewrite operators in files
-/

namespace ZQ.OperatorEdit

open ZQ ZQ.Op ZQ.PolyT ZQ.Files ZQ.ArraySerde ZQ.Results ZQ.JWInt ZQ.Ground ZQ.Workflow ZQ.Sparse Matrix

/-- The types of arrays fit their entries: real types are given to real numbers only. -/
def FitArrays (types : List ℂ → Bool) : Prop := ∀ l, types l = false → ∀ z ∈ l, z.im = 0

theorem arrayFrom_valid {types : List ℂ → Bool} (hT : FitArrays types) (n d : ℕ) (t : Tensor) : (arrayFrom n d t (types ((allIndices n d).map t))).Valid :=
  ⟨by rw [arrayFrom, List.length_map, length_allIndices, List.prod_replicate], fun h => hT _ h⟩

/-- A saved interaction operator is stored. -/
theorem save_stores {types : List ℂ → Bool} (hT : FitArrays types) (fs : FS) (name : String) (n : ℕ) (c : ℂ) (one two : Tensor) :
    ∃ fs', save fs name (interactionArtefact types (interaction n c one two)) = .ok fs' ∧ Stores fs' name.toList n c one two ∧ ∀ p, p ≠ name.toList → fs' p = fs p := by
  have hp : Plain (record (interactionArtefact types (interaction n c one two))) := plain_dict (by
    simp only [List.mem_cons, List.not_mem_nil, or_false, forall_eq_or_imp, forall_eq]
    exact ⟨plain_txt _, plain_array _, plain_array _, plain_array _⟩)
  obtain ⟨fs1, s1, s2, s3⟩ := save_spec fs name _ hp
  refine ⟨fs1, s1, ⟨_, s2, arrayFrom_valid hT n 2 one, rfl, arrayFrom_valid hT n 4 two, rfl, fun h => hT _ h _ (List.mem_singleton.2 rfl), rfl,
    fun i hi => entries_arrayFrom one _ hi, fun i hi => entries_arrayFrom two _ hi⟩, s3⟩

theorem stores_congr {fs : FS} {p : Str} {n : ℕ} {c : ℂ} {one two one' two' : Tensor} (h : Stores fs p n c one two) (h1 : ∀ i, InRange n 2 i → one i = one' i)
    (h2 : ∀ i, InRange n 4 i → two i = two' i) : Stores fs p n c one' two' := by
  obtain ⟨o, a1, a2, a3, a4, a5, a6, a7, a8, a9⟩ := h
  exact ⟨o, a1, a2, a3, a4, a5, a6, a7, fun i hi => (a8 i hi).trans (h1 i hi), fun i hi => (a9 i hi).trans (h2 i hi)⟩

theorem stores_file {fs fs' : FS} {p : Str} {n : ℕ} {c : ℂ} {one two : Tensor} (h : Stores fs p n c one two) (e : fs' p = fs p) : Stores fs' p n c one two := by
  obtain ⟨o, ⟨j, j1, j2⟩, a⟩ := h
  exact ⟨o, ⟨j, j1, by rw [e]; exact j2⟩, a⟩

/-! ## Reordering -/

theorem chosen_congr {n : ℕ} {l : List ℕ} (hl : ∀ k ∈ l, k < n) {d : ℕ} {t t' : Tensor} (h : ∀ i, InRange n d i → t' i = t i) {i : List ℕ} (hi : InRange l.length d i) :
    chosen l t' i = chosen l t i := by
  refine h _ ⟨by rw [List.length_map]; exact hi.1, fun k hk => ?_⟩
  obtain ⟨j, hj, rfl⟩ := List.mem_map.1 hk
  rw [List.getD_eq_getElem _ _ (hi.2 j hj)]
  exact hl _ (List.getElem_mem _)

theorem names_lt {n : ℕ} {ordering : List ℤ} {l : List ℕ} (h : List.Forall₂ (Names n) ordering l) : ∀ k ∈ l, k < n := by
  induction h with
  | nil => simp
  | cons h1 _ ih => exact fun k hk => (List.mem_cons.1 hk).elim (fun e => e ▸ h1.1) (ih k)

/-- **The step that reorders modes** writes the operator whose orbital `i` is the orbital that the `i`-th integer of the ordering names, whatever it names. -/
theorem reorder_step {types : List ℂ → Bool} (hT : FitArrays types) {fs : FS} {p : Str} {n : ℕ} (hn : 0 < n) {c : ℂ} {one two : Tensor} (h : Stores fs p n c one two)
    {ordering : List ℤ} {l : List ℕ} (hl : List.Forall₂ (Names n) ordering l) :
    ∃ fs', reorderStep types p ordering fs = .ok fs' ∧ Stores fs' "reordered-operator.json".toList l.length c (chosen l one) (chosen l two) ∧
      ∀ p, p ≠ "reordered-operator.json".toList → fs' p = fs p := by
  obtain ⟨one', two', h1, e1, e2⟩ := stores_load hn h
  obtain ⟨fs1, s1, s2, s3⟩ := save_stores hT fs "reordered-operator.json" l.length c (chosen l one') (chosen l two')
  refine ⟨fs1, ?_, stores_congr s2 (fun i hi => chosen_congr (names_lt hl) e1 hi) (fun i hi => chosen_congr (names_lt hl) e2 hi), s3⟩
  unfold reorderStep
  rw [h1]
  show (lift (reorderModes n c one' two' ordering) >>= fun T => save fs "reordered-operator.json" (interactionArtefact types T)) = _
  have : reorderModes n c one' two' ordering = .ok (interaction l.length c (chosen l one') (chosen l two')) := by
    show (ordering.mapM (axisIndex n) >>= fun l => Except.ok (interaction l.length c (chosen l one') (chosen l two'))) = _
    rw [mapM_names hl]; rfl
  rw [this]
  exact s1

/-- An integer that names no orbital is an `IndexError`. -/
theorem reorder_step_rejects (types : List ℂ → Bool) {fs : FS} {p : Str} {n : ℕ} (hn : 0 < n) {c : ℂ} {one two : Tensor} (h : Stores fs p n c one two)
    {ordering : List ℤ} {z : ℤ} (hz : z ∈ ordering) (hN : ∀ k, ¬ Names n z k) : reorderStep types p ordering fs = .error (.py .indexError) := by
  obtain ⟨one', two', h1, -, -⟩ := stores_load hn h
  unfold reorderStep
  rw [h1]
  show (lift (reorderModes n c one' two' ordering) >>= fun T => save fs "reordered-operator.json" (interactionArtefact types T)) = _
  rw [reorder_rejects c one' two' hz hN]; rfl

/-- **An ordering that names each orbital once**: the file has the operator up to the unitary change that relabels the modes, and the lowest energies at each number
of particles are the same. -/
theorem reorder_step_unitary {types : List ℂ → Bool} (hT : FitArrays types) {fs : FS} {p : Str} {n : ℕ} (hn : 0 < n) {c : ℂ} {one two : Tensor} (h : Stores fs p n c one two)
    {ordering : List ℤ} {l : List ℕ} (hl : List.Forall₂ (Names n) ordering l) (hp : l.Perm (List.range n)) :
    ∃ fs' one' two' π U, reorderStep types p ordering fs = .ok fs' ∧ Stores fs' "reordered-operator.json".toList n c one' two' ∧
      (∀ (i : ℕ) (hi : i < l.length), π i = l[i]) ∧ (∀ j, n ≤ j → π j = j) ∧ Relabels π U ∧
      U * polyAction (interaction n c one' two') = polyAction (interaction n c one two) * U ∧
      ∀ k e, (∃ ψ, GroundState (matrixOf n (polyAction (interaction n c one two))) k e ψ) ↔ ∃ ψ, GroundState (matrixOf n (polyAction (interaction n c one' two'))) k e ψ := by
  have hln : l.length = n := by rw [hp.length_eq, List.length_range]
  obtain ⟨fs', h1, h2, -⟩ := reorder_step hT hn h hl
  obtain ⟨T, π, U, t1, -, t3, t4, t5, t6⟩ := reorder_spec c one two hl hp
  have hT' : T = interaction n c (chosen l one) (chosen l two) := by
    have : reorderModes n c one two ordering = .ok (interaction l.length c (chosen l one) (chosen l two)) := by
      show (ordering.mapM (axisIndex n) >>= fun l => Except.ok (interaction l.length c (chosen l one) (chosen l two))) = _
      rw [mapM_names hl]; rfl
    rw [t1, hln] at this
    exact Except.ok.inj this
  rw [hln] at h2
  rw [hT'] at t6
  exact ⟨fs', _, _, π, U, h1, h2, t3, t4, t5, t6, fun k e => relabel_ground t5 t4 t6 k e⟩

theorem chosen_hermitian {n : ℕ} {l : List ℕ} (hl : ∀ k ∈ l, k < n) {one two : Tensor} (h : Hermitian n one two) : Hermitian l.length (chosen l one) (chosen l two) := by
  have hb : ∀ p < l.length, l.getD p 0 < n := fun p hp => by rw [List.getD_eq_getElem _ _ hp]; exact hl _ (List.getElem_mem _)
  exact ⟨fun p hp q hq => h.1 _ (hb p hp) _ (hb q hq), fun p hp q hq r hr s hs => h.2 _ (hb p hp) _ (hb q hq) _ (hb r hr) _ (hb s hs)⟩

theorem chosen_entries {n : ℕ} {l : List ℕ} (hl : ∀ k ∈ l, k < n) {one two : Tensor} {γ : ℝ} {c : ℂ} (h : EntriesOn n γ c one two) : EntriesOn l.length γ c (chosen l one) (chosen l two) := by
  have hb : ∀ p < l.length, l.getD p 0 < n := fun p hp => by rw [List.getD_eq_getElem _ _ hp]; exact hl _ (List.getElem_mem _)
  exact ⟨h.1, fun p hp q hq => h.2.1 _ (hb p hp) _ (hb q hq), fun p hp q hq r hr s hs => h.2.2 _ (hb p hp) _ (hb q hq) _ (hb r hr) _ (hb s hs)⟩

/-- **Energies after reordering**: reorder a stored Hermitian operator, transform the result and diagonalise it at `k` particles.  If the reordered operator involves its
last orbital, the value in the end is the lowest energy of the **stored** operator among the states with `k` particles.  Missing: reordered operators that do not
involve their last orbital (`reorder_value_counterexample`). -/
theorem reorder_value_partial {types : List ℂ → Bool} (hT : FitArrays types) {qtypes : Terms Letter → Term Letter → Bool} (hQ : Fit qtypes) (w : ℝ)
    {eigh eigsh : Mat ℂ → Eigen} (h1 : Solves eigh) (h2 : Solves eigsh) (h0 : ∀ A : Mat ℂ, A.rows = 0 → (eigh A).vecs.cols = 0) {fs : FS} {p : Str} {n : ℕ} (hn : 0 < n)
    {c : ℂ} {one two : Tensor} (h : Stores fs p n c one two) (hc : c.im = 0) (hH : Hermitian n one two) {δ : ℝ} (hδ : 1 / 10 ^ 8 ≤ δ) (hg : EntriesOn n (16 * δ) c one two)
    {ordering : List ℤ} {l : List ℕ} (hl : List.Forall₂ (Names n) ordering l) (hp : l.Perm (List.range n))
    (hlast : ¬ Idle (polyAction (interaction n c (chosen l one) (chosen l two))) (n - 1)) {k : ℕ} (hk : k ≤ n) :
    ∃ fs1 fs2 fs3 e, reorderStep types p ordering fs = .ok fs1 ∧ transformStep qtypes w "Jordan-Wigner" (.file "reordered-operator.json".toList) fs1 = .ok fs2 ∧
      groundStep eigh eigsh k (.file "transformed-operator.json".toList) fs2 = .ok fs3 ∧ loadValue fs3 (.str "value-estimate.json".toList) = .ok ⟨e, none⟩ ∧
      ∃ ψ, GroundState (matrixOf n (polyAction (interaction n c one two))) k e ψ := by
  have hln : l.length = n := by rw [hp.length_eq, List.length_range]
  obtain ⟨fs1, s1, s2, -⟩ := reorder_step hT hn h hl
  have e1 := chosen_hermitian (names_lt hl) hH
  have e2 := chosen_entries (names_lt hl) hg
  rw [hln] at s2 e1 e2
  obtain ⟨fs2, fs3, e, wf, ψ, g1, g2, g3, -, -, g6, -⟩ := workflow_energy_partial hQ w h1 h2 h0 hn s2 hc e1 hδ e2 hlast hk
  obtain ⟨σ, hσ⟩ := perm_of_list hp
  obtain ⟨U, hU⟩ := relabels_extend σ
  exact ⟨fs1, fs2, fs3, e, s1, g1, g2, g3, (relabel_ground hU (fun j hj => permExtend_ge σ hj) (relabel_interaction hσ hU c one two) k e).2 ⟨_, g6⟩⟩

theorem second_action : polyAction (interaction 2 0 (chosen [1, 0] firstOne) (chosen [1, 0] fun _ => 0)) = hop 1 1 := by
  rw [polyAction_interaction]
  simp [List.range_succ, firstOne, chosen]

theorem second_not_idle : ¬ Idle (hop 1 1) 1 := by
  intro hI
  have e : hop 1 1 = action pauliAction [([], 1 / 2), ([(1, .Z)], -1 / 2)] := by
    rw [action_cons, action_cons, action_nil, termAction_cons, termAction_nil, mul_one, z_eq]
    module
  rw [e] at hI
  have hc : CanonicalOp [(([] : Term Letter), (1 / 2 : ℂ)), ([(1, .Z)], -1 / 2)] := by
    refine ⟨by simp [WF, PyDict.keys], fun t ht => ?_⟩
    simp only [PyDict.keys, List.map_cons, List.map_nil, List.mem_cons, List.not_mem_nil, or_false] at ht
    rcases ht with rfl | rfl
    · exact ⟨by simp, by simp⟩
    · exact ⟨by simp, by simp⟩
  have := strings_of_idle hc hI (t := [(1, .Z)]) (by rw [coeff_of_mem hc.1 (c := -1 / 2) (by simp)]; norm_num)
  exact this (1, .Z) (by simp) rfl

/-- **Reordering changes the value that is computed in the end**, although the lowest energies are the same: for the operator that counts the particles in the first of
two orbitals, the value for one particle is 1 before and 0 after exchanging the two orbitals. -/
theorem reorder_value_counterexample {types : List ℂ → Bool} (hT : FitArrays types) {qtypes : Terms Letter → Term Letter → Bool} (hQ : Fit qtypes) (w : ℝ)
    {eigh eigsh : Mat ℂ → Eigen} (h1 : Solves eigh) (h2 : Solves eigsh) (h0 : ∀ A : Mat ℂ, A.rows = 0 → (eigh A).vecs.cols = 0) {fs : FS} {p : Str}
    (h : Stores fs p 2 0 firstOne fun _ => 0) :
    (∃ fs1 fs2, transformStep qtypes w "Jordan-Wigner" (.file p) fs = .ok fs1 ∧ groundStep eigh eigsh 1 (.file "transformed-operator.json".toList) fs1 = .ok fs2 ∧
      loadValue fs2 (.str "value-estimate.json".toList) = .ok ⟨1, none⟩) ∧
    ∃ fs1 fs2 fs3, reorderStep types p [1, 0] fs = .ok fs1 ∧ transformStep qtypes w "Jordan-Wigner" (.file "reordered-operator.json".toList) fs1 = .ok fs2 ∧
      groundStep eigh eigsh 1 (.file "transformed-operator.json".toList) fs2 = .ok fs3 ∧ loadValue fs3 (.str "value-estimate.json".toList) = .ok ⟨0, none⟩ := by
  obtain ⟨fs1, t1, ⟨fs2, t2, t3⟩, ⟨φ, p1, p2, p3⟩, -, -⟩ := workflow_energy_counterexample hQ w h1 h2 h0 h
  refine ⟨⟨fs1, fs2, t1, t2, t3⟩, ?_⟩
  obtain ⟨gs1, gs2, gs3, e, g1, g2, g3, g4, ψ, g5⟩ := reorder_value_partial hT hQ w h1 h2 h0 (by norm_num) h rfl firstOne_hermitian (by norm_num) firstOne_entries
    (ordering := [1, 0]) (l := [1, 0]) (.cons ⟨by norm_num, by norm_num⟩ (.cons ⟨by norm_num, by norm_num⟩ .nil)) (by decide)
    (by rw [second_action]; exact second_not_idle) (k := 1) (by norm_num)
  have he : e = 0 := by
    have h3 := g5.lowest φ p1
    rw [p2, p3] at h3
    have h4 := g5.energy
    rw [firstOne_action, hop_matrix (by norm_num)] at h4
    have h5 : (0 : ℝ) ≤ (Ground.inner ψ fun x : Fin 2 → Bool => if x ⟨0, by norm_num⟩ then ψ x else 0).re := by
      rw [Ground.inner, dotProduct, Complex.re_sum]
      refine Finset.sum_nonneg fun x _ => ?_
      by_cases hx : x ⟨0, by norm_num⟩ = true
      · rw [if_pos hx, Pi.star_apply]
        show 0 ≤ ((starRingEnd ℂ) (ψ x) * ψ x).re
        rw [← Complex.normSq_eq_conj_mul_self, Complex.ofReal_re]
        exact Complex.normSq_nonneg _
      · rw [if_neg hx, mul_zero]; simp
    rw [h4, Complex.ofReal_re] at h5
    simp at h3
    exact le_antisymm h3 h5
  subst he
  exact ⟨gs1, gs2, gs3, g1, g2, g3, g4⟩

/-- C50: `reorder` of a fermion operator with an order function that permutes the modes `0 .. n-1` (as `up_then_down` does) is a unitary change: the result is the operator
(without the terms below `1e-8`) up to the relabelling of the modes. -/
theorem reorder_fermion_unitary {o : Terms Bool} (hw : WF o) (order : ℕ → ℕ → ℕ) (n : ℕ) (hn : ∀ kv ∈ o, ∀ f ∈ kv.1, f.1 < n)
    (hb : Set.BijOn (fun i => order i n) (Set.Iio n) (Set.Iio n)) :
    ∃ r π U, reorder fermion o order (some n) false = .ok r ∧ (∀ i < n, π i = order i n) ∧ Relabels π U ∧ U * action ladderAction (bigTerms o) = action ladderAction r * U := by
  have hi : Function.Injective fun i : Fin n => (⟨order i n, hb.mapsTo i.2⟩ : Fin n) := fun i j hij => Fin.ext (hb.injOn i.2 j.2 (congrArg Fin.val hij))
  obtain ⟨U, hU⟩ := relabels_extend (Equiv.ofBijective _ (Finite.injective_iff_bijective.1 hi))
  have hπ : ∀ i < n, permExtend (Equiv.ofBijective _ (Finite.injective_iff_bijective.1 hi)) i = order i n := fun i h => permExtend_lt _ ⟨i, h⟩
  refine ⟨_, _, U, reorder_fermion hw order n hn fun i hi j hj e => hb.injOn hi hj e, hπ, hU, ?_⟩
  rw [hU.operator]
  congr 2
  refine List.map_congr_left fun kv hkv => Prod.ext ?_ rfl
  exact List.map_congr_left fun f hf => Prod.ext (hπ _ (hn kv (List.mem_filter.1 hkv).1 f hf)) rfl

example : WF ([([(2, true), (0, false)], 3)] : Terms Bool) ∧ (∀ kv ∈ ([([(2, true), (0, false)], 3)] : Terms Bool), ∀ f ∈ kv.1, f.1 < 4) ∧
    Set.BijOn (fun i => upThenDown i 4) (Set.Iio 4) (Set.Iio 4) := ⟨by simp [WF, PyDict.keys], by intro kv hkv f hf; simp only [List.mem_singleton] at hkv; rw [hkv] at hf; simp only [List.mem_cons, List.not_mem_nil, or_false] at hf; rcases hf with rfl | rfl <;> norm_num, upThenDown_bijective 4⟩

/-! ## Diagonal components -/

/-- The operator that a step is given. -/
def Means (fs : FS) (x : Operand) (n : ℕ) (c : ℂ) (one two : Tensor) : Prop := (∃ p, x = .file p ∧ Stores fs p n c one two) ∨ x = .interaction n c one two

/-- **The step that splits off the diagonal component** writes a diagonal operator and one without diagonal elements, which add up to the given operator. -/
theorem diagonal_step {types : List ℂ → Bool} (hT : FitArrays types) {fs : FS} {x : Operand} {n : ℕ} (hn : 0 < n) {c : ℂ} {one two : Tensor} (h : Means fs x n c one two) :
    ∃ fs' one1 two1 one2 two2 c2, diagonalStep types x fs = .ok fs' ∧ Stores fs' "diagonal-operator.json".toList n c one1 two1 ∧
      Stores fs' "remainder-operator.json".toList n c2 one2 two2 ∧ (∀ p, p ≠ "diagonal-operator.json".toList → p ≠ "remainder-operator.json".toList → fs' p = fs p) ∧
      polyAction (interaction n c one1 two1) + polyAction (interaction n c2 one2 two2) = polyAction (interaction n c one two) ∧
      IsDiagonal (polyAction (interaction n c one1 two1)) ∧ ZeroDiagonal (polyAction (interaction n c2 one2 two2)) := by
  obtain ⟨one', two', h1, e⟩ : ∃ one' two', theInteraction fs x = .ok (.interaction n c one' two') ∧ polyAction (interaction n c one' two') = polyAction (interaction n c one two) := by
    rcases h with ⟨p, rfl, h⟩ | rfl
    · obtain ⟨one', two', h1, e1, e2⟩ := stores_load hn h
      exact ⟨one', two', h1, interaction_congr e1 e2⟩
    · exact ⟨one, two, rfl, rfl⟩
  obtain ⟨d1, d2, d3⟩ := diagonalInteraction_spec n c one' two'
  obtain ⟨fs1, s1, s2, s3⟩ := save_stores hT fs "diagonal-operator.json" n c (diagOneLoop n one').1 (diagTwoLoop n two').1
  obtain ⟨fs2, t1, t2, t3⟩ := save_stores hT fs1 "remainder-operator.json" n 0 (diagOneLoop n one').2 (diagTwoLoop n two').2
  refine ⟨fs2, _, _, _, _, 0, ?_, stores_file s2 (t3 _ (by decide)), t2, fun p p1 p2 => by rw [t3 p p2, s3 p p1], by rw [← e]; exact d1, d2, d3⟩
  show (theInteraction fs x >>= fun x => lift (diagonalAny x) >>= fun DR => save fs "diagonal-operator.json" (interactionArtefact types DR.1) >>= fun fs1 =>
    save fs1 "remainder-operator.json" (interactionArtefact types DR.2)) = _
  rw [h1]
  show (save fs "diagonal-operator.json" (interactionArtefact types (diagonalInteraction n c one' two').1) >>= fun fs1 =>
    save fs1 "remainder-operator.json" (interactionArtefact types (diagonalInteraction n c one' two').2)) = _
  rw [diagonalInteraction, s1]
  exact t1

/-- Operators of other classes are refused. -/
theorem diagonal_step_rejects (types : List ℂ → Bool) (fs : FS) (q : Terms Letter) (f : Terms Bool) :
    diagonalStep types (.qubit q) fs = .error (.py .typeError) ∧ diagonalStep types (.fermion f) fs = .error (.py .typeError) := ⟨rfl, rfl⟩

/-! ## Number operators -/

theorem getInteractionOperator_form {o : Terms Bool} {k : Option ℕ} {T : PolyTensor} (h : getInteractionOperator o k = .ok T) : ∃ c one two, T = interaction T.n c one two := by
  rw [getInteractionOperator] at h
  by_cases hc : k.getD (countFermion o) < countFermion o
  · rw [if_pos hc] at h; cases h
  · rw [if_neg hc] at h
    cases hf : (normalOrdered o).foldlM interactionStep ⟨0, fun _ => 0, fun _ => 0⟩ with
    | error e => rw [hf] at h; cases h
    | ok s =>
      rw [hf] at h
      cases h
      exact ⟨_, _, _, rfl⟩

/-- **The step for number operators** writes the operator that counts the particles in the first `n` modes, minus the given number. -/
theorem number_step {types : List ℂ → Bool} (hT : FitArrays types) (fs : FS) (n : ℕ) (particles : Option ℤ) :
    ∃ fs' c one two, numberStep types n particles fs = .ok fs' ∧ Stores fs' "number-operator.json".toList n c one two ∧
      (∀ p, p ≠ "number-operator.json".toList → fs' p = fs p) ∧
      ∀ ψ s, polyAction (interaction n c one two) ψ s = ((((Finset.range n).filter fun i => s i).card : ℂ) - (particles.getD 0 : ℤ)) * ψ s := by
  obtain ⟨T, h1, h2, -, h4⟩ := FTools.fermionNumberOperator_spec n particles
  obtain ⟨c, one, two, hform⟩ : ∃ c one two, T = interaction T.n c one two := by
    have h5 := h1
    unfold FTools.fermionNumberOperator at h5
    exact getInteractionOperator_form h5
  rw [h2] at hform
  subst hform
  obtain ⟨fs1, s1, s2, s3⟩ := save_stores hT fs "number-operator.json" n c one two
  refine ⟨fs1, c, one, two, ?_, s2, s3, h4⟩
  show (lift (FTools.fermionNumberOperator n particles) >>= fun T => save fs "number-operator.json" (interactionArtefact types T)) = _
  rw [h1]
  exact s1

/-! ## Inactive orbitals -/

/-- **The step that removes inactive orbitals**: with `2a` orbitals left, the file has the operator of the active orbitals, the core being filled and all
other orbitals empty.  Missing: active orbitals that do not occur are removed as well (C95 `removeInactive_counterexample`), orbitals from 257 on, the default of the
number of core orbitals (`inactive_default_counterexample`). -/
theorem inactive_step_partial {types : List ℂ → Bool} (hT : FitArrays types) {same : ℕ → ℕ → Bool} (hsame : IntIdentity same) {fs : FS} {p : Str} {n : ℕ} (hn : 0 < n)
    {c : ℂ} {one two : Tensor} (h : Stores fs p n c one two) (a nCore : ℕ) (hcore : 2 * nCore ≤ 257) (hn' : n ≤ 257) {δ : ℝ} (hδ : 1 / 10 ^ 8 ≤ δ) (hg : EntriesOn n δ c one two) :
    ∃ fs' m c' one' two', inactiveStep types same p (some a) (some nCore) fs = .ok fs' ∧ Stores fs' "frozen-operator.json".toList m c' one' two' ∧ m ≤ 2 * a ∧
      (∀ p, p ≠ "frozen-operator.json".toList → fs' p = fs p) ∧
      (m = 2 * a → ∀ t t' : ℕ → Bool, (∀ k, t k = true → k < 2 * a) → (∀ k, t' k = true → k < 2 * a) →
        polyAction (interaction m c' one' two') (basisState t) t' = polyAction (interaction n c one two) (basisState (Inactive.fill nCore t)) (Inactive.fill nCore t')) := by
  obtain ⟨one', two', h1, e1, e2⟩ := stores_load hn h
  have hg' : EntriesOn n δ c one' two' := ⟨hg.1, fun p hp q hq => by
      rw [e1 _ (inRange_two hp hq)]; exact hg.2.1 p hp q hq, fun p hp q hq r hr s hs => by
      rw [e2 _ (inRange_four hp hq hr hs)]; exact hg.2.2 p hp q hq r hr s hs⟩
  obtain ⟨T, t1, t2, t3⟩ := Inactive.removeInactive_active_partial hsame n c one' two' a nCore hcore hn' hδ hg'
  obtain ⟨c', o', w', hform⟩ : ∃ c one two, T = interaction T.n c one two := by
    have h5 : (toFermion (interaction n c one' two') >>= fun f => getInteractionOperator
      (freezeOrbitals same f (List.range (2 * nCore)) (some (Inactive.unoccupiedOf n (some a) nCore))) none) = .ok T := t1
    cases hf : toFermion (interaction n c one' two') with
    | error e => rw [hf] at h5; cases h5
    | ok f => rw [hf] at h5; exact getInteractionOperator_form h5
  obtain ⟨fs1, s1, s2, s3⟩ := save_stores hT fs "frozen-operator.json" T.n c' o' w'
  refine ⟨fs1, T.n, c', o', w', ?_, s2, t2, s3, fun hm t t' ht ht' => ?_⟩
  · unfold inactiveStep
    rw [h1]
    show (lift (Inactive.removeInactive same n c one' two' (some a) nCore) >>= fun T => save fs "frozen-operator.json" (interactionArtefact types T)) = _
    rw [t1, ← s1]
    show save fs "frozen-operator.json" (interactionArtefact types T) = _
    rw [← hform]
  · rw [← hform, t3 hm t t' ht ht', interaction_congr e1 e2]

/-- **The default fails**: without a number of core orbitals the step always raises a `TypeError`, for every stored operator. -/
theorem inactive_default_counterexample (types : List ℂ → Bool) (same : ℕ → ℕ → Bool) {fs : FS} {p : Str} {n : ℕ} (hn : 0 < n) {c : ℂ} {one two : Tensor}
    (h : Stores fs p n c one two) (nActive : Option ℕ) : inactiveStep types same p nActive none fs = .error (.py .typeError) := by
  obtain ⟨one', two', h1, -, -⟩ := stores_load hn h
  unfold inactiveStep
  rw [h1]
  obtain ⟨o, h2, -⟩ := toFermion_spec (T := interaction n c one' two') (by simp [Valid, interaction, PyDict.keys])
  show (lift (toFermion (interaction n c one' two') >>= fun _ => Except.error Err.typeError) >>= fun T => save fs "frozen-operator.json" (interactionArtefact types T)) = _
  rw [h2]; rfl

/-! ## Operators on one qubit -/

theorem add_term {A : Type} [DecidableEq A] {acc : Terms A} {t : Term A} {c : ℂ} (hn : t ∉ PyDict.keys acc) : add acc [(t, c)] = acc ++ bigTerms [(t, c)] := by
  by_cases hc : ‖c‖ < 1 / 10 ^ 8
  · rw [add_small hn hc, bigTerms, List.filter_cons_of_neg (by simpa using hc)]; simp
  · rw [add_fresh hn hc, bigTerms, List.filter_cons_of_pos (by simpa using hc)]; simp

theorem kept_bigTerms (o : Terms Letter) : OpSerde.kept o = bigTerms o := by
  rw [OpSerde.kept, bigTerms]
  refine List.filter_congr fun kv _ => ?_
  simp

theorem bigTerms_append {A : Type} (a b : Terms A) : bigTerms (a ++ b) = bigTerms a ++ bigTerms b := List.filter_append ..

theorem bigTerms_idem {A : Type} (a : Terms A) : bigTerms (bigTerms a) = bigTerms a := bigTerms_eq_self fun kv hkv => by
  have := (List.mem_filter.1 hkv).2
  simpa using this

/-- What remains of a coefficient. -/
noncomputable def cut (x : ℝ) : ℂ := if |x| < 1 / 10 ^ 8 then 0 else x

theorem bigTerms_cut (t : Term Letter) (x : ℝ) : action pauliAction (bigTerms [(t, (x : ℂ))]) = cut x • termAction pauliAction t := by
  rw [bigTerms, cut]
  by_cases hc : |x| < 1 / 10 ^ 8
  · rw [if_pos hc, List.filter_cons_of_neg (by simpa using hc), zero_smul]; rfl
  · rw [if_neg hc, List.filter_cons_of_pos (by simpa using hc), List.filter_nil, action_cons, action_nil, add_zero]

theorem mem_bigTerms {A : Type} {t u : Term A} {x : ℂ} (h : u ∈ PyDict.keys (bigTerms [(t, x)])) : u = t := by
  obtain ⟨kv, hkv, rfl⟩ := List.mem_map.1 h
  have := (List.mem_filter.1 hkv).1
  rw [List.mem_singleton] at this
  rw [this]

theorem keys_app {A : Type} (a b : Terms A) : PyDict.keys (a ++ b) = PyDict.keys a ++ PyDict.keys b := List.map_append

theorem oneQubit_eq (x y z c : ℝ) : oneQubitOperator x y z c =
    [([(0, .X)], (x : ℂ))] ++ bigTerms [([(0, .Y)], (y : ℂ))] ++ bigTerms [([(0, .Z)], (z : ℂ))] ++ bigTerms [([], (c : ℂ))] := by
  have hs : ∀ (t : Term Letter) (x : ℝ), smul [(t, (1 : ℂ))] (x : ℂ) = [(t, (x : ℂ))] := fun t x => by simp [Op.smul]
  rw [oneQubitOperator, hs, hs, hs, hs, add_term (acc := [([(0, Letter.X)], (x : ℂ))]), add_term (acc := _ ++ _) (t := [(0, Letter.Z)]), add_term (acc := _ ++ _ ++ _)]
  · rw [keys_app, keys_app, List.mem_append, List.mem_append]
    rintro ((h | h) | h)
    · simp [PyDict.keys] at h
    · cases mem_bigTerms h
    · cases mem_bigTerms h
  · rw [keys_app, List.mem_append]
    rintro (h | h)
    · simp [PyDict.keys] at h
    · cases mem_bigTerms h
  · simp [PyDict.keys]

/-- **The step for operators on one qubit** writes `x X + y Y + z Z + c`, but for coefficients below `1e-8`. -/
theorem oneQubit_step (x y z c : ℝ) (fs : FS) :
    ∃ fs' q, oneQubitStep x y z c fs = .ok fs' ∧ loadQubitOp fs' (.str "qubit_operator.json".toList) = .ok q ∧ (∀ p, p ≠ "qubit_operator.json".toList → fs' p = fs p) ∧
      action pauliAction q = cut x • pauliAction (0, .X) + cut y • pauliAction (0, .Y) + cut z • pauliAction (0, .Z) + cut c • 1 := by
  obtain ⟨fs1, s1, s2, s3⟩ := save_spec fs "qubit_operator.json" (.qubitOp (fun _ => false) (oneQubitOperator x y z c)) (plain_op _)
  have hmem : ∀ kv ∈ oneQubitOperator x y z c, kv ∈ [([(0, Letter.X)], (x : ℂ)), ([(0, .Y)], (y : ℂ)), ([(0, .Z)], (z : ℂ)), ([], (c : ℂ))] := by
    intro kv hkv
    rw [oneQubit_eq, List.mem_append, List.mem_append, List.mem_append] at hkv
    rcases hkv with ((h | h) | h) | h
    · rw [List.mem_singleton] at h; simp [h]
    all_goals
      have := (List.mem_filter.1 h).1
      rw [List.mem_singleton] at this
      simp [this]
  have hsub : (oneQubitOperator x y z c).Sublist [([(0, Letter.X)], (x : ℂ)), ([(0, .Y)], (y : ℂ)), ([(0, .Z)], (z : ℂ)), ([], (c : ℂ))] := by
    rw [oneQubit_eq]
    exact ((List.Sublist.refl [([(0, Letter.X)], (x : ℂ))]).append (List.filter_sublist (l := [([(0, Letter.Y)], (y : ℂ))])) |>.append
      (List.filter_sublist (l := [([(0, Letter.Z)], (z : ℂ))]))).append (List.filter_sublist (l := [(([] : Term Letter), (c : ℂ))]))
  have hcan : CanonicalOp (oneQubitOperator x y z c) := by
    refine ⟨List.Nodup.sublist (hsub.map Prod.fst) (by simp), fun t ht => ?_⟩
    obtain ⟨kv, hkv, rfl⟩ := List.mem_map.1 ht
    have := hmem kv hkv
    simp only [List.mem_cons, List.not_mem_nil, or_false] at this
    rcases this with rfl | rfl | rfl | rfl <;> exact ⟨by simp, by simp⟩
  have him : ∀ kv ∈ oneQubitOperator x y z c, false = false → kv.2.im = 0 := by
    intro kv hkv _
    have := hmem kv hkv
    simp only [List.mem_cons, List.not_mem_nil, or_false] at this
    rcases this with rfl | rfl | rfl | rfl <;> exact Complex.ofReal_im _
  refine ⟨fs1, OpSerde.kept (oneQubitOperator x y z c), s1, load_qubitOp hcan him s2, s3, ?_⟩
  rw [kept_bigTerms, oneQubit_eq, bigTerms_append, bigTerms_append, bigTerms_append, bigTerms_idem, bigTerms_idem, bigTerms_idem, action_append, action_append, action_append,
    bigTerms_cut, bigTerms_cut, bigTerms_cut, bigTerms_cut]
  simp only [termAction_cons, termAction_nil, mul_one]

/-! ## Lists of operators -/

/-- The list of operators that a step is given. -/
def MeansList (fs : FS) (x : OpsOperand) (os : List (Terms Letter)) : Prop := (∃ p, x = .file p ∧ loadQubitOps fs (.str p) = .ok os) ∨ x = .list os

/-- **The step that concatenates lists of operators** writes the operators of the first list, then those of the second (without coefficients below `1e-8`, which are
dropped when the file is loaded). -/
theorem concat_step {types : Terms Letter → Term Letter → Bool} (hT : Fit types) {fs : FS} {a b : OpsOperand} {as bs : List (Terms Letter)} (ha : MeansList fs a as)
    (hb : MeansList fs b bs) (hc : ∀ o ∈ as ++ bs, CanonicalOp o) :
    ∃ fs', concatStep types a b fs = .ok fs' ∧ loadQubitOps fs' (.str "concatenated-qubit-operators.json".toList) = .ok (as.map OpSerde.kept ++ bs.map OpSerde.kept) ∧
      ∀ p, p ≠ "concatenated-qubit-operators.json".toList → fs' p = fs p := by
  have h1 : theOperators fs a = .ok as := by
    rcases ha with ⟨p, rfl, h⟩ | rfl
    · exact h
    · rfl
  have h2 : theOperators fs b = .ok bs := by
    rcases hb with ⟨p, rfl, h⟩ | rfl
    · exact h
    · rfl
  obtain ⟨fs1, s1, s2, s3⟩ := save_spec fs "concatenated-qubit-operators.json" (.qubitOps ((as ++ bs).map fun g => (types g, g))) (plain_qubitOps _)
  refine ⟨fs1, ?_, ?_, s3⟩
  · show (theOperators fs a >>= fun as => theOperators fs b >>= fun bs => save fs "concatenated-qubit-operators.json" (.qubitOps ((as ++ bs).map fun g => (types g, g)))) = _
    rw [h1]
    show (theOperators fs b >>= fun bs => save fs "concatenated-qubit-operators.json" (.qubitOps ((as ++ bs).map fun g => (types g, g)))) = _
    rw [h2]
    exact s1
  · rw [load_qubitOps (fun x hx => ?_) (fun x hx => ?_) s2, List.map_map, ← List.map_append]
    · rfl
    · obtain ⟨g, hg', rfl⟩ := List.mem_map.1 hx
      exact hc g hg'
    · obtain ⟨g, hg', rfl⟩ := List.mem_map.1 hx
      exact fun kv hkv => hT g kv hkv

/-- The hypotheses can be met. -/
example : ∃ (types : List ℂ → Bool) (qtypes : Terms Letter → Term Letter → Bool) (eigh eigsh : Mat ℂ → Eigen) (fs : FS), FitArrays types ∧ Fit qtypes ∧ Solves eigh ∧ Solves eigsh ∧
    (∀ A : Mat ℂ, A.rows = 0 → (eigh A).vecs.cols = 0) ∧ Stores fs "h.json".toList 2 0 firstOne fun _ => 0 := by
  obtain ⟨S, s1, s2⟩ := exists_solver
  obtain ⟨fs, hfs⟩ := stores_exists (fun _ => none) "h.json" 2 (by norm_num) 0 firstOne fun _ => 0
  exact ⟨fun _ => true, fun _ _ => true, S, S, fs, fun _ h => (nomatch h), fun _ _ _ h => (nomatch h), s1, s1, s2, hfs⟩

example : MeansList (fun _ => none) (.list [[([(0, .Z)], 1)]]) [[([(0, .Z)], 1)]] ∧ CanonicalOp [(([(0, .Z)] : Term Letter), (1 : ℂ))] :=
  ⟨.inr rfl, by simp [WF, PyDict.keys], fun t ht => by simp [PyDict.keys] at ht; rw [ht]; exact ⟨by simp, by simp⟩⟩

end ZQ.OperatorEdit
