import Verif.Props.Precision
import Mathlib.Algebra.Order.Chebyshev

/-!
# C104: measurement budgets
-/

namespace ZQ.Stat

open ZQ ZQ.PyDict ZQ.Op ZQ.Circuits ZQ.Gates ZQ.Est ZQ.Expect ZQ.Backend ZQ.Disc MeasureTheory ProbabilityTheory Matrix

/-! ### Tasks with their own shots -/

/-- C104. Context selection and averaging, for tasks with their own circuits and numbers of shots: the mean is the sum of the exact values and the variance is the sum
of the variances per shot. -/
theorem tasks_statistics {ρ : String → ℂ} {tasks : List Task} (h : ∀ t ∈ tasks, Groupable ρ t) :
    ∃ out, performContextSelection tasks = .ok out ∧
      ∀ {Ω : Type} [MeasurableSpace Ω] (P : Measure Ω) [IsProbabilityMeasure P] {run : Ω → Runner}
        {draw : (k : Fin (measuredTasks out).length) → Fin (shotsOf (measuredTasks out)[k]) → Ω → (Fin (measuredTasks out)[k].circuit.n → Bool)},
        Returns run (measuredTasks out) draw → Measures P ρ (measuredTasks out) draw →
        ∃ X : Ω → ℝ, (∀ ω, ∃ r, estimateByAveraging (run ω) out = .ok r ∧ r.length = tasks.length ∧ (∀ e ∈ r, e ≠ none) ∧ total r = X ω) ∧ MemLp X 2 P ∧
          P[X] = (tasks.map (exactMean ρ)).sum ∧ Var[X; P] = (tasks.map fun t => exactVar ρ t / shotsOf t).sum := by
  obtain ⟨out, h1, h2⟩ := contextSelected h
  refine ⟨out, h1, ?_⟩
  intro Ω _ P _ run draw hrun hdraw
  have key : ∀ {tasks out : List Task},
      List.Forall₂ (fun t u => Ready ρ u ∧ u.shots = t.shots ∧ exactMean ρ u = exactMean ρ t ∧ exactVar ρ u = exactVar ρ t) tasks out →
      (∀ u ∈ out, Ready ρ u) ∧ (out.map (exactMean ρ)) = (tasks.map (exactMean ρ)) ∧
        (out.map fun u => exactVar ρ u / shotsOf u) = (tasks.map fun u => exactVar ρ u / shotsOf u) := by
    intro tasks out h
    induction h with
    | nil => simp
    | @cons t u tasks out htu _ ih =>
      obtain ⟨a1, a2, a3⟩ := ih
      obtain ⟨b1, b2, b3, b4⟩ := htu
      refine ⟨?_, ?_, ?_⟩
      · intro v hv
        rcases List.mem_cons.1 hv with rfl | hv
        · exact b1
        · exact a1 v hv
      · rw [List.map_cons, List.map_cons, a2, b3]
      · rw [List.map_cons, List.map_cons, a3, b4, show shotsOf u = shotsOf t by rw [shotsOf, b2, shotsOf]]
  obtain ⟨hready, k1, k2⟩ := key h2
  obtain ⟨X, x1, x2, x3, x4⟩ := averaging_statistics P hready hrun hdraw
  refine ⟨X, fun ω => ?_, x2, by rw [x3, k1], by rw [x4, k2]⟩
  obtain ⟨r, r1, r2, r3⟩ := x1 ω
  exact ⟨r, r1, by rw [r2, h2.length_eq], r3⟩

/-! ### The variance of a group -/

theorem braket_one {n : ℕ} {ψ : (Fin n → Bool) → ℂ} (hn : ∑ x, Complex.normSq (ψ x) = 1) : braket ψ 1 = 1 := by
  have := braket_diagonal ψ fun _ => 1
  rw [show (Matrix.diagonal fun _ : Fin n → Bool => ((1 : ℝ) : ℂ)) = 1 by simp] at this
  rw [this]
  simp [hn]

/-- The variance is the squared length of `A ψ - ⟨A⟩ ψ`. -/
theorem qvar_eq_norm {n : ℕ} {ψ : (Fin n → Bool) → ℂ} (hn : ∑ x, Complex.normSq (ψ x) = 1) {A : Matrix (Fin n → Bool) (Fin n → Bool) ℂ} (hA : Aᴴ = A) :
    qvar ψ A = ∑ x, Complex.normSq ((A *ᵥ ψ) x - (braket ψ A).re * ψ x) := by
  have hn' : star ψ ⬝ᵥ ψ = 1 := by
    have := braket_one hn
    rwa [braket, Matrix.one_mulVec] at this
  have him : braket ψ A = ((braket ψ A).re : ℂ) := Complex.ext rfl (by simpa using braket_real ψ A hA)
  set m := (braket ψ A).re with hm
  have h1 : star (A *ᵥ ψ) ⬝ᵥ ψ = (m : ℂ) := by
    rw [Matrix.star_mulVec, hA, ← Matrix.dotProduct_mulVec]
    exact him
  have h2 : braket ψ (A * A) = star (A *ᵥ ψ) ⬝ᵥ (A *ᵥ ψ) := by
    rw [braket, Matrix.star_mulVec, hA, ← Matrix.dotProduct_mulVec, Matrix.mulVec_mulVec]
  have h3 : star (A *ᵥ ψ - (m : ℂ) • ψ) ⬝ᵥ (A *ᵥ ψ - (m : ℂ) • ψ) = braket ψ (A * A) - (m : ℂ) ^ 2 := by
    have h4 : star ψ ⬝ᵥ (A *ᵥ ψ) = (m : ℂ) := him
    rw [star_sub, star_smul, sub_dotProduct, dotProduct_sub, dotProduct_sub, smul_dotProduct, smul_dotProduct, dotProduct_smul, dotProduct_smul, hn', h1, h4, ← h2]
    simp only [Complex.star_def, Complex.conj_ofReal, smul_eq_mul]
    ring
  have h5 : star (A *ᵥ ψ - (m : ℂ) • ψ) ⬝ᵥ (A *ᵥ ψ - (m : ℂ) • ψ) = ((∑ x, Complex.normSq ((A *ᵥ ψ) x - m * ψ x) : ℝ) : ℂ) := by
    rw [dotProduct, Complex.ofReal_sum]
    refine Finset.sum_congr rfl fun x _ => ?_
    rw [Complex.normSq_eq_conj_mul_self]
    rfl
  rw [qvar, ← hm]
  have := congrArg Complex.re (h5.symm.trans h3)
  rw [Complex.ofReal_re] at this
  rw [this, Complex.sub_re, ← Complex.ofReal_pow, Complex.ofReal_re]

theorem normSq_list_sum (l : List ℂ) : Complex.normSq l.sum ≤ l.length * (l.map Complex.normSq).sum := by
  have h1 : ‖l.sum‖ ≤ (l.map norm).sum := List.le_sum_of_subadditive norm norm_zero.le norm_add_le l
  have h2 : (l.map norm).sum ^ 2 ≤ l.length * (l.map fun z => ‖z‖ ^ 2).sum := by
    rw [sum_map_fin, sum_map_fin]
    have := sq_sum_le_card_mul_sum_sq (s := Finset.univ) (f := fun k : Fin l.length => ‖l[k]‖)
    simpa using this
  calc Complex.normSq l.sum = ‖l.sum‖ ^ 2 := Complex.normSq_eq_norm_sq _
    _ ≤ (l.map norm).sum ^ 2 := pow_le_pow_left₀ (norm_nonneg _) h1 2
    _ ≤ _ := by
      rw [show (l.map Complex.normSq) = l.map fun z => ‖z‖ ^ 2 from List.map_congr_left fun z _ => Complex.normSq_eq_norm_sq z]
      exact h2

theorem opMatrix_singleton (n : ℕ) (kv : Term Letter × ℂ) : opMatrix n [kv] = kv.2 • pauliString n kv.1 := by simp [opMatrix]

theorem opMatrix_hermitian {n : ℕ} {o : Terms Letter} (hreal : ∀ kv ∈ o, kv.2.im = 0) : (opMatrix n o)ᴴ = opMatrix n o := by
  unfold opMatrix
  induction o with
  | nil => simp
  | cons kv o ih =>
    rw [List.map_cons, List.sum_cons, Matrix.conjTranspose_add, ih fun kv' h => hreal kv' (by simp [h]), Matrix.conjTranspose_smul, Evol.pauliString_hermitian]
    congr 2
    exact Complex.ext rfl (by simp [hreal kv (by simp)])

theorem opMatrix_dev {n : ℕ} (ψ : (Fin n → Bool) → ℂ) (o : Terms Letter) (x : Fin n → Bool) :
    (opMatrix n o *ᵥ ψ) x - (braket ψ (opMatrix n o)).re * ψ x = (o.map fun kv => (opMatrix n [kv] *ᵥ ψ) x - (braket ψ (opMatrix n [kv])).re * ψ x).sum := by
  induction o with
  | nil => simp [opMatrix, braket_zero]
  | cons kv o ih =>
    have e : opMatrix n (kv :: o) = opMatrix n [kv] + opMatrix n o := by simp [opMatrix]
    rw [List.map_cons, List.sum_cons, ← ih, e, braket_add, Matrix.add_mulVec, Pi.add_apply, Complex.add_re, Complex.ofReal_add]
    ring

/-- The variance of a real group of `k` non-constant terms is at most `k` times the sum of the terms' variances, in every state. -/
theorem qvar_group {n : ℕ} {ψ : (Fin n → Bool) → ℂ} (hn : ∑ x, Complex.normSq (ψ x) = 1) {g : Terms Letter} (hreal : ∀ kv ∈ g, kv.2.im = 0) :
    qvar ψ (opMatrix n g) ≤ (g.filter fun kv => decide (kv.1 ≠ [])).length * (g.map fun kv => kv.2.re ^ 2 * (1 - (braket ψ (pauliString n kv.1)).re ^ 2)).sum := by
  set d : Term Letter × ℂ → (Fin n → Bool) → ℂ := fun kv x => (opMatrix n [kv] *ᵥ ψ) x - (braket ψ (opMatrix n [kv])).re * ψ x with hd
  have hterm : ∀ kv ∈ g, ∑ x, Complex.normSq (d kv x) = kv.2.re ^ 2 * (1 - (braket ψ (pauliString n kv.1)).re ^ 2) := by
    intro kv hkv
    rw [← qvar_term hn kv (hreal kv hkv), qvar_eq_norm hn (opMatrix_hermitian (by simpa using hreal kv hkv))]
  have hconst : ∀ kv ∈ g, kv.1 = [] → ∀ x, d kv x = 0 := by
    intro kv hkv h0 x
    have h1 := hterm kv hkv
    rw [h0, Evol.pauliString_nil, braket_one hn] at h1
    have h2 := (Finset.sum_eq_zero_iff_of_nonneg fun x _ => Complex.normSq_nonneg (d kv x)).1 (h1.trans (by simp)) x (Finset.mem_univ x)
    exact Complex.normSq_eq_zero.1 h2
  have hfilter : ∀ x, (g.map fun kv => d kv x).sum = ((g.filter fun kv => decide (kv.1 ≠ [])).map fun kv => d kv x).sum := by
    intro x
    clear hterm hreal
    induction g with
    | nil => rfl
    | cons kv g ih =>
      have := ih fun kv' h => hconst kv' (by simp [h])
      by_cases h0 : kv.1 = []
      · rw [List.filter_cons_of_neg (by simpa using h0), List.map_cons, List.sum_cons, hconst kv (by simp) h0, zero_add, this]
      · rw [List.filter_cons_of_pos (by simpa using h0), List.map_cons, List.sum_cons, List.map_cons, List.sum_cons, this]
  have hsub : ((g.filter fun kv => decide (kv.1 ≠ [])).map fun kv => ∑ x, Complex.normSq (d kv x)).sum ≤ (g.map fun kv => ∑ x, Complex.normSq (d kv x)).sum :=
    List.Sublist.sum_le_sum (List.filter_sublist.map _) fun y hy => by
      obtain ⟨kv, -, rfl⟩ := List.mem_map.1 hy
      exact Finset.sum_nonneg fun x _ => Complex.normSq_nonneg _
  rw [qvar_eq_norm hn (opMatrix_hermitian hreal)]
  calc ∑ x, Complex.normSq ((opMatrix n g *ᵥ ψ) x - (braket ψ (opMatrix n g)).re * ψ x)
      = ∑ x, Complex.normSq ((g.filter fun kv => decide (kv.1 ≠ [])).map fun kv => d kv x).sum := by
        refine Finset.sum_congr rfl fun x _ => ?_
        rw [opMatrix_dev, ← hfilter]
    _ ≤ ∑ x, ((g.filter fun kv => decide (kv.1 ≠ [])).length : ℝ) * ((g.filter fun kv => decide (kv.1 ≠ [])).map fun kv => Complex.normSq (d kv x)).sum := by
        refine Finset.sum_le_sum fun x _ => ?_
        have := normSq_list_sum ((g.filter fun kv => decide (kv.1 ≠ [])).map fun kv => d kv x)
        rw [List.length_map, List.map_map] at this
        exact this
    _ = (g.filter fun kv => decide (kv.1 ≠ [])).length * ((g.filter fun kv => decide (kv.1 ≠ [])).map fun kv => ∑ x, Complex.normSq (d kv x)).sum := by
        rw [← Finset.mul_sum]
        congr 1
        induction (g.filter fun kv => decide (kv.1 ≠ [])) with
        | nil => simp
        | cons kv l ih => simp only [List.map_cons, List.sum_cons, Finset.sum_add_distrib, ih]
    _ ≤ (g.filter fun kv => decide (kv.1 ≠ [])).length * (g.map fun kv => ∑ x, Complex.normSq (d kv x)).sum := mul_le_mul_of_nonneg_left hsub (Nat.cast_nonneg _)
    _ = _ := by rw [List.map_congr_left hterm]

/-! ### The number of measurements -/

theorem cauchy_lists : ∀ (vars ms : List ℝ), vars.length = ms.length → (∀ v ∈ vars, 0 ≤ v) → (∀ m ∈ ms, 0 < m) →
    (vars.map Real.sqrt).sum ^ 2 ≤ (List.zipWith (fun v m => v / m) vars ms).sum * ms.sum ∧ 0 ≤ (List.zipWith (fun v m => v / m) vars ms).sum ∧ 0 ≤ ms.sum ∧
      0 ≤ (vars.map Real.sqrt).sum := by
  intro vars
  induction vars with
  | nil =>
    intro ms hl _ hm
    obtain rfl : ms = [] := List.length_eq_zero_iff.1 hl.symm
    simp
  | cons v vars ih =>
    intro ms hl hv hm
    obtain ⟨m, ms, rfl⟩ : ∃ m ms', ms = m :: ms' := by
      cases ms with
      | nil => simp at hl
      | cons m ms => exact ⟨m, ms, rfl⟩
    obtain ⟨h1, h2, h3, h4⟩ := ih ms (by simpa using hl) (fun v' h => hv v' (by simp [h])) fun m' h => hm m' (by simp [h])
    have hv0 := hv v (by simp)
    have hm0 := hm m (by simp)
    rw [List.map_cons, List.sum_cons, List.zipWith_cons_cons, List.sum_cons, List.sum_cons]
    set S := (vars.map Real.sqrt).sum
    set A := (List.zipWith (fun v m => v / m) vars ms).sum
    set B := ms.sum
    have hs := Real.sqrt_nonneg v
    have hsq := Real.sq_sqrt hv0
    have e1 : v / m * m = v := div_mul_cancel₀ v hm0.ne'
    have hvm : 0 ≤ v / m := div_nonneg hv0 hm0.le
    have key : 2 * (√v * S) ≤ v / m * B + A * m := by
      refine abs_le_of_sq_le_sq' ?_ (by positivity) |>.2
      have a1 : (2 * (√v * S)) ^ 2 = 4 * (v * S ^ 2) := by rw [mul_pow, mul_pow, hsq]; ring
      have a2 : v * S ^ 2 ≤ v * (A * B) := mul_le_mul_of_nonneg_left h1 hv0
      have a3 : v * (A * B) = (v / m * B) * (A * m) := by
        rw [show v / m * B * (A * m) = (v / m * m) * (A * B) by ring, e1]
      nlinarith [sq_nonneg (v / m * B - A * m)]
    refine ⟨?_, by positivity, by positivity, by positivity⟩
    nlinarith

/-- C104. `estimate_nmeas_for_frames` gives the cheapest allocation: with `frame_meas / ε²` measurements per frame the frames' variances add up to `ε²` and `K2 / ε²`
measurements are needed; every other allocation with the same accuracy needs at least as many. -/
theorem budget_optimal {groups : List (Terms Letter)} {prior : Option (List ℝ)} {vars : List ℝ} (hvars : groupVariances groups prior = .ok vars) (hpos : ∃ v ∈ vars, 0 < v)
    {ε : ℝ} (hε : 0 < ε) :
    ∃ K2 nterms frameMeas, estimateNmeas groups prior = .ok (K2, nterms, frameMeas) ∧
      (List.zipWith (fun v m => v / (m / ε ^ 2)) vars frameMeas).sum = ε ^ 2 ∧ (frameMeas.map fun m => m / ε ^ 2).sum = K2 / ε ^ 2 ∧
      ∀ ms : List ℝ, ms.length = vars.length → (∀ m ∈ ms, 0 < m) → (List.zipWith (fun v m => v / m) vars ms).sum ≤ ε ^ 2 → K2 / ε ^ 2 ≤ ms.sum := by
  have hnn := (groupVariances_nonneg hvars).1
  have hS : 0 < (vars.map Real.sqrt).sum := by
    obtain ⟨v, hv, hv0⟩ := hpos
    refine lt_of_lt_of_le (Real.sqrt_pos.2 hv0) (List.single_le_sum ?_ _ (List.mem_map_of_mem hv))
    intro x hx; obtain ⟨w, _, rfl⟩ := List.mem_map.1 hx; exact Real.sqrt_nonneg _
  refine ⟨_, _, _, estimateNmeas_spec hvars, ?_, ?_, ?_⟩
  · set S := (vars.map Real.sqrt).sum with hSd
    have : (List.zipWith (fun v m => v / (m / ε ^ 2)) vars (vars.map fun v => S * √v)) = vars.map fun v => ε ^ 2 / S * √v := by
      rw [List.zipWith_map_right, List.zipWith_self]
      refine List.map_congr_left fun v hv => ?_
      rcases (hnn v hv).eq_or_lt with h0 | h0
      · simp [← h0]
      · have h1 := Real.sqrt_pos.2 h0
        have h2 := Real.sq_sqrt h0.le
        field_simp
        linarith
    rw [this, List.sum_map_mul_left, ← hSd]
    field_simp
  · simp only [div_eq_mul_inv]
    rw [List.sum_map_mul_right, List.map_id', List.sum_map_mul_left, sq (List.map Real.sqrt vars).sum]
  · intro ms hl hm hle
    obtain ⟨h1, h2, h3, h4⟩ := cauchy_lists vars ms hl.symm hnn hm
    rw [div_le_iff₀ (by positivity)]
    nlinarith [mul_le_mul_of_nonneg_right hle h3]

/-- The true expectation values of the terms of the tasks, in order. -/
noncomputable def trueValues (ρ : String → ℂ) (tasks : List Task) : List (List ℝ) :=
  tasks.map fun t => t.operator.map fun kv => (braket (outputState ρ t.circuit) (pauliString t.circuit.n kv.1)).re

theorem pauli_bound {n : ℕ} {ψ : (Fin n → Bool) → ℂ} (hn : ∑ x, Complex.normSq (ψ x) = 1) (t : Term Letter) : (braket ψ (pauliString n t)).re ^ 2 ≤ 1 := by
  have h := qvar_term hn (t, 1) (by simp)
  rw [qvar_eq_norm hn (opMatrix_hermitian (by simp))] at h
  have := Finset.sum_nonneg fun x (_ : x ∈ Finset.univ) => Complex.normSq_nonneg ((opMatrix n [(t, 1)] *ᵥ ψ) x - (braket ψ (opMatrix n [(t, 1)])).re * ψ x)
  rw [h] at this
  simp only [Complex.one_re, one_pow, one_mul] at this
  linarith

theorem varianceFrom_true {n : ℕ} (ψ : (Fin n → Bool) → ℂ) (g : Terms Letter) :
    varianceFrom g (g.map fun kv => (braket ψ (pauliString n kv.1)).re) = (g.map fun kv => kv.2.re ^ 2 * (1 - (braket ψ (pauliString n kv.1)).re ^ 2)).sum := by
  rw [varianceFrom, List.zipWith_map_right, List.zipWith_self]

theorem variance_le_bound {n : ℕ} {ψ : (Fin n → Bool) → ℂ} (hn : ∑ x, Complex.normSq (ψ x) = 1) (g : Terms Letter) :
    (g.map fun kv => kv.2.re ^ 2 * (1 - (braket ψ (pauliString n kv.1)).re ^ 2)).sum ≤ varianceBound g := by
  unfold varianceBound
  induction g with
  | nil => simp
  | cons kv g ih =>
    rw [List.map_cons, List.sum_cons]
    by_cases h0 : kv.1 = []
    · rw [List.filter_cons_of_neg (by simpa using h0), h0, Evol.pauliString_nil, braket_one hn]
      simpa using ih
    · rw [List.filter_cons_of_pos (by simpa using h0), List.map_cons, List.sum_cons]
      have := pauli_bound hn kv.1
      nlinarith [sq_nonneg kv.2.re, mul_nonneg (sq_nonneg kv.2.re) (sq_nonneg (braket ψ (pauliString n kv.1)).re)]

/-- What the estimated variances say: times the number `k` of terms per group they bound the true ones. -/
theorem exactVar_le {ρ : String → ℂ} {tasks : List Task} (h : ∀ t ∈ tasks, Groupable ρ t) {prior : Option (List ℝ)} (hprior : prior = none ∨ prior = some (trueValues ρ tasks).flatten)
    {k : ℕ} (hk : ∀ t ∈ tasks, (t.operator.filter fun kv => decide (kv.1 ≠ [])).length ≤ k) :
    ∃ vars, groupVariances (tasks.map Task.operator) prior = .ok vars ∧ List.Forall₂ (fun t v => exactVar ρ t ≤ k * v) tasks vars := by
  have hreal : ∀ g ∈ tasks.map Task.operator, ∀ kv ∈ g, kv.2.im = 0 := by
    intro g hg
    obtain ⟨t, ht, rfl⟩ := List.mem_map.1 hg
    exact (h t ht).real
  have hvar : ∀ t ∈ tasks, exactVar ρ t ≤ k * (t.operator.map fun kv => kv.2.re ^ 2 * (1 - (braket (outputState ρ t.circuit) (pauliString t.circuit.n kv.1)).re ^ 2)).sum := by
    intro t ht
    have hn := output_normalised (h t ht).unitary
    refine (qvar_group hn (h t ht).real).trans (mul_le_mul_of_nonneg_right (by exact_mod_cast hk t ht) (List.sum_nonneg ?_))
    intro x hx
    obtain ⟨kv, -, rfl⟩ := List.mem_map.1 hx
    have := pauli_bound hn kv.1
    exact mul_nonneg (sq_nonneg _) (by linarith)
  rcases hprior with rfl | rfl
  · refine ⟨_, groupVariances_none ?_ hreal, ?_⟩
    · intro g hg
      obtain ⟨t, ht, rfl⟩ := List.mem_map.1 hg
      exact (h t ht).canonical.1
    · rw [List.map_map, List.forall₂_map_right_iff, List.forall₂_same]
      intro t ht
      exact (hvar t ht).trans (mul_le_mul_of_nonneg_left (variance_le_bound (output_normalised (h t ht).unitary) _) (Nat.cast_nonneg k))
  · refine ⟨_, groupVariances_some hreal ?_ ?_, ?_⟩
    · rw [trueValues, List.forall₂_map_left_iff, List.forall₂_map_right_iff, List.forall₂_same]
      intro t ht
      simp
    · intro vs hvs v hv
      obtain ⟨t, ht, rfl⟩ := List.mem_map.1 hvs
      obtain ⟨kv, -, rfl⟩ := List.mem_map.1 hv
      exact abs_le.1 ((sq_le_one_iff_abs_le_one _).1 (pauli_bound (output_normalised (h t ht).unitary) kv.1))
    · rw [trueValues, List.zipWith_map_left, List.zipWith_map_right, List.zipWith_self, List.forall₂_map_right_iff, List.forall₂_same]
      intro t ht
      rw [varianceFrom_true]
      exact hvar t ht

theorem shots_suffice {ρ : String → ℂ} {S ε : ℝ} (hε : 0 < ε) (hS : 0 ≤ S) {k : ℕ} {tasks : List Task} {vars : List ℝ} (hshots : ∀ t ∈ tasks, 0 < shotsOf t)
    (hv : List.Forall₂ (fun t v => exactVar ρ t ≤ k * v) tasks vars) (hnn : ∀ v ∈ vars, 0 ≤ v)
    (hs : List.Forall₂ (fun t m => k * m / ε ^ 2 ≤ shotsOf t) tasks (vars.map fun v => S * √v)) :
    (tasks.map fun t => exactVar ρ t / shotsOf t).sum * S ≤ (vars.map Real.sqrt).sum * ε ^ 2 := by
  induction hv with
  | nil => simp
  | @cons t v tasks vars h1 h2 ih =>
    rw [List.map_cons, List.forall₂_cons] at hs
    have := ih (fun t ht => hshots t (by simp [ht])) (fun v hv => hnn v (by simp [hv])) hs.2
    rw [List.map_cons, List.sum_cons, List.map_cons, List.sum_cons, add_mul, add_mul]
    refine add_le_add ?_ this
    have hs0 : (0 : ℝ) < shotsOf t := by exact_mod_cast hshots t (by simp)
    have hsq := Real.sq_sqrt (hnn v (by simp))
    have hs1 := hs.1
    rw [div_le_iff₀ (by positivity)] at hs1
    rw [div_mul_eq_mul_div, div_le_iff₀ hs0]
    have a1 : exactVar ρ t * S ≤ k * v * S := mul_le_mul_of_nonneg_right h1 hS
    have a2 : k * v * S = k * (S * √v) * √v := by
      rw [show k * (S * √v) * √v = k * S * √v ^ 2 by ring, hsq]
      ring
    have a3 := mul_le_mul_of_nonneg_right hs1 (Real.sqrt_nonneg v)
    nlinarith

theorem variance_zero {ρ : String → ℂ} {k : ℕ} {tasks : List Task} {vars : List ℝ}
    (hv : List.Forall₂ (fun t v => exactVar ρ t ≤ k * v) tasks vars) (h0 : ∀ v ∈ vars, v = 0) : (tasks.map fun t => exactVar ρ t / shotsOf t).sum ≤ 0 := by
  induction hv with
  | nil => simp
  | @cons t v tasks vars h1 h2 ih =>
    rw [List.map_cons, List.sum_cons]
    have := ih fun v hv => h0 v (by simp [hv])
    rw [h0 v (by simp), mul_zero] at h1
    have := div_nonpos_of_nonpos_of_nonneg h1 (Nat.cast_nonneg (shotsOf t) : (0 : ℝ) ≤ shotsOf t)
    linarith

/-- C104, partial (the full claim, without the factor `k`, is false: `budget_counterexample`). The budget keeps its promise for tasks with at most `k` non-constant terms (`k = 1`: terms measured one by one): with at least `k · frame_meas / ε²` shots per
task, computed without prior knowledge or from the true expectation values, the variance of the sum of the estimates is at most `ε²`, in every state. -/
theorem budget_meets_partial {ρ : String → ℂ} {tasks : List Task} (h : ∀ t ∈ tasks, Groupable ρ t) {prior : Option (List ℝ)}
    (hprior : prior = none ∨ prior = some (trueValues ρ tasks).flatten) {k : ℕ} (hk : ∀ t ∈ tasks, (t.operator.filter fun kv => decide (kv.1 ≠ [])).length ≤ k) {ε : ℝ} (hε : 0 < ε) :
    ∃ K2 nterms frameMeas, estimateNmeas (tasks.map Task.operator) prior = .ok (K2, nterms, frameMeas) ∧
      (List.Forall₂ (fun t m => k * m / ε ^ 2 ≤ shotsOf t) tasks frameMeas →
        ∃ out, performContextSelection tasks = .ok out ∧
          ∀ {Ω : Type} [MeasurableSpace Ω] (P : Measure Ω) [IsProbabilityMeasure P] {run : Ω → Runner}
            {draw : (k : Fin (measuredTasks out).length) → Fin (shotsOf (measuredTasks out)[k]) → Ω → (Fin (measuredTasks out)[k].circuit.n → Bool)},
            Returns run (measuredTasks out) draw → Measures P ρ (measuredTasks out) draw →
            ∃ X : Ω → ℝ, (∀ ω, ∃ r, estimateByAveraging (run ω) out = .ok r ∧ r.length = tasks.length ∧ (∀ e ∈ r, e ≠ none) ∧ total r = X ω) ∧ MemLp X 2 P ∧
              P[X] = (tasks.map (exactMean ρ)).sum ∧ Var[X; P] ≤ ε ^ 2) := by
  obtain ⟨vars, hvars, hle⟩ := exactVar_le h hprior hk
  have hnn := (groupVariances_nonneg hvars).1
  refine ⟨_, _, _, estimateNmeas_spec hvars, fun hs => ?_⟩
  obtain ⟨out, h1, h2⟩ := tasks_statistics h
  refine ⟨out, h1, ?_⟩
  intro Ω _ P _ run draw hrun hdraw
  obtain ⟨X, x1, x2, x3, x4⟩ := h2 P hrun hdraw
  refine ⟨X, x1, x2, x3, ?_⟩
  rw [x4]
  have hS : 0 ≤ (vars.map Real.sqrt).sum := List.sum_nonneg fun x hx => by
    obtain ⟨w, _, rfl⟩ := List.mem_map.1 hx; exact Real.sqrt_nonneg _
  have hshots : ∀ t ∈ tasks, 0 < shotsOf t := by
    intro t ht
    obtain ⟨s, hs, e⟩ := (h t ht).shots
    simpa [shotsOf, e] using hs
  rcases hS.eq_or_lt with h0 | h0
  · refine (variance_zero hle ?_).trans (by positivity)
    intro v hv
    have h3 : √v ≤ 0 := by
      rw [h0]
      refine List.single_le_sum ?_ _ (List.mem_map_of_mem hv)
      intro x hx; obtain ⟨w, _, rfl⟩ := List.mem_map.1 hx; exact Real.sqrt_nonneg _
    exact le_antisymm (Real.sqrt_eq_zero'.1 (le_antisymm h3 (Real.sqrt_nonneg _))) (hnn v hv)
  · have := shots_suffice hε hS hshots hle hnn hs
    nlinarith

/-! ### Groups with correlated terms -/

/-- Two idle qubits whose observable is `X₀ + X₀ Z₁`. -/
def correlated (m : ℕ) : Task := ⟨[([(0, .X)], 1), ([(0, .X), (1, .Z)], 1)], ⟨[], 2⟩, some ((2 * m : ℕ) : ℤ)⟩

theorem correlated_groupable (ρ : String → ℂ) (m : ℕ) (hm : 0 < m) : Groupable ρ (correlated m) := by
  refine ⟨⟨by simp [WF, keys, correlated], ?_⟩, ?_, ?_, ?_, ?_, ⟨by intro h; simp [correlated] at h, by simp [correlated], by simp [correlated]⟩, by simp [correlated], 2 * m, by omega, rfl⟩
  · intro t ht
    simp only [correlated, keys, List.map_cons, List.map_nil, List.mem_cons, List.not_mem_nil, or_false] at ht
    rcases ht with rfl | rfl <;> exact ⟨by simp, by simp⟩
  · intro s hs u hu q x y hx hy
    simp only [correlated, keys, List.map_cons, List.map_nil, List.mem_cons, List.not_mem_nil, or_false] at hs hu
    rcases hs with rfl | rfl <;> rcases hu with rfl | rfl <;> simp only [List.mem_cons, Prod.mk.injEq, List.not_mem_nil, or_false] at hx hy <;> grind
  all_goals
    intro kv hkv
    simp only [correlated, List.mem_cons, List.not_mem_nil, or_false] at hkv
    rcases hkv with rfl | rfl <;> simp [correlated]
  all_goals norm_num

theorem correlated_values (ρ : String → ℂ) (m : ℕ) : exactVar ρ (correlated m) = 4 ∧ trueValues ρ [correlated m] = [[0, 0]] := by
  have hstate : (outputState ρ ⟨[], 2⟩ : (Fin 2 → Bool) → ℂ) = Pi.single (fun _ => false) 1 := Matrix.one_mulVec (Pi.single (fun _ => false) 1)
  have hb : ∀ A : Matrix (Fin 2 → Bool) (Fin 2 → Bool) ℂ, braket (Pi.single (fun _ => false) 1 : (Fin 2 → Bool) → ℂ) A = A (fun _ => false) (fun _ => false) := by
    intro A
    rw [braket, Matrix.mulVec_single_one, ← Pi.single_star, star_one, single_one_dotProduct]
    rfl
  have hsum : ∀ f : (Fin 2 → Bool) → ℂ, ∑ x, f x = f ![false, false] + f ![false, true] + (f ![true, false] + f ![true, true]) := by
    intro f
    rw [← (finTwoArrowEquiv Bool).symm.sum_comp, Fintype.sum_prod_type]
    simp [finTwoArrowEquiv]
    ring
  constructor
  · have h1 : exactVar ρ (correlated m) = qvar (Pi.single (fun _ => false) 1 : (Fin 2 → Bool) → ℂ) (opMatrix 2 [([(0, .X)], 1), ([(0, .X), (1, .Z)], 1)]) :=
      congrArg (fun ψ : (Fin 2 → Bool) → ℂ => qvar ψ (opMatrix 2 [([(0, .X)], 1), ([(0, .X), (1, .Z)], 1)])) hstate
    rw [h1, qvar, hb, hb, Matrix.mul_apply, hsum]
    simp [opMatrix, pauliString, tensor, letterAt, letterMatrix, pauliX, pauliZ, Matrix.one_apply]
    norm_num
  · have h1 : trueValues ρ [correlated m] = [[(braket (Pi.single (fun _ => false) 1 : (Fin 2 → Bool) → ℂ) (pauliString 2 [(0, .X)])).re,
        (braket (Pi.single (fun _ => false) 1 : (Fin 2 → Bool) → ℂ) (pauliString 2 [(0, .X), (1, .Z)])).re]] :=
      congrArg (fun ψ : (Fin 2 → Bool) → ℂ => [[(braket ψ (pauliString 2 [(0, .X)])).re, (braket ψ (pauliString 2 [(0, .X), (1, .Z)])).re]]) hstate
    rw [h1, hb, hb]
    simp [pauliString, tensor, letterAt, letterMatrix, pauliX, pauliZ]

/-- C104, counterexample. For groups the budget is too small, because the covariances of the group's terms are taken to be zero: two idle qubits measured with the
observable `X₀ + X₀ Z₁` and exactly the recommended shots for `ε = 1/√m`, from no prior or from the true expectation values, have a variance of `2 ε²`. -/
theorem budget_counterexample (ρ : String → ℂ) (m : ℕ) (hm : 0 < m) (prior : Option (List ℝ)) (hprior : prior = none ∨ prior = some (trueValues ρ [correlated m]).flatten) :
    ∃ K2 nterms frameMeas, estimateNmeas ([correlated m].map Task.operator) prior = .ok (K2, nterms, frameMeas) ∧
      List.Forall₂ (fun t μ => μ / (1 / √m) ^ 2 = shotsOf t) [correlated m] frameMeas ∧
      ∃ out, performContextSelection [correlated m] = .ok out ∧
        ∀ {Ω : Type} [MeasurableSpace Ω] (P : Measure Ω) [IsProbabilityMeasure P] {run : Ω → Runner}
          {draw : (k : Fin (measuredTasks out).length) → Fin (shotsOf (measuredTasks out)[k]) → Ω → (Fin (measuredTasks out)[k].circuit.n → Bool)},
          Returns run (measuredTasks out) draw → Measures P ρ (measuredTasks out) draw →
          ∃ X : Ω → ℝ, (∀ ω, ∃ r, estimateByAveraging (run ω) out = .ok r ∧ total r = X ω) ∧ Var[X; P] = 2 * (1 / √m) ^ 2 := by
  have hg := correlated_groupable ρ m hm
  have hm' : (0 : ℝ) < m := by exact_mod_cast hm
  have hε : (1 / √(m : ℝ)) ^ 2 = 1 / m := by rw [div_pow, one_pow, Real.sq_sqrt hm'.le]
  have hreal : ∀ g ∈ [correlated m].map Task.operator, ∀ kv ∈ g, kv.2.im = 0 := by
    intro g hg'
    obtain rfl : g = (correlated m).operator := by simpa using hg'
    exact hg.real
  have hvars : groupVariances ([correlated m].map Task.operator) prior = .ok [2] := by
    rcases hprior with rfl | rfl
    · rw [groupVariances_none ?_ hreal]
      · simp [varianceBound, correlated]
        norm_num
      · intro g hg'
        obtain rfl : g = (correlated m).operator := by simpa using hg'
        exact hg.canonical.1
    · rw [(correlated_values ρ m).2, groupVariances_some hreal]
      · simp [varianceFrom, correlated]
        norm_num
      · simp [correlated]
      · simp
  have hshots : shotsOf (correlated m) = 2 * m := by
    show ((2 * m : ℕ) : ℤ).toNat = 2 * m
    exact Int.toNat_natCast _
  obtain ⟨out, h1, h2⟩ := tasks_statistics (ρ := ρ) (tasks := [correlated m]) (by simpa using hg)
  refine ⟨_, _, _, estimateNmeas_spec hvars, ?_, out, h1, ?_⟩
  · rw [List.map_singleton, List.forall₂_cons, hshots, hε]
    refine ⟨?_, .nil⟩
    have h3 : √(2 : ℝ) * √2 = 2 := Real.mul_self_sqrt (by norm_num)
    simp only [List.map_cons, List.map_nil, List.sum_cons, List.sum_nil, add_zero, h3]
    push_cast
    field_simp
  · intro Ω _ P _ run draw hrun hdraw
    obtain ⟨X, x1, -, -, x4⟩ := h2 P hrun hdraw
    refine ⟨X, fun ω => ?_, ?_⟩
    · obtain ⟨r, r1, -, -, r4⟩ := x1 ω
      exact ⟨r, r1, r4⟩
    · rw [x4, List.map_singleton, List.sum_singleton, (correlated_values ρ m).1, hshots, hε]
      push_cast
      field_simp
      norm_num

/-! ### Proportional allocation -/

theorem zip_le {S T κ : ℝ} (hS : 0 < S) (hT : 0 < T) (hκ : 1 < κ) {vars : List ℝ} {shots : List ℤ} (hnn : ∀ v ∈ vars, 0 ≤ v)
    (h : List.Forall₂ (fun v (s : ℤ) => κ ≤ T * (√v / S) ∧ |(s : ℝ) - T * (√v / S)| < 1) vars shots) :
    (List.zipWith (fun (v : ℝ) (s : ℤ) => v / (s : ℝ)) vars shots).sum ≤ κ / (κ - 1) * (S * (vars.map Real.sqrt).sum / T) := by
  induction h with
  | nil => simp
  | @cons v s vars shots h1 h2 ih =>
    have := ih fun v hv => hnn v (by simp [hv])
    rw [List.zipWith_cons_cons, List.sum_cons, List.map_cons, List.sum_cons, mul_add, add_div, mul_add]
    refine add_le_add ?_ this
    obtain ⟨a1, a2⟩ := h1
    set σ := T * (√v / S) with hσ
    have hk : 0 < κ - 1 := by linarith
    have b1 : (s : ℝ) > σ - 1 := by have := (abs_lt.1 a2).1; linarith
    have b2 : (κ - 1) / κ * σ ≤ σ - 1 := by
      rw [div_mul_eq_mul_div, div_le_iff₀ (by linarith)]
      nlinarith
    have hσ0 : 0 < σ := by linarith
    have b3 : 0 < (κ - 1) / κ * σ := by
      have : 0 < κ := by linarith
      positivity
    have hsq := Real.sq_sqrt (hnn v (by simp))
    have hv0 : √v ≠ 0 := by
      intro h0
      rw [hσ, h0] at hσ0
      simp at hσ0
    calc v / s ≤ v / ((κ - 1) / κ * σ) := div_le_div_of_nonneg_left (hnn v (by simp)) b3 (by linarith)
      _ = κ / (κ - 1) * (S * √v / T) := by
        have h0 : κ ≠ 0 := by linarith
        rw [hσ]
        field_simp
        linarith

/-- C104. Proportional allocation is optimal up to rounding: if every task's share of the shots is at least `κ > 1`, then no other way to spend the total (even in fractions
of shots) has a variance, by the estimated variances of the tasks, smaller than `(κ - 1)/κ` times that of the allocation. -/
theorem proportional_near_optimal (argsort : List ℝ → List ℕ) (ha : IsArgsort argsort) (tasks : List Task) (T : ℤ) (ht : 0 < T)
    (prior : Option (List ℝ)) {vars : List ℝ} (hvars : groupVariances (tasks.map Task.operator) prior = .ok vars) (hpos : ∃ v ∈ vars, 0 < v) {κ : ℝ} (hκ : 1 < κ)
    (hshare : ∀ v ∈ vars, κ ≤ T * (√v / (vars.map Real.sqrt).sum)) :
    ∃ shots : List ℤ, allocateProportionally argsort tasks T prior = .ok (List.zipWith (fun t s => ⟨t.operator, t.circuit, some s⟩) tasks shots) ∧
      shots.length = tasks.length ∧ shots.sum = T ∧ (∀ s ∈ shots, 0 < s) ∧
      ∀ ms : List ℝ, ms.length = tasks.length → (∀ m ∈ ms, 0 < m) → ms.sum ≤ T →
        (List.zipWith (fun (v : ℝ) (s : ℤ) => v / (s : ℝ)) vars shots).sum ≤ κ / (κ - 1) * (List.zipWith (fun v m => v / m) vars ms).sum := by
  obtain ⟨shots, h1, h2, h3, h4, h5⟩ := allocateProportionally_spec argsort ha tasks T ht prior hvars hpos
  obtain ⟨hnn, hlen⟩ := groupVariances_nonneg hvars
  rw [List.length_map] at hlen
  have hS : 0 < (vars.map Real.sqrt).sum := by
    obtain ⟨v, hv, hv0⟩ := hpos
    refine lt_of_lt_of_le (Real.sqrt_pos.2 hv0) (List.single_le_sum ?_ _ (List.mem_map_of_mem hv))
    intro x hx; obtain ⟨w, _, rfl⟩ := List.mem_map.1 hx; exact Real.sqrt_nonneg _
  have hT : (0 : ℝ) < T := by exact_mod_cast ht
  have hf : List.Forall₂ (fun v (s : ℤ) => κ ≤ T * (√v / (vars.map Real.sqrt).sum) ∧ |(s : ℝ) - T * (√v / (vars.map Real.sqrt).sum)| < 1) vars shots := by
    rw [List.forall₂_iff_get]
    refine ⟨by rw [hlen, h2], fun i hi1 hi2 => ⟨hshare _ (List.get_mem _ _), ?_⟩⟩
    have := h5 i (by omega)
    rw [List.getD_eq_getElem _ _ hi2, List.getD_eq_getElem _ _ hi1] at this
    exact this
  refine ⟨shots, h1, h2, h3, ?_, ?_⟩
  · intro s hs
    obtain ⟨i, hi, rfl⟩ := List.mem_iff_getElem.1 hs
    rw [List.forall₂_iff_get] at hf
    obtain ⟨a, b⟩ := hf.2 i (by omega) hi
    have := (abs_lt.1 b).1
    have hp : (0 : ℝ) < (shots[i] : ℤ) := by
      simp only [List.get_eq_getElem] at a this
      linarith
    exact_mod_cast hp
  · intro ms hl hm hle
    obtain ⟨c1, c2, c3, c4⟩ := cauchy_lists vars ms (by rw [hlen, hl]) hnn hm
    refine (zip_le hS hT hκ hnn hf).trans (mul_le_mul_of_nonneg_left ?_ (div_nonneg (by linarith) (by linarith)))
    rw [div_le_iff₀ hT, ← sq]
    exact c1.trans (mul_le_mul_of_nonneg_left hle c2)

/-- C104, counterexample. Proportional allocation of fewer shots than there are tasks leaves some task without shots; unless that task is a constant, its estimate is 0 with
precision 0, whatever is measured and whatever its true value is. -/
theorem proportional_starves (argsort : List ℝ → List ℕ) (ha : IsArgsort argsort) (tasks : List Task) (T : ℤ) (ht : 0 < T) (hfew : T < tasks.length)
    (prior : Option (List ℝ)) {vars : List ℝ} (hvars : groupVariances (tasks.map Task.operator) prior = .ok vars) (hpos : ∃ v ∈ vars, 0 < v) :
    ∃ out, allocateProportionally argsort tasks T prior = .ok out ∧ ∃ i, ∃ hi : i < tasks.length, (out[i]?.map Task.operator = some tasks[i].operator) ∧
      (out[i]?.bind Task.shots = some 0) ∧
      (¬ ConstantOnly tasks[i].operator → ∀ (run : Runner) (ms : List (List (List ℕ))) (vals : List Meas.ExpectationValues),
        (measuredTasks out ≠ [] → run ((measuredTasks out).map fun t => (t.circuit, t.shots)) = .ok ms) → ms.length = (measuredTasks out).length →
        List.Forall₂ (fun (tm : Task × List (List ℕ)) v => measuredValue tm.1.operator tm.2 = .ok v) ((measuredTasks out).zip ms) vals →
        ∃ r, estimateByAveraging run out = .ok r ∧ r[i]? = some (some ⟨[0], some [[[0]]], some [[[0]]]⟩)) := by
  obtain ⟨shots, h1, h2, h3, h4, -⟩ := allocateProportionally_spec argsort ha tasks T ht prior hvars hpos
  have hz : ∃ s ∈ shots, s = 0 := by
    by_contra hcon
    push Not at hcon
    have : (shots.length : ℤ) ≤ shots.sum := by
      have h6 : ∀ s ∈ shots, 1 ≤ s := fun s hs => by
        have := h4 s hs
        have := hcon s hs
        omega
      clear h1 h2 h3 h4 hcon
      induction shots with
      | nil => simp
      | cons s shots ih =>
        have := ih fun s hs => h6 s (by simp [hs])
        have := h6 s (by simp)
        rw [List.length_cons, List.sum_cons]
        push_cast
        omega
    rw [h2, h3] at this
    omega
  obtain ⟨s, hs, h0⟩ := hz
  obtain ⟨i, hi, hsi⟩ := List.mem_iff_getElem.1 hs
  have hi' : i < tasks.length := by omega
  refine ⟨_, h1, i, hi', ?_, ?_, ?_⟩
  · simp [hi', hi]
  · simp [hi', hi, hsi, h0]
  · intro hc run ms vals hrun hml hv
    obtain ⟨r, r1, r2, r3⟩ := estimateByAveraging_spec run _ ms vals hrun hml hv
    refine ⟨r, r1, ?_⟩
    have := (r3 i (by rw [List.length_zipWith]; omega)).2.1
    simp only [List.getElem_zipWith] at this
    rw [this hc (by rw [hsi, h0]), constantValue, Complex.zero_re]

/-- Non-vacuity of the last theorem: two tasks and one shot. -/
example : ∃ vars, groupVariances ([⟨[([(0, .Z)], 1)], ⟨[], 2⟩, none⟩, ⟨[([(1, .Z)], 1)], ⟨[], 2⟩, none⟩].map Task.operator) none = .ok vars ∧ (∃ v ∈ vars, 0 < v) ∧ (1 : ℤ) < 2 :=
  ⟨_, groupVariances_none (by simp [WF, keys]) (by simp), ⟨1, by simp [varianceBound], one_pos⟩, by norm_num⟩

/-- Non-vacuity of the budget: a task with one term of coefficient 1, estimated to `ε = 1/10` with 100 shots. -/
example (ρ : String → ℂ) : (∀ t ∈ [(⟨[([(0, .X)], 1), ([], 3)], ⟨[], 1⟩, some 100⟩ : Task)], Groupable ρ t) ∧
    estimateNmeas ([(⟨[([(0, .X)], 1), ([], 3)], ⟨[], 1⟩, some 100⟩ : Task)].map Task.operator) none = .ok (1, 2, [1]) ∧
    List.Forall₂ (fun t (m : ℝ) => (1 : ℕ) * m / (1 / 10) ^ 2 ≤ shotsOf t) [(⟨[([(0, .X)], 1), ([], 3)], ⟨[], 1⟩, some 100⟩ : Task)] [1] := by
  refine ⟨?_, ?_, ?_⟩
  · intro t ht
    obtain rfl := List.mem_singleton.1 ht
    refine ⟨⟨by simp [WF, keys], ?_⟩, ?_, ?_, ?_, ?_, ⟨by intro h; simp at h, by simp, by simp⟩, by simp, 100, by omega, rfl⟩
    · intro t ht
      simp only [keys, List.map_cons, List.map_nil, List.mem_cons, List.not_mem_nil, or_false] at ht
      rcases ht with rfl | rfl <;> exact ⟨by simp, by simp⟩
    · intro s hs u hu q x y hx hy
      simp only [keys, List.map_cons, List.map_nil, List.mem_cons, List.not_mem_nil, or_false] at hs hu
      rcases hs with rfl | rfl <;> rcases hu with rfl | rfl <;> simp at hx hy
      rw [hx.2, hy.2]
    all_goals
      intro kv hkv
      simp only [List.mem_cons, List.not_mem_nil, or_false] at hkv
      rcases hkv with rfl | rfl <;> simp <;> norm_num
  · rw [estimateNmeas_spec (groupVariances_none (by simp [WF, keys]) ?_)]
    · simp [varianceBound]
    · intro g hg kv hkv
      obtain rfl := List.mem_singleton.1 hg
      simp only [List.mem_cons, List.not_mem_nil, or_false] at hkv
      rcases hkv with rfl | rfl <;> simp
  · simp [shotsOf]
    norm_num

end ZQ.Stat
