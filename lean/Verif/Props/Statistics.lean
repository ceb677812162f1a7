import Verif.Lemmas.SampleMean
import Verif.Props.Averaging
import Verif.Props.Expectation

/-!
# C103: what averaging over measurements estimates
-/

namespace ZQ.Stat

open ZQ ZQ.PyDict ZQ.Op ZQ.Circuits ZQ.Gates ZQ.Est ZQ.Expect MeasureTheory ProbabilityTheory Matrix

/-! ### Specification -/

/-- Specification: the variance of the observable `A` in the state `ψ`, `⟨A²⟩ - ⟨A⟩²`. -/
noncomputable def qvar {ι : Type} [Fintype ι] (ψ : ι → ℂ) (A : Matrix ι ι ℂ) : ℝ := (braket ψ (A * A)).re - (braket ψ A).re ^ 2

/-- Specification: the exact expectation value of a task, `⟨ψ|H|ψ⟩` in the state of its circuit. -/
noncomputable def exactMean (ρ : String → ℂ) (t : Task) : ℝ := (braket (outputState ρ t.circuit) (opMatrix t.circuit.n t.operator)).re

/-- Specification: the variance of the operator of a task in the state of its circuit. -/
noncomputable def exactVar (ρ : String → ℂ) (t : Task) : ℝ := qvar (outputState ρ t.circuit) (opMatrix t.circuit.n t.operator)

/-- The number of shots of a task. -/
def shotsOf (t : Task) : ℕ := (t.shots.getD 0).toNat

/-- Specification: a task which the estimation by averaging is made for: its operator consists of products of `Z`s on the circuit's qubits with real coefficients that
operator addition does not drop, its circuit is unitary, and it has a positive number of shots. -/
structure Ready (ρ : String → ℂ) (t : Task) : Prop where
  canonical : CanonicalOp t.operator
  ising : IsingOp t.operator
  big : ∀ kv ∈ t.operator, 1 / 10 ^ 8 ≤ ‖kv.2‖
  real : ∀ kv ∈ t.operator, kv.2.im = 0
  below : Below t.circuit.n t.operator
  unitary : Unitary ρ t.circuit
  qubits : 0 < t.circuit.n
  shots : ∃ s : ℕ, 0 < s ∧ t.shots = some (s : ℤ)

variable {Ω : Type} [MeasurableSpace Ω]

/-- Specification: independent measurements in the computational basis.  `draw k j ω` is the outcome of the `j`-th shot of task `k` in the run `ω`; it is `x` with
probability `|ψ_k(x)|²`, and all shots of all tasks are independent. -/
structure Measures (P : Measure Ω) (ρ : String → ℂ) (tasks : List Task)
    (draw : (k : Fin tasks.length) → Fin (shotsOf tasks[k]) → Ω → (Fin tasks[k].circuit.n → Bool)) : Prop where
  measurable : ∀ k j, Measurable (draw k j)
  independent : iIndepFun (fun kj : (k : Fin tasks.length) × Fin (shotsOf tasks[k]) => draw kj.1 kj.2) P
  law : ∀ k j x, P.real {ω | draw k j ω = x} = Complex.normSq (outputState ρ tasks[k].circuit x)

/-- Specification: the backend of the run `ω` returns, for each measured task, the bitstrings of its shots. -/
def Returns (run : Ω → Runner) (tasks : List Task)
    (draw : (k : Fin tasks.length) → Fin (shotsOf tasks[k]) → Ω → (Fin tasks[k].circuit.n → Bool)) : Prop :=
  ∀ ω, run ω (tasks.map fun t => (t.circuit, t.shots)) = .ok (List.ofFn fun k => List.ofFn fun j => bits (draw k j ω))

/-- The sum of all the values of all the tasks. -/
noncomputable def total (out : List (Option Meas.ExpectationValues)) : ℝ := (out.map fun e => (e.map fun v => v.values.sum).getD 0).sum

/-! ### Operators of `Z`s -/

/-- The value of an operator of `Z`s in the outcome `x`. -/
noncomputable def energyAt {n : ℕ} (o : Terms Letter) (x : Fin n → Bool) : ℝ := (o.map fun kv => kv.2.re * Meas.termSpin (kv.1.map Prod.fst) (bits x)).sum

theorem opMatrix_ising {n : ℕ} {o : Terms Letter} (hc : ∀ kv ∈ o, Canonical kv.1) (hz : ∀ kv ∈ o, AllZ kv.1) (hr : ∀ kv ∈ o, kv.2.im = 0) (hb : Below n o) :
    opMatrix n o = Matrix.diagonal fun x => ((energyAt o x : ℝ) : ℂ) := by
  induction o with
  | nil => ext x y; simp [opMatrix, energyAt, Matrix.diagonal_apply]
  | cons kv o ih =>
    have h1 := ih (fun kv h => hc kv (by simp [h])) (fun kv h => hz kv (by simp [h])) (fun kv h => hr kv (by simp [h])) (fun kv h => hb kv (by simp [h]))
    rw [show opMatrix n (kv :: o) = kv.2 • pauliString n kv.1 + opMatrix n o from rfl, h1,
      pauliString_allZ (hc kv (by simp)) (hz kv (by simp)) (hb kv (by simp))]
    have hre : kv.2 = ((kv.2.re : ℝ) : ℂ) := Complex.ext rfl (by simpa using hr kv (by simp))
    ext x y
    by_cases hxy : x = y
    · subst hxy
      simp only [Matrix.add_apply, Matrix.smul_apply, Matrix.diagonal_apply_eq, energyAt, List.map_cons, List.sum_cons, smul_eq_mul]
      push_cast
      rw [← hre]
    · simp [Matrix.diagonal_apply_ne _ hxy]

theorem braket_ising {n : ℕ} (ψ : (Fin n → Bool) → ℂ) {o : Terms Letter} (hc : ∀ kv ∈ o, Canonical kv.1) (hz : ∀ kv ∈ o, AllZ kv.1) (hr : ∀ kv ∈ o, kv.2.im = 0)
    (hb : Below n o) :
    (braket ψ (opMatrix n o)).re = ∑ x, Complex.normSq (ψ x) * energyAt o x ∧
      qvar ψ (opMatrix n o) = ∑ x, Complex.normSq (ψ x) * energyAt o x ^ 2 - (∑ x, Complex.normSq (ψ x) * energyAt o x) ^ 2 := by
  have h1 : (braket ψ (opMatrix n o)).re = ∑ x, Complex.normSq (ψ x) * energyAt o x := by
    rw [opMatrix_ising hc hz hr hb, braket_diagonal, Complex.ofReal_re]
  refine ⟨h1, ?_⟩
  rw [qvar, h1, opMatrix_ising hc hz hr hb, Matrix.diagonal_mul_diagonal,
    show (fun x : Fin n → Bool => ((energyAt o x : ℝ) : ℂ) * ((energyAt o x : ℝ) : ℂ)) = fun x => ((energyAt o x ^ 2 : ℝ) : ℂ) by
      funext x; push_cast; ring, braket_diagonal, Complex.ofReal_re]

/-! ### The sum of the estimates -/

theorem sum_by_count {α : Type} (q : α → Bool) (a : α → ℝ) (b : ℕ → ℝ) (l : List α) :
    (∑ i : Fin l.length, if q l[i] then b ((l.take i).filter q).length else a l[i]) =
      ((l.filter fun t => !q t).map a).sum + ∑ k ∈ Finset.range (l.filter q).length, b k := by
  induction l using List.reverseRecOn with
  | nil => simp
  | append_singleton l t ih =>
    have hsplit : (∑ i : Fin (l ++ [t]).length, if q (l ++ [t])[i] then b (((l ++ [t]).take i).filter q).length else a (l ++ [t])[i]) =
        (∑ i : Fin l.length, if q l[i] then b ((l.take i).filter q).length else a l[i]) + if q t then b (l.filter q).length else a t := by
      rw [← Fin.sum_congr' _ (show l.length + 1 = (l ++ [t]).length by simp), Fin.sum_univ_castSucc]
      congr 1
      · refine Finset.sum_congr rfl fun i _ => ?_
        simp only [Fin.getElem_fin, Fin.val_cast, Fin.val_castSucc]
        rw [List.getElem_append_left (by exact i.2), List.take_append_of_le_length (le_of_lt i.2)]
      · simp
    rw [hsplit, ih, List.filter_append, List.filter_append, List.map_append, List.sum_append, List.length_append]
    cases h : q t
    · simp [h]; ring
    · simp [h, Finset.sum_range_succ]; ring

theorem output_normalised {ρ : String → ℂ} {c : Circuit} (hc : Unitary ρ c) : ∑ x, Complex.normSq (outputState ρ c x) = 1 := by
  obtain ⟨w, -, -, -, h, -⟩ := wavefunction_amplitudes (W := Unit) ⟨fun _ => true, fun w sub v => (applyAll ρ sub.ops v, w)⟩ ρ (fun _ _ _ => rfl) c hc ⟨0, 0, ()⟩
  exact h

theorem Ready.canonicals {ρ : String → ℂ} {t : Task} (h : Ready ρ t) : ∀ kv ∈ t.operator, Canonical kv.1 := fun kv hkv => h.canonical.2 kv.1 (List.mem_map_of_mem hkv)

theorem Ready.zs {ρ : String → ℂ} {t : Task} (h : Ready ρ t) : ∀ kv ∈ t.operator, AllZ kv.1 := fun kv hkv => h.ising kv.1 (List.mem_map_of_mem hkv)

theorem Ready.shotsOf_pos {ρ : String → ℂ} {t : Task} (h : Ready ρ t) : 0 < shotsOf t ∧ t.shots = some (shotsOf t : ℤ) := by
  obtain ⟨s, h1, h2⟩ := h.shots
  unfold shotsOf
  rw [h2]
  simpa using h1

theorem constant_stats {ρ : String → ℂ} {t : Task} (h : Ready ρ t) {c : ℂ} (hc : t.operator = [([], c)]) : exactMean ρ t = c.re ∧ exactVar ρ t = 0 := by
  obtain ⟨h1, h2⟩ := braket_ising (outputState ρ t.circuit) h.canonicals h.zs h.real h.below
  have he : ∀ x : Fin t.circuit.n → Bool, energyAt t.operator x = c.re := by
    intro x; rw [hc]; simp [energyAt, Meas.termSpin]
  have hn := output_normalised h.unitary
  constructor
  · rw [exactMean, h1]
    simp only [he]
    rw [← Finset.sum_mul, hn, one_mul]
  · rw [exactVar, h2]
    simp only [he]
    rw [← Finset.sum_mul, ← Finset.sum_mul, hn]
    ring

theorem measured_total {ρ : String → ℂ} {t : Task} (h : Ready ρ t) (d : Fin (shotsOf t) → (Fin t.circuit.n → Bool)) :
    ∃ v, measuredValue t.operator (List.ofFn fun j => bits (d j)) = .ok v ∧ v.values.sum = ∑ j, energyAt t.operator (d j) / shotsOf t := by
  have hs := h.shotsOf_pos.1
  obtain ⟨v, h1, h2⟩ := measuredValue_spec h.canonical h.ising h.big t.circuit.n h.qubits h.below (List.ofFn fun j => bits (d j))
    (by intro e; have := congrArg List.length e; simp at this; omega)
    (by
      intro s hs
      obtain ⟨j, rfl⟩ := List.mem_ofFn.1 hs
      refine ⟨by simp [bits], ?_⟩
      intro b hb
      obtain ⟨q, rfl⟩ := List.mem_ofFn.1 hb
      cases d j q <;> simp)
  refine ⟨v, h1, ?_⟩
  rw [h2]
  have key : ∀ o : Terms Letter, (o.map fun kv => kv.2.re * Meas.mean (Meas.termSpin (kv.1.map Prod.fst)) (List.ofFn fun j => bits (d j))).sum =
      ∑ j, energyAt o (d j) / shotsOf t := by
    intro o
    induction o with
    | nil => simp [energyAt]
    | cons kv o ih =>
      rw [List.map_cons, List.sum_cons, ih]
      simp only [energyAt, List.map_cons, List.sum_cons, Meas.mean, List.length_ofFn, add_div, Finset.sum_add_distrib]
      congr 1
      rw [List.map_ofFn, List.sum_ofFn, Finset.sum_div, Finset.mul_sum]
      refine Finset.sum_congr rfl fun j _ => ?_
      simp only [Function.comp]
      ring
  exact key t.operator

theorem notMeasured_ready {ρ : String → ℂ} {t : Task} (h : Ready ρ t) : notMeasured t = true ↔ ConstantOnly t.operator := by
  rw [notMeasured_iff]
  obtain ⟨h1, h2⟩ := h.shotsOf_pos
  refine ⟨fun h => h.resolve_right ?_, .inl⟩
  rw [h2]
  intro e
  injection e with e
  omega

omit [MeasurableSpace Ω] in
/-- The sum of the estimates of all the tasks is a constant plus a sum of functions of the single shots. -/
theorem averaging_total {ρ : String → ℂ} {tasks : List Task} (hready : ∀ t ∈ tasks, Ready ρ t) {run : Ω → Runner}
    {draw : (k : Fin (measuredTasks tasks).length) → Fin (shotsOf (measuredTasks tasks)[k]) → Ω → (Fin (measuredTasks tasks)[k].circuit.n → Bool)}
    (hrun : Returns run (measuredTasks tasks) draw) (ω : Ω) :
    ∃ out, estimateByAveraging (run ω) tasks = .ok out ∧ out.length = tasks.length ∧ (∀ e ∈ out, e ≠ none) ∧
      total out = ((tasks.filter notMeasured).map (exactMean ρ)).sum +
        ∑ kj : (k : Fin (measuredTasks tasks).length) × Fin (shotsOf (measuredTasks tasks)[k]),
          energyAt (measuredTasks tasks)[kj.1].operator (draw kj.1 kj.2 ω) / shotsOf (measuredTasks tasks)[kj.1] := by
  have hmem : ∀ k : Fin (measuredTasks tasks).length, (measuredTasks tasks)[k] ∈ tasks := fun k => (List.mem_filter.1 (List.getElem_mem k.2)).1
  have hv := fun k : Fin (measuredTasks tasks).length => measured_total (hready _ (hmem k)) fun j => draw k j ω
  choose v hv1 hv2 using hv
  obtain ⟨out, h1, h2, h3⟩ := estimateByAveraging_spec (run ω) tasks (List.ofFn fun k => List.ofFn fun j => bits (draw k j ω)) (List.ofFn v) (fun _ => hrun ω) (by simp) (by
    rw [List.forall₂_iff_get]
    refine ⟨by simp, fun i hi1 hi2 => ?_⟩
    simp only [List.get_eq_getElem, List.getElem_zip, List.getElem_ofFn]
    exact hv1 ⟨i, by simpa using hi2⟩)
  -- every entry of the result
  have hent : ∀ i (hi : i < tasks.length), ∃ e, out[i]? = some (some e) ∧ e.values.sum = if !notMeasured tasks[i] then
      (if hk : ((tasks.take i).filter fun t => !notMeasured t).length < (measuredTasks tasks).length then (v ⟨_, hk⟩).values.sum else 0) else exactMean ρ tasks[i] := by
    intro i hi
    have hr := hready _ (List.getElem_mem hi)
    obtain ⟨a, -, b⟩ := h3 i hi
    by_cases hn : ConstantOnly tasks[i].operator
    · obtain ⟨c, hc⟩ := hn
      refine ⟨_, a c hc, ?_⟩
      rw [(notMeasured_ready hr).2 ⟨c, hc⟩, (constant_stats hr hc).1]
      simp [constantValue]
    · have hs : tasks[i].shots ≠ some 0 := by
        rw [hr.shotsOf_pos.2]
        intro e
        injection e with e
        have := hr.shotsOf_pos.1
        omega
      obtain ⟨m, w, w1, w2, w3⟩ := b hn hs
      have hnm : notMeasured tasks[i] = false := by
        rw [← Bool.not_eq_true, notMeasured_ready hr]; exact hn
      have hk : ((tasks.take i).filter fun t => !notMeasured t).length < (measuredTasks tasks).length := by
        by_contra hcon
        rw [List.getElem?_eq_none (by simpa using hcon)] at w1
        cases w1
      refine ⟨w, w3, ?_⟩
      rw [hnm, dif_pos hk]
      have htask : (measuredTasks tasks)[((tasks.take i).filter fun t => !notMeasured t).length] = tasks[i] := by
        have hg := getElem_filter_countP (fun t => !notMeasured t) tasks i hi (by simp [hnm])
        rw [List.countP_eq_length_filter] at hg
        have hg : (measuredTasks tasks)[((tasks.take i).filter fun t => !notMeasured t).length]? = some tasks[i] := hg
        rw [List.getElem?_eq_getElem hk] at hg
        exact Option.some.inj hg
      rw [List.getElem?_eq_getElem (by simpa using hk), List.getElem_ofFn] at w1
      have hv1' := hv1 ⟨_, hk⟩
      injection w1 with w1
      rw [w1] at hv1'
      have hop : (measuredTasks tasks)[(⟨_, hk⟩ : Fin (measuredTasks tasks).length)].operator = tasks[i].operator := congrArg Task.operator htask
      rw [hop, w2] at hv1'
      injection hv1' with hv1'
      rw [hv1']
      rfl
  refine ⟨out, h1, h2, ?_, ?_⟩
  · intro e he hcon
    obtain ⟨i, hi, rfl⟩ := List.getElem_of_mem he
    obtain ⟨e', he', -⟩ := hent i (by omega)
    rw [List.getElem?_eq_getElem hi] at he'
    rw [Option.some.inj he'] at hcon
    cases hcon
  · have hout : total out = ∑ i : Fin tasks.length, if !notMeasured tasks[i] then
        (if hk : ((tasks.take i).filter fun t => !notMeasured t).length < (measuredTasks tasks).length then (v ⟨_, hk⟩).values.sum else 0) else exactMean ρ tasks[i] := by
      have : out.map (fun e => (e.map fun v => v.values.sum).getD 0) = List.ofFn fun i : Fin tasks.length => if !notMeasured tasks[i] then
          (if hk : ((tasks.take i).filter fun t => !notMeasured t).length < (measuredTasks tasks).length then (v ⟨_, hk⟩).values.sum else 0) else exactMean ρ tasks[i] := by
        refine List.ext_getElem (by simp [h2]) fun i hi1 hi2 => ?_
        obtain ⟨e, he, he2⟩ := hent i (by simpa using hi2)
        have hi : i < out.length := by simpa using hi1
        rw [List.getElem?_eq_getElem hi] at he
        rw [List.getElem_map, Option.some.inj he, List.getElem_ofFn]
        exact he2
      rw [total, this, List.sum_ofFn]
    rw [hout, sum_by_count (fun t => !notMeasured t) (exactMean ρ) (fun k => if hk : k < (measuredTasks tasks).length then (v ⟨k, hk⟩).values.sum else 0) tasks]
    congr 1
    · simp
    · rw [show (tasks.filter fun t => !notMeasured t) = measuredTasks tasks from rfl, Finset.sum_range, Fintype.sum_sigma]
      refine Finset.sum_congr rfl fun k _ => ?_
      rw [dif_pos k.2]
      exact hv2 k

theorem sum_partition {α : Type} (q : α → Bool) (f : α → ℝ) (l : List α) :
    (l.map f).sum = ((l.filter q).map f).sum + ((l.filter fun t => !q t).map f).sum := by
  induction l with
  | nil => simp
  | cons t l ih =>
    rw [List.map_cons, List.sum_cons, ih]
    cases h : q t <;> simp [h] <;> ring

theorem sum_map_fin {α : Type} (f : α → ℝ) (l : List α) : (l.map f).sum = ∑ k : Fin l.length, f l[k] := by
  rw [← List.sum_ofFn]
  congr 1
  exact List.ext_getElem (by simp) fun i _ _ => by simp

/-- C103. Estimation by averaging never fails on such tasks, and the sum of its estimates has the exact mean: for every list of tasks on operators of `Z`s, all numbers
of shots and all backends that return independent measurements, its mean is the sum of the tasks' exact expectation values `⟨ψ|H|ψ⟩`, and its variance is the sum of the
operators' variances in the states of the circuits, each divided by the number of shots. -/
theorem averaging_statistics (P : Measure Ω) [IsProbabilityMeasure P] {ρ : String → ℂ} {tasks : List Task} (hready : ∀ t ∈ tasks, Ready ρ t) {run : Ω → Runner}
    {draw : (k : Fin (measuredTasks tasks).length) → Fin (shotsOf (measuredTasks tasks)[k]) → Ω → (Fin (measuredTasks tasks)[k].circuit.n → Bool)}
    (hrun : Returns run (measuredTasks tasks) draw) (hdraw : Measures P ρ (measuredTasks tasks) draw) :
    ∃ X : Ω → ℝ, (∀ ω, ∃ out, estimateByAveraging (run ω) tasks = .ok out ∧ out.length = tasks.length ∧ (∀ e ∈ out, e ≠ none) ∧ total out = X ω) ∧ MemLp X 2 P ∧
      P[X] = (tasks.map (exactMean ρ)).sum ∧ Var[X; P] = (tasks.map fun t => exactVar ρ t / shotsOf t).sum := by
  have hmem : ∀ k : Fin (measuredTasks tasks).length, (measuredTasks tasks)[k] ∈ tasks := fun k => (List.mem_filter.1 (List.getElem_mem k.2)).1
  obtain ⟨s1, s2, s3⟩ := sum_draws (P := P) (κ := (k : Fin (measuredTasks tasks).length) × Fin (shotsOf (measuredTasks tasks)[k]))
    (S := fun kj => draw kj.1 kj.2) (fun kj => hdraw.measurable kj.1 kj.2) hdraw.independent (fun kj x => hdraw.law kj.1 kj.2 x)
    (fun kj x => energyAt (measuredTasks tasks)[kj.1].operator x / shotsOf (measuredTasks tasks)[kj.1])
    (((tasks.filter notMeasured).map (exactMean ρ)).sum)
  refine ⟨_, fun ω => ?_, s1, ?_, ?_⟩
  · obtain ⟨out, h1, h2, h3, h4⟩ := averaging_total hready hrun ω
    exact ⟨out, h1, h2, h3, h4⟩
  · rw [s2, sum_partition notMeasured (exactMean ρ) tasks]
    congr 1
    rw [Fintype.sum_sigma, show (tasks.filter fun t => !notMeasured t) = measuredTasks tasks from rfl, sum_map_fin]
    refine Finset.sum_congr rfl fun k _ => ?_
    have hr := hready _ (hmem k)
    have hs : ((shotsOf (measuredTasks tasks)[k] : ℕ) : ℝ) ≠ 0 := by exact_mod_cast hr.shotsOf_pos.1.ne'
    have hb := (braket_ising (outputState ρ (measuredTasks tasks)[k].circuit) hr.canonicals hr.zs hr.real hr.below).1
    refine (Finset.sum_congr rfl (g := fun _ => exactMean ρ (measuredTasks tasks)[k] / shotsOf (measuredTasks tasks)[k]) fun j _ => ?_).trans ?_
    · rw [exactMean, hb, Finset.sum_div]
      exact Finset.sum_congr rfl fun x _ => (mul_div_assoc _ _ _).symm
    rw [Finset.sum_const, Finset.card_univ, Fintype.card_fin, nsmul_eq_mul]
    field_simp
  · rw [s3, sum_partition notMeasured (fun t => exactVar ρ t / shotsOf t) tasks, List.sum_eq_zero (l := List.map _ (tasks.filter notMeasured)), zero_add, Fintype.sum_sigma,
      show (tasks.filter fun t => !notMeasured t) = measuredTasks tasks from rfl, sum_map_fin]
    · refine Finset.sum_congr rfl fun k _ => ?_
      have hr := hready _ (hmem k)
      have hs : ((shotsOf (measuredTasks tasks)[k] : ℕ) : ℝ) ≠ 0 := by exact_mod_cast hr.shotsOf_pos.1.ne'
      have hb := (braket_ising (outputState ρ (measuredTasks tasks)[k].circuit) hr.canonicals hr.zs hr.real hr.below).2
      refine (Finset.sum_congr rfl (g := fun _ => exactVar ρ (measuredTasks tasks)[k] / shotsOf (measuredTasks tasks)[k] ^ 2) fun j _ => ?_).trans ?_
      · rw [exactVar, hb, sub_div, ← div_pow, Finset.sum_div, Finset.sum_div]
        congr 1
        · exact Finset.sum_congr rfl fun x _ => by rw [div_pow, mul_div_assoc]
        · exact congrArg (· ^ 2) (Finset.sum_congr rfl fun x _ => (mul_div_assoc _ _ _).symm)
      rw [Finset.sum_const, Finset.card_univ, Fintype.card_fin, nsmul_eq_mul]
      field_simp
    · intro x hx
      obtain ⟨t, ht, rfl⟩ := List.mem_map.1 hx
      obtain ⟨h1, h2⟩ := List.mem_filter.1 ht
      have hr := hready t h1
      obtain ⟨c, hc⟩ := (notMeasured_ready hr).1 h2
      rw [(constant_stats hr hc).2, zero_div]

/-- C103. Chebyshev's inequality for the estimate: the probability that the sum of the estimates is off by `δ` or more is at most the sum of the variances per shot,
divided by `δ²`. -/
theorem averaging_error (P : Measure Ω) [IsProbabilityMeasure P] {ρ : String → ℂ} {tasks : List Task} (hready : ∀ t ∈ tasks, Ready ρ t) {run : Ω → Runner}
    {draw : (k : Fin (measuredTasks tasks).length) → Fin (shotsOf (measuredTasks tasks)[k]) → Ω → (Fin (measuredTasks tasks)[k].circuit.n → Bool)}
    (hrun : Returns run (measuredTasks tasks) draw) (hdraw : Measures P ρ (measuredTasks tasks) draw) {δ : ℝ} (hδ : 0 < δ) :
    P {ω | ∃ out, estimateByAveraging (run ω) tasks = .ok out ∧ δ ≤ |total out - (tasks.map (exactMean ρ)).sum|} ≤
      ENNReal.ofReal ((tasks.map fun t => exactVar ρ t / shotsOf t).sum / δ ^ 2) := by
  obtain ⟨X, h1, h2, h3, h4⟩ := averaging_statistics P hready hrun hdraw
  refine le_trans (measure_mono ?_) (h4 ▸ meas_ge_le_variance_div_sq h2 hδ)
  rintro ω ⟨out, ho, hd⟩
  obtain ⟨out', ho', -, -, ht⟩ := h1 ω
  rw [ho] at ho'
  cases ho'
  show δ ≤ |X ω - P[X]|
  rw [h3, ← ht]
  exact hd

end ZQ.Stat
