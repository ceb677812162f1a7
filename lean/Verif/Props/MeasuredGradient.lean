import Verif.Model.MeasuredCost
import Verif.Props.Born
import Verif.Props.Confidence
import Verif.Props.EnergyGradient

/-!
# C140: gradients of measured energies
-/

namespace ZQ.Stat

open ZQ ZQ.PyDict ZQ.Op ZQ.Circuits ZQ.Gates ZQ.Est ZQ.Expect ZQ.Backend ZQ.Gradient MeasureTheory ProbabilityTheory Matrix

variable {Ω : Type} [MeasurableSpace Ω]

/-! ## One evaluation -/

/-- What estimation by averaging returns in total, if `w` generators were made before. -/
noncomputable def estimate (r : Randomness) (ρ : String → ℂ) (T : List Task) (w : ℕ) : ℝ :=
  ((T.filter notMeasured).map (exactMean ρ)).sum + ∑ kj : (k : Fin (measuredTasks T).length) × Fin (shotsOf (measuredTasks T)[k]),
    energyAt (measuredTasks T)[kj.1].operator (outcome ρ (measuredTasks T)[kj.1].circuit (r.fresh (w + kj.1) kj.2)) / shotsOf (measuredTasks T)[kj.1]

theorem simLoop_world (r : Randomness) (seed : Option ℕ) (ρ : String → ℂ) : ∀ (cs : List (Circuit × Option ℤ)) (st : St ℕ) ms,
    (simLoop r seed ρ cs st).1 = .ok ms → (simLoop r seed ρ cs st).2.world = st.world + cs.length := by
  intro cs
  induction cs with
  | nil => intro st ms _; rfl
  | cons cn cs ih =>
    obtain ⟨c, n⟩ := cn
    intro st ms h
    have hw : ∀ m, (simRun r seed ρ c n st).1 = .ok m → (simRun r seed ρ c n st).2.world = st.world + 1 := by
      intro m hm
      cases n with
      | none => cases hm
      | some n => rfl
    rw [simLoop] at h ⊢
    cases hx : simRun r seed ρ c n st with
    | mk o st1 =>
      rw [hx] at h hw
      cases o with
      | error e => cases h
      | ok m =>
        have hw1 : st1.world = st.world + 1 := hw m rfl
        dsimp only at h ⊢
        have ih1 := ih st1
        cases hy : simLoop r seed ρ cs st1 with
        | mk o st2 =>
          rw [hy] at h ih1
          cases o with
          | error e => cases h
          | ok ms' =>
            have := ih1 ms' rfl
            dsimp only at this ⊢
            rw [this, hw1, List.length_cons]
            omega

/-- Estimation by averaging on a simulator without a seed never fails, returns the estimate and makes a generator for each task that is measured. -/
theorem method_value {r : Randomness} (hr : ∀ k j, 0 ≤ r.fresh k j ∧ r.fresh k j < 1) {ρ : String → ℂ} {T : List Task} (hready : ∀ t ∈ T, Ready ρ t) (st : St ℕ) :
    ∃ es st', averagingMethod r none ρ st T = (.ok es, st') ∧ st'.world = st.world + (measuredTasks T).length ∧ (Cost.summarize es).value = estimate r ρ T st.world := by
  have hloop := simLoop_stream (seed := none) hr (measuredTasks T) (ready_runs hready) st
  have hrun : Returns (Ω := Unit) (fun _ => simRunner r none ρ st) (measuredTasks T)
      (fun k j _ => outcome ρ (measuredTasks T)[k].circuit (r.fresh (st.world + k) j)) := fun _ => hloop
  obtain ⟨out, h1, h2, h3, h4⟩ := averaging_total hready hrun ()
  have hnon : ∃ l, evaluateNonMeasured (split T).2.1 = .ok l := ⟨(T.filter notMeasured).map fun t => plainValue t.operator, by
    rw [evaluateNonMeasured, mapM_ok_iff, show (split T).2.1 = T.filter notMeasured from (split_fst 0 T).2, List.forall₂_map_right_iff, List.forall₂_same]
    exact fun t ht => evaluateNonMeasured1_ok (List.mem_filter.1 ht).2⟩
  obtain ⟨l, hl⟩ := hnon
  have hs1 : (split T).1 = measuredTasks T := (split_fst 0 T).1
  obtain ⟨vs, rfl⟩ : ∃ vs : List Meas.ExpectationValues, out = vs.map some := by
    refine ⟨out.filterMap id, ?_⟩
    clear h1 h2 h4
    induction out with
    | nil => rfl
    | cons e out ih =>
      cases e with
      | none => exact absurd rfl (h3 none (by simp))
      | some v =>
        have := ih fun e he => h3 e (by simp [he])
        rw [List.filterMap_cons]
        simpa using this
  have hvals : (vs.map some).mapM toValues = .ok (vs.map fun v => (⟨v.values.map fun x : ℝ => (x : ℂ), false, v.correlations, v.covariances⟩ : Cost.Values)) := by
    rw [mapM_ok_iff, List.forall₂_map_left_iff, List.forall₂_map_right_iff, List.forall₂_same]
    exact fun v _ => rfl
  refine ⟨vs.map fun v => ⟨v.values.map fun x : ℝ => (x : ℂ), false, v.correlations, v.covariances⟩,
    if (measuredTasks T).isEmpty then st else (simLoop r none ρ ((measuredTasks T).map fun t => (t.circuit, t.shots)) st).2, ?_, ?_, ?_⟩
  · unfold averagingMethod
    rw [hl, hs1]
    dsimp only
    rw [h1]
    exact congrArg (·, _) hvals
  · by_cases he : measuredTasks T = []
    · rw [he]; simp
    · rw [if_neg (by simpa using he), simLoop_world _ _ _ _ _ _ hloop, List.length_map]
  · rw [summarize_total, h4]
    rfl

/-- An exception of the estimation by averaging is the exception of the method, and a `None` among its results is an exception too. -/
theorem method_raises (r : Randomness) (seed : Option ℕ) (ρ : String → ℂ) (st : St ℕ) (T : List Task) :
    (∀ e, estimateByAveraging (simRunner r seed ρ st) T = .error e → (averagingMethod r seed ρ st T).1 = .error e) ∧
    ∀ out, estimateByAveraging (simRunner r seed ρ st) T = .ok out → none ∈ out → (averagingMethod r seed ρ st T).1 = .error .typeError := by
  have key : (averagingMethod r seed ρ st T).1 = (estimateByAveraging (simRunner r seed ρ st) T).bind (List.mapM toValues) := by
    unfold averagingMethod
    cases hx : evaluateNonMeasured (split T).2.1 with
    | error e =>
      have : estimateByAveraging (simRunner r seed ρ st) T = .error e := by
        unfold estimateByAveraging
        dsimp only
        rw [hx]
        rfl
      rw [this]
      rfl
    | ok l => rfl
  rw [key]
  refine ⟨fun e he => by rw [he]; rfl, fun out hout hn => ?_⟩
  rw [hout]
  show out.mapM toValues = .error .typeError
  clear hout
  induction out with
  | nil => cases hn
  | cons v out ih =>
    rw [List.mapM_cons]
    cases v with
    | none => rfl
    | some v =>
      rw [ih (by simpa using hn)]
      rfl

/-- A case: without a number of shots the simulator raises. -/
example (r : Randomness) (ρ : String → ℂ) (st : St ℕ) : (averagingMethod r none ρ st [⟨[([(0, .Z)], 1)], ⟨[], 1⟩, none⟩]).1 = .error .typeError := by
  have hsplit : split [(⟨[([(0, .Z)], 1)], ⟨[], 1⟩, none⟩ : Task)] = ([⟨[([(0, .Z)], 1)], ⟨[], 1⟩, none⟩], [], [0], []) := by
    simp [split, splitLoop, notMeasured, keys]
  refine (method_raises r none ρ st _).1 _ ?_
  unfold estimateByAveraging
  rw [hsplit]
  rfl

/-! ## Differences of two evaluations -/

theorem estimate_statistics (P : Measure Ω) [IsProbabilityMeasure P] {r : Ω → Randomness} (hr : FreshRandom P r) {ρ : String → ℂ} {T : List Task} (hready : ∀ t ∈ T, Ready ρ t) (w : ℕ) :
    MemLp (fun ω => estimate (r ω) ρ T w) 2 P ∧ P[fun ω => estimate (r ω) ρ T w] = (T.map (exactMean ρ)).sum ∧
      Var[fun ω => estimate (r ω) ρ T w; P] = (T.map fun t => exactVar ρ t / shotsOf t).sum := by
  obtain ⟨X, h1, h2, h3, h4⟩ := simulator_statistics P hr hready (⟨0, 0, w⟩ : St ℕ)
  have : X = fun ω => estimate (r ω) ρ T w := by
    funext ω
    have hrange : ∀ k j, 0 ≤ (r ω).fresh k j ∧ (r ω).fresh k j < 1 := fun k j => (hr.1 k j).range ω
    have hrun : Returns (Ω := Unit) (fun _ => simRunner (r ω) none ρ (⟨0, 0, w⟩ : St ℕ)) (measuredTasks T)
        (fun k j _ => outcome ρ (measuredTasks T)[k].circuit ((r ω).fresh (w + k) j)) :=
      fun _ => simLoop_stream (seed := none) hrange (measuredTasks T) (ready_runs hready) _
    obtain ⟨out, a1, -, -, a4⟩ := averaging_total hready hrun ()
    obtain ⟨out', b1, -, -, b4⟩ := h1 ω
    rw [a1] at b1
    cases b1
    rw [← b4, a4]
    rfl
  rw [← this]
  exact ⟨h2, h3, h4⟩

/-- The numbers that an estimate depends on. -/
def used (T : List Task) (w : ℕ) : Finset (ℕ × ℕ) :=
  Finset.univ.image fun kj : (k : Fin (measuredTasks T).length) × Fin (shotsOf (measuredTasks T)[k]) => (w + (kj.1 : ℕ), (kj.2 : ℕ))

theorem estimate_factor (ρ : String → ℂ) (T : List Task) (w : ℕ) : ∃ φ : (used T w → ℝ) → ℝ, Measurable φ ∧ ∀ r : Randomness, estimate r ρ T w = φ fun i => r.fresh i.1.1 i.1.2 := by
  refine ⟨fun y => ((T.filter notMeasured).map (exactMean ρ)).sum + ∑ kj : (k : Fin (measuredTasks T).length) × Fin (shotsOf (measuredTasks T)[k]),
    energyAt (measuredTasks T)[kj.1].operator (outcome ρ (measuredTasks T)[kj.1].circuit (y ⟨(w + (kj.1 : ℕ), (kj.2 : ℕ)), Finset.mem_image_of_mem _ (Finset.mem_univ kj)⟩)) /
      shotsOf (measuredTasks T)[kj.1], ?_, fun r => rfl⟩
  refine measurable_const.add (Finset.measurable_sum _ fun kj _ => Measurable.div_const ?_ _)
  exact (Measurable.of_discrete (f := fun x => energyAt (measuredTasks T)[kj.1].operator x)).comp ((measurable_outcome ρ _).comp (measurable_pi_apply _))

/-- Estimates made one after the other are independent. -/
theorem estimate_independent (P : Measure Ω) {r : Ω → Randomness} (hr : FreshRandom P r) (ρ : String → ℂ) (T T' : List Task) (w w' : ℕ)
    (hw : w + (measuredTasks T).length ≤ w') : IndepFun (fun ω => estimate (r ω) ρ T w) (fun ω => estimate (r ω) ρ T' w') P := by
  obtain ⟨φ, hφ, e⟩ := estimate_factor ρ T w
  obtain ⟨φ', hφ', e'⟩ := estimate_factor ρ T' w'
  have hd : Disjoint (used T w) (used T' w') := by
    rw [Finset.disjoint_left]
    intro x hx hx'
    obtain ⟨kj, -, rfl⟩ := Finset.mem_image.1 hx
    obtain ⟨kj', -, h⟩ := Finset.mem_image.1 hx'
    have h1 : w' + (kj'.1 : ℕ) = w + (kj.1 : ℕ) := congrArg Prod.fst h
    have := kj.1.2
    omega
  have := (hr.2.indepFun_finset _ _ hd fun kj => (hr.1 kj.1 kj.2).measurable).comp hφ hφ'
  have h1 : (fun ω => estimate (r ω) ρ T w) = φ ∘ fun ω (i : used T w) => (r ω).fresh i.1.1 i.1.2 := funext fun ω => e (r ω)
  have h2 : (fun ω => estimate (r ω) ρ T' w') = φ' ∘ fun ω (i : used T' w') => (r ω).fresh i.1.1 i.1.2 := funext fun ω => e' (r ω)
  rw [h1, h2]
  exact this

/-- The quotient of the difference of two estimates made one after the other. -/
theorem quotient_statistics (P : Measure Ω) [IsProbabilityMeasure P] {r : Ω → Randomness} (hr : FreshRandom P r) {ρ : String → ℂ} {T T' : List Task}
    (hT : ∀ t ∈ T, Ready ρ t) (hT' : ∀ t ∈ T', Ready ρ t) (w w' : ℕ) (hw : w + (measuredTasks T).length ≤ w') (d : ℝ) :
    MemLp (fun ω => (estimate (r ω) ρ T w - estimate (r ω) ρ T' w') / d) 2 P ∧
      P[fun ω => (estimate (r ω) ρ T w - estimate (r ω) ρ T' w') / d] = ((T.map (exactMean ρ)).sum - (T'.map (exactMean ρ)).sum) / d ∧
      Var[fun ω => (estimate (r ω) ρ T w - estimate (r ω) ρ T' w') / d; P] =
        ((T.map fun t => exactVar ρ t / shotsOf t).sum + (T'.map fun t => exactVar ρ t / shotsOf t).sum) / d ^ 2 := by
  obtain ⟨a1, a2, a3⟩ := estimate_statistics P hr hT w
  obtain ⟨b1, b2, b3⟩ := estimate_statistics P hr hT' w'
  have hfun : (fun ω => (estimate (r ω) ρ T w - estimate (r ω) ρ T' w') / d) = fun ω => d⁻¹ * ((fun ω => estimate (r ω) ρ T w) - fun ω => estimate (r ω) ρ T' w') ω := by
    funext ω
    rw [div_eq_inv_mul]
    rfl
  have hcov : cov[fun ω => estimate (r ω) ρ T w, fun ω => estimate (r ω) ρ T' w'; P] = 0 :=
    (estimate_independent P hr ρ T T' w w' hw).covariance_eq_zero a1 b1
  rw [hfun]
  refine ⟨(a1.sub b1).const_mul _, ?_, ?_⟩
  · rw [integral_const_mul, integral_sub' (a1.integrable (by norm_num)) (b1.integrable (by norm_num)), a2, b2, div_eq_inv_mul]
  · rw [variance_const_mul, variance_sub a1 b1, hcov, a3, b3, mul_zero, sub_zero, div_eq_inv_mul, inv_pow]

/-- Specification: how far estimates can be from the energy: the squares of the reaches of the operators, divided by the numbers of shots. -/
noncomputable def reachSum (T : List Task) : ℝ := (T.map fun t => reach t.operator ^ 2 / shotsOf t).sum

theorem reachSum_shots {ρ : String → ℂ} {T : List Task} (hT : ∀ t ∈ T, Ready ρ t) :
    ∑ kj : (k : Fin (measuredTasks T).length) × Fin (shotsOf (measuredTasks T)[k]), (reach (measuredTasks T)[kj.1].operator / shotsOf (measuredTasks T)[kj.1]) ^ 2 = reachSum T := by
  have hmem : ∀ k : Fin (measuredTasks T).length, (measuredTasks T)[k] ∈ T := fun k => (List.mem_filter.1 (List.getElem_mem k.2)).1
  rw [reachSum, sum_partition notMeasured (fun t => reach t.operator ^ 2 / shotsOf t) T, List.sum_eq_zero (l := List.map _ (T.filter notMeasured)), zero_add,
    show (T.filter fun t => !notMeasured t) = measuredTasks T from rfl, sum_map_fin, Fintype.sum_sigma]
  · refine Finset.sum_congr rfl fun k _ => ?_
    have hs : ((shotsOf (measuredTasks T)[k] : ℕ) : ℝ) ≠ 0 := by exact_mod_cast (hT _ (hmem k)).shotsOf_pos.1.ne'
    refine (Finset.sum_congr rfl (g := fun _ => reach (measuredTasks T)[k].operator ^ 2 / shotsOf (measuredTasks T)[k] ^ 2) fun j _ => by dsimp only; rw [div_pow]).trans ?_
    rw [Finset.sum_const, Finset.card_univ, Fintype.card_fin, nsmul_eq_mul]
    field_simp
  · intro x hx
    obtain ⟨t, ht, rfl⟩ := List.mem_map.1 hx
    obtain ⟨h1, h2⟩ := List.mem_filter.1 ht
    obtain ⟨c, hc⟩ := (notMeasured_ready (hT t h1)).1 h2
    simp [reach, hc]

/-- The quotient of the difference of two estimates made one after the other is far from its mean with a probability that is exponentially small. -/
theorem quotient_tail (P : Measure Ω) [IsProbabilityMeasure P] {r : Ω → Randomness} (hr : FreshRandom P r) {ρ : String → ℂ} {T T' : List Task}
    (hT : ∀ t ∈ T, Ready ρ t) (hT' : ∀ t ∈ T', Ready ρ t) (w w' : ℕ) (hw : w + (measuredTasks T).length ≤ w') (d : ℝ) (hd : d ≠ 0) {δ : ℝ} (hδ : 0 ≤ δ) :
    P.real {ω | δ ≤ |(estimate (r ω) ρ T w - estimate (r ω) ρ T' w') / d - P[fun ω => (estimate (r ω) ρ T w - estimate (r ω) ρ T' w') / d]|} ≤
      2 * Real.exp (-(d ^ 2 * δ ^ 2) / (2 * (reachSum T + reachSum T'))) := by
  let κ := ((k : Fin (measuredTasks T).length) × Fin (shotsOf (measuredTasks T)[k])) ⊕ ((k : Fin (measuredTasks T').length) × Fin (shotsOf (measuredTasks T')[k]))
  let task : κ → Task := Sum.elim (fun kj => (measuredTasks T)[kj.1]) fun kj => (measuredTasks T')[kj.1]
  let idx : κ → ℕ × ℕ := Sum.elim (fun kj => (w + (kj.1 : ℕ), (kj.2 : ℕ))) fun kj => (w' + (kj.1 : ℕ), (kj.2 : ℕ))
  let sgn : κ → ℝ := Sum.elim (fun _ => 1 / d) fun _ => -1 / d
  let cst : Task → ℝ := fun t => ((t.operator.filter fun kv => kv.1.isEmpty).map fun kv => kv.2.re).sum
  have hidx : Function.Injective idx := by
    rintro (⟨k, j⟩ | ⟨k, j⟩) (⟨k', j'⟩ | ⟨k', j'⟩) h
    · obtain ⟨h1, h2⟩ := Prod.mk.inj h
      dsimp only at h1 h2
      obtain rfl : k = k' := Fin.ext (by omega)
      obtain rfl : j = j' := Fin.ext h2
      rfl
    · obtain ⟨h1, h2⟩ := Prod.mk.inj h
      dsimp only at h1 h2
      have := k.2
      omega
    · obtain ⟨h1, h2⟩ := Prod.mk.inj h
      dsimp only at h1 h2
      have := k'.2
      omega
    · obtain ⟨h1, h2⟩ := Prod.mk.inj h
      dsimp only at h1 h2
      obtain rfl : k = k' := Fin.ext (by omega)
      obtain rfl : j = j' := Fin.ext h2
      rfl
  have hind : iIndepFun (fun (i : κ) ω => outcome ρ (task i).circuit ((r ω).fresh (idx i).1 (idx i).2)) P :=
    (hr.2.precomp hidx).comp (γ := fun i => Fin (task i).circuit.n → Bool) (fun i x => outcome ρ (task i).circuit x) fun i => measurable_outcome ρ _
  have hh := hoeffding_draws (P := P) (κ := κ) (O := fun i => Fin (task i).circuit.n → Bool) (S := fun i ω => outcome ρ (task i).circuit ((r ω).fresh (idx i).1 (idx i).2))
    (fun i => (measurable_outcome ρ _).comp (hr.1 _ _).measurable) hind
    (fun i x => sgn i * (energyAt (task i).operator x / shotsOf (task i)))
    ((((T.filter notMeasured).map (exactMean ρ)).sum - ((T'.filter notMeasured).map (exactMean ρ)).sum) / d)
    (fun i => sgn i * (cst (task i) / shotsOf (task i)) - reach (task i).operator / shotsOf (task i) / |d|)
    (fun i => sgn i * (cst (task i) / shotsOf (task i)) + reach (task i).operator / shotsOf (task i) / |d|)
    (fun i x => by
      have hs : |sgn i| = 1 / |d| := by
        rcases i with i | i
        · show |1 / d| = _
          rw [abs_div, abs_one]
        · show |-1 / d| = _
          rw [abs_div, abs_neg, abs_one]
      obtain ⟨a, b⟩ := energyAt_reach (task i).operator x
      have h1 : |sgn i * (energyAt (task i).operator x / shotsOf (task i)) - sgn i * (cst (task i) / shotsOf (task i))| ≤ reach (task i).operator / shotsOf (task i) / |d| := by
        rw [← mul_sub, ← sub_div, abs_mul, abs_div, hs, Nat.abs_cast, div_mul_eq_mul_div, one_mul]
        gcongr
        rw [abs_le]
        constructor <;> linarith
      rw [abs_le] at h1
      constructor <;> linarith [h1.1, h1.2]) hδ
  have hsum : ∑ i : κ, ((sgn i * (cst (task i) / shotsOf (task i)) + reach (task i).operator / shotsOf (task i) / |d|) -
      (sgn i * (cst (task i) / shotsOf (task i)) - reach (task i).operator / shotsOf (task i) / |d|)) ^ 2 = 4 * (reachSum T + reachSum T') / d ^ 2 := by
    have e : ∀ i : κ, ((sgn i * (cst (task i) / shotsOf (task i)) + reach (task i).operator / shotsOf (task i) / |d|) -
      (sgn i * (cst (task i) / shotsOf (task i)) - reach (task i).operator / shotsOf (task i) / |d|)) ^ 2 = 4 / d ^ 2 * (reach (task i).operator / shotsOf (task i)) ^ 2 := by
      intro i
      rw [show ∀ x y : ℝ, (x + y - (x - y)) ^ 2 = 4 * y ^ 2 by intros; ring, div_pow _ |d|, sq_abs]
      ring
    rw [Finset.sum_congr rfl fun i _ => e i, ← Finset.mul_sum, Fintype.sum_sum_type, ← reachSum_shots hT, ← reachSum_shots hT']
    show 4 / d ^ 2 * _ = _
    rw [div_mul_eq_mul_div]
    rfl
  have hfun : ∀ ω, (((T.filter notMeasured).map (exactMean ρ)).sum - ((T'.filter notMeasured).map (exactMean ρ)).sum) / d +
      ∑ i : κ, sgn i * (energyAt (task i).operator (outcome ρ (task i).circuit ((r ω).fresh (idx i).1 (idx i).2)) / shotsOf (task i)) =
      (estimate (r ω) ρ T w - estimate (r ω) ρ T' w') / d := by
    intro ω
    rw [Fintype.sum_sum_type]
    show _ + (∑ kj, 1 / d * _ + ∑ kj, -1 / d * _) = _
    rw [← Finset.mul_sum, ← Finset.mul_sum, estimate, estimate]
    have e : ∀ a a' A B : ℝ, (a - a') / d + (1 / d * A + -1 / d * B) = (a + A - (a' + B)) / d := by intros; ring
    exact e _ _ _ _
  simp only [hfun, hsum] at hh
  refine hh.trans (le_of_eq ?_)
  congr 2
  generalize reachSum T + reachSum T' = R
  by_cases hR : R = 0
  · simp [hR]
  · field_simp
    ring
/-! ## Bound circuits -/

/-- A circuit with values in place of symbols makes the state of the original circuit at those values. -/
theorem bound_output {symbols : List String} {ps : List ℝ} {c d : Circuit} (h : Cost.BoundTo symbols ps c d) {ρ ρ' : String → ℂ} (ha : Assigns symbols ps ρ ρ') (hc : Unitary ρ' c)
    {α : Type} (f : (n : ℕ) → ((Fin n → Bool) → ℂ) → α) : f d.n (outputState ρ d) = f c.n (outputState ρ' c) := by
  obtain ⟨h1, -, h2, h3⟩ := h
  obtain ⟨-, c2, -⟩ := hc
  obtain ⟨dops, dn⟩ := d
  obtain ⟨cops, cn⟩ := c
  dsimp only at h1 h2 h3 c2
  subst h1
  have key : dops.map (GateOp.operator dn ρ) = cops.map (GateOp.operator dn ρ') := by
    induction h3 with
    | nil => rfl
    | @cons op op' ops ops' hop _ ih =>
      rw [List.map_cons, List.map_cons] at h2
      injection h2 with hq h2
      obtain ⟨w, hn, hm⟩ := hop
      obtain ⟨-, -, -, v4, -⟩ := c2 op (by simp)
      rw [List.map_cons, List.map_cons, ih h2 fun o ho => c2 o (by simp [ho]), operator_same ρ ρ' op op' hq w (by rw [hq, hn]; exact v4) (hm ρ ρ' ha.1 ha.2).1]
  unfold outputState
  dsimp only
  rw [List.map_reverse, List.map_reverse, key]

/-- Specification: the valuation with the parameters in place of the symbols. -/
noncomputable def assign (symbols : List String) (ρ : String → ℂ) (ps : List ℝ) : String → ℂ := fun s => if s ∈ symbols then ((ps.getD (symbols.idxOf s) 0 : ℝ) : ℂ) else ρ s

theorem assign_assigns {symbols : List String} (hn : symbols.Nodup) (ρ : String → ℂ) (ps : List ℝ) : Assigns symbols ps ρ (assign symbols ρ ps) := by
  refine ⟨fun i s p hs hp => ?_, fun s hs => if_neg hs⟩
  have hm := List.mem_of_getElem? hs
  obtain ⟨hi, rfl⟩ := List.getElem?_eq_some_iff.1 hs
  rw [assign, if_pos hm, hn.idxOf_getElem, List.getD_eq_getElem?_getD, hp, Option.getD_some]

/-- Two valuations that assign the same parameters are equal. -/
theorem assigns_unique {symbols : List String} {ps : List ℝ} (hl : symbols.length = ps.length) {ρ ρ₁ ρ₂ : String → ℂ} (h₁ : Assigns symbols ps ρ ρ₁) (h₂ : Assigns symbols ps ρ ρ₂) :
    ρ₁ = ρ₂ := by
  funext s
  by_cases hs : s ∈ symbols
  · obtain ⟨i, hi, rfl⟩ := List.getElem_of_mem hs
    have hi' : i < ps.length := by omega
    rw [h₁.1 i _ _ (List.getElem?_eq_getElem hi) (List.getElem?_eq_getElem hi'), h₂.1 i _ _ (List.getElem?_eq_getElem hi) (List.getElem?_eq_getElem hi')]
  · rw [h₁.2 s hs, h₂.2 s hs]

/-- Specification: the exact energy of all tasks. -/
noncomputable def energySum (ρ : String → ℂ) (T : List Task) : ℝ := (T.map (exactMean ρ)).sum

/-- Specification: the variance of the estimate of the energy: that of each operator divided by its number of shots. -/
noncomputable def noiseSum (ρ : String → ℂ) (T : List Task) : ℝ := (T.map fun t => exactVar ρ t / shotsOf t).sum

/-- The tasks with bound circuits are ready for measurement, as many of them are measured, and they have the means and variances of the original ones. -/
theorem bound_tasks {symbols : List String} {ps : List ℝ} {ρ ρ' : String → ℂ} (ha : Assigns symbols ps ρ ρ') {T out : List Task}
    (h : List.Forall₂ (fun t t' => t'.operator = t.operator ∧ t'.shots = t.shots ∧ Cost.BoundTo symbols ps t.circuit t'.circuit) T out) (hT : ∀ t ∈ T, Ready ρ' t) :
    (∀ t ∈ out, Ready ρ t) ∧ (measuredTasks out).length = (measuredTasks T).length ∧ energySum ρ out = energySum ρ' T ∧ noiseSum ρ out = noiseSum ρ' T ∧ reachSum out = reachSum T := by
  induction h with
  | nil => simp [measuredTasks, energySum, noiseSum, reachSum]
  | @cons t u T out htu _ ih =>
    obtain ⟨i1, i2, i3, i4, i5⟩ := ih fun t ht => hT t (by simp [ht])
    obtain ⟨a1, a2, a3⟩ := htu
    have hr := hT t (by simp)
    obtain ⟨b1, b2, -⟩ := bound_state a3 ρ ρ' ha hr.unitary
    have hu : Ready ρ u := ⟨by rw [a1]; exact hr.canonical, by rw [a1]; exact hr.ising, by rw [a1]; exact hr.big, by rw [a1]; exact hr.real,
      by rw [a1, b2]; exact hr.below, b1, by rw [b2]; exact hr.qubits, by rw [a2]; exact hr.shots⟩
    have hmean : exactMean ρ u = exactMean ρ' t := by
      unfold exactMean
      rw [a1]
      exact bound_output a3 ha hr.unitary fun n ψ => (braket ψ (opMatrix n t.operator)).re
    have hvar : exactVar ρ u = exactVar ρ' t := by
      unfold exactVar
      rw [a1]
      exact bound_output a3 ha hr.unitary fun n ψ => qvar ψ (opMatrix n t.operator)
    have hsh : shotsOf u = shotsOf t := by unfold shotsOf; rw [a2]
    have hnm : notMeasured u = notMeasured t := by
      rw [Bool.eq_iff_iff, notMeasured_ready hu, notMeasured_ready hr, a1]
    refine ⟨?_, ?_, ?_, ?_, ?_⟩
    · intro v hv
      rcases List.mem_cons.1 hv with rfl | hv
      · exact hu
      · exact i1 v hv
    · unfold measuredTasks at i2 ⊢
      rw [List.filter_cons, List.filter_cons, hnm]
      split
      · rw [List.length_cons, List.length_cons, i2]
      · exact i2
    · unfold energySum at i3 ⊢
      rw [List.map_cons, List.sum_cons, List.map_cons, List.sum_cons, hmean, i3]
    · unfold noiseSum at i4 ⊢
      rw [List.map_cons, List.sum_cons, List.map_cons, List.sum_cons, hvar, hsh, i4]
    · unfold reachSum at i5 ⊢
      rw [List.map_cons, List.sum_cons, List.map_cons, List.sum_cons, a1, hsh, i5]

/-! ## Gradients -/

/-- Finite differences of a function whose value depends on a number in the state that grows by `m` in each evaluation. -/
theorem finiteDifferences_counter {W E : Type} (z : E) (f : History.Target W E (List ℝ) ℝ) (count : W → ℕ) (m : ℕ) (F : List ℝ → ℕ → ℝ) (h : ℝ) (hh : h ≠ 0) (p : List ℝ)
    (hf : ∀ w q, q.length = p.length → (f w q).1 = .ok (F q (count w)) ∧ count (f w q).2 = count w + m) (w : W) :
    (finiteDifferences z f h p w).1 = .ok ((List.range p.length).map fun i => (F (shifted p i h) (count w + 2 * m * i) - F (shifted p i (-h)) (count w + 2 * m * i + m)) / (2 * h)) := by
  have key : ∀ (k j : ℕ) (acc : List ℝ) (w : W), (gradientLoop z f h p (List.range' j k) acc w).1 =
      .ok (acc ++ (List.range k).map fun i => (F (shifted p (j + i) h) (count w + 2 * m * i) - F (shifted p (j + i) (-h)) (count w + 2 * m * i + m)) / (2 * h)) := by
    intro k
    induction k with
    | zero => intro j acc w; simp [gradientLoop]
    | succ k ih =>
      intro j acc w
      rw [List.range'_succ, gradientLoop]
      obtain ⟨e1, c1⟩ := hf w (shifted p j h) (by simp [shifted])
      cases hx : f w (shifted p j h) with
      | mk o w1 =>
        rw [hx] at e1 c1
        dsimp only at e1 c1 ⊢
        subst e1
        dsimp only
        obtain ⟨e2, c2⟩ := hf w1 (shifted p j (-h)) (by simp [shifted])
        cases hy : f w1 (shifted p j (-h)) with
        | mk o w2 =>
          rw [hy] at e2 c2
          dsimp only at e2 c2 ⊢
          subst e2
          dsimp only
          rw [if_neg (mul_ne_zero two_ne_zero hh), ih, c2, c1, List.range_succ_eq_map, List.map_cons, List.map_map, List.append_assoc, List.singleton_append]
          congr 3
          refine List.map_congr_left fun i _ => ?_
          show _ = (F (shifted p (j + (i + 1)) h) (count w + 2 * m * (i + 1)) - F (shifted p (j + (i + 1)) (-h)) (count w + 2 * m * (i + 1) + m)) / (2 * h)
          rw [show j + 1 + i = j + (i + 1) by omega, show count w + m + m + 2 * m * i = count w + 2 * m * (i + 1) by ring]
  have := key p.length 0 [] w
  rw [finiteDifferences, List.range_eq_range', this]
  simp [List.range_eq_range']

/-- C140: gradients from measurements.  For tasks whose circuits have symbols, with every list of parameter preprocessors that neither fail nor have effects, and for all steps,
parameters and histories of the simulator: if the tasks are ready for measurement at the parameters that are used, the gradient never fails, and its entry for a parameter is a random
variable with mean `(E(p + h) - E(p - h)) / 2h` and variance `(V(p + h) + V(p - h)) / (2h)²`, where `E` is the exact energy and `V` the variance of one estimate;
it is `δ` or more from its mean with a probability of at most `2 exp (-h² δ² / ∑ reach² / shots)`. -/
theorem measured_gradient (P : Measure Ω) [IsProbabilityMeasure P] {r : Ω → Randomness} (hr : FreshRandom P r) (ρ : String → ℂ) {T : List Task} {symbols : List String}
    (hn : symbols.Nodup) (hbind : ∀ t ∈ T, Ansatz.Bindable t.circuit) (hsym : ∀ t ∈ T, ∀ s ∈ t.circuit.freeSymbols, s ∈ symbols)
    (preprocessors : List (History.Target (St ℕ) Err (List ℝ) (List ℝ))) (Q : List ℝ → List ℝ) (hQ : ∀ st q, Cost.runAll preprocessors st q = (.ok (Q q), st))
    (ps : List ℝ) (hlen : ∀ q : List ℝ, q.length = ps.length → symbols.length = (Q q).length)
    (hready : ∀ q : List ℝ, q.length = symbols.length → ∀ t ∈ T, Ready (assign symbols ρ q) t) (h : ℝ) (hh : h ≠ 0) (st : St ℕ) :
    ∃ G : Fin ps.length → Ω → ℝ,
      (∀ ω, (Cost.costGradient (averagingMethod (r ω) none ρ) (Cost.expectationValueFactory (T, symbols)) preprocessors h ps st).1 = .ok (List.ofFn fun i => G i ω)) ∧
      ∀ i, MemLp (G i) 2 P ∧
        P[G i] = (energySum (assign symbols ρ (Q (shifted ps i h))) T - energySum (assign symbols ρ (Q (shifted ps i (-h)))) T) / (2 * h) ∧
        Var[G i; P] = (noiseSum (assign symbols ρ (Q (shifted ps i h))) T + noiseSum (assign symbols ρ (Q (shifted ps i (-h)))) T) / (2 * h) ^ 2 ∧
        ∀ δ, 0 ≤ δ → P.real {ω | δ ≤ |G i ω - P[G i]|} ≤ 2 * Real.exp (-(h ^ 2 * δ ^ 2) / reachSum T) := by
  have hex : ∀ q : List ℝ, q.length = ps.length → ∃ out, Cost.bindTasks symbols T (Q q) = .ok out ∧
      List.Forall₂ (fun t t' => t'.operator = t.operator ∧ t'.shots = t.shots ∧ Cost.BoundTo symbols (Q q) t.circuit t'.circuit) T out :=
    fun q hq => (Cost.bindTasks_spec symbols hn T hbind hsym (Q q)).2 (hlen q hq)
  choose! B hB1 hB2 using hex
  have hB := fun q hq => bound_tasks (assign_assigns hn ρ (Q q)) (hB2 q hq) (hready (Q q) (hlen q hq).symm)
  refine ⟨fun i ω => (estimate (r ω) ρ (B (shifted ps i h)) (st.world + 2 * (measuredTasks T).length * i) -
    estimate (r ω) ρ (B (shifted ps i (-h))) (st.world + 2 * (measuredTasks T).length * i + (measuredTasks T).length)) / (2 * h), fun ω => ?_, fun i => ?_⟩
  · unfold Cost.costGradient
    rw [finiteDifferences_counter Err.zeroDivision _ (fun st : St ℕ => st.world) (measuredTasks T).length (fun q w => estimate (r ω) ρ (B q) w) h hh ps ?_ st]
    · congr 1
      apply List.ext_getElem <;> simp
    · intro w q hq
      obtain ⟨es, st', e1, e2, e3⟩ := method_value (fun k j => (hr.1 k j).range ω) (hB q hq).1 w
      have hf : Cost.expectationValueFactory (T, symbols) w (Q q) = (.ok (B q), w) := by
        unfold Cost.expectationValueFactory Cost.effectless
        rw [hB1 q hq]
      unfold Cost.asNumber
      rw [Cost.createCostFunction_spec _ _ _ w w w st' q (Q q) (B q) es (hQ w q) hf e1]
      refine ⟨?_, ?_⟩
      · show Except.ok _ = _
        rw [e3]
      · show st'.world = _
        rw [e2, (hB q hq).2.1]
  · obtain ⟨a1, a2, a3, a4, a5⟩ := hB (shifted ps i h) (by simp [shifted])
    obtain ⟨b1, b2, b3, b4, b5⟩ := hB (shifted ps i (-h)) (by simp [shifted])
    rw [← a3, ← b3, ← a4, ← b4]
    obtain ⟨q1, q2, q3⟩ := quotient_statistics P hr a1 b1 (st.world + 2 * (measuredTasks T).length * i)
      (st.world + 2 * (measuredTasks T).length * i + (measuredTasks T).length) (by rw [a2]) (2 * h)
    refine ⟨q1, q2, q3, fun δ hδ => ?_⟩
    refine (quotient_tail P hr a1 b1 _ _ (by rw [a2]) (2 * h) (mul_ne_zero two_ne_zero hh) hδ).trans (le_of_eq ?_)
    rw [a5, b5, ← two_mul, ← mul_assoc, show -((2 * h) ^ 2 * δ ^ 2) = 2 * 2 * -(h ^ 2 * δ ^ 2) by ring, mul_div_mul_left _ _ (by norm_num)]

/-! ## From an operator and a circuit -/

theorem mem_freeSymbols (c : Circuit) (s : String) : s ∈ c.freeSymbols ↔ ∃ op ∈ c.ops, s ∈ op.gate.freeSymbols := by
  rw [freeSymbols_eq, (addSymbol_spec _).2.1, List.mem_flatMap]
  rfl

theorem contextGate_plain (f : ℕ × Letter) : ∀ op ∈ contextGate f, op.qubits ≠ [] ∧ op.gate.freeSymbols = [] ∧ op.gate.Reachable ∧ op.gate.WF ∧
    ∀ m, op.gate.AllBase fun b ps => b.ByValue ps ∧ b.ByValue (ps.map (Expr.subSymbols m)) := by
  obtain ⟨q, a⟩ := f
  intro op hop
  cases a
  · exact absurd hop (by simp [contextGate])
  · rw [contextGate, List.mem_singleton] at hop
    subst hop
    exact ⟨by simp, by simp [rxGate, ryGate, Gate.freeSymbols, Gate.params, Expr.getFreeSymbols, Expr.free], .factory _ _, builtin_wf _ (by simp [builtinGates, parametricGates]) _, fun m => ⟨trivial, trivial⟩⟩
  · rw [contextGate, List.mem_singleton] at hop
    subst hop
    exact ⟨by simp, by simp [rxGate, ryGate, Gate.freeSymbols, Gate.params, Expr.getFreeSymbols, Expr.free], .factory _ _, builtin_wf _ (by simp [builtinGates, parametricGates]) _, fun m => ⟨trivial, trivial⟩⟩
  · exact absurd hop (by simp [contextGate])

theorem contextSelection_ops {o : Terms Letter} {c : Circuit} {D : Terms Letter} (h : contextSelection o = .ok (c, D)) : ∃ ctx : List (ℕ × Letter), c.ops = ctx.flatMap contextGate := by
  rw [contextSelection] at h
  have h : (contextLoop o [] [] >>= fun r => appendOps ⟨[], 0⟩ (r.1.flatMap contextGate) >>= fun c => Except.ok (c, r.2)) = .ok (c, D) := h
  cases hx : contextLoop o [] [] with
  | error e => rw [hx] at h; cases h
  | ok r =>
    rw [hx] at h
    have h : (appendOps ⟨[], 0⟩ (r.1.flatMap contextGate) >>= fun c => Except.ok (c, r.2)) = .ok (c, D) := h
    obtain ⟨c', h4, h5⟩ := appendOps_spec (r.1.flatMap contextGate) ⟨[], 0⟩ (by
      intro op hop
      obtain ⟨f, -, hop⟩ := List.mem_flatMap.1 hop
      exact (contextGate_plain f op hop).1)
    rw [h4] at h
    obtain ⟨rfl, -⟩ := Prod.mk.inj (Except.ok.inj h)
    exact ⟨r.1, h5⟩

theorem append_ops {c d e : Circuit} (h : append c (.circuit d) = .ok e) : e.ops = c.ops ++ d.ops := by
  have h : Circuit.make (c.ops ++ d.ops) (some ((max c.n d.n : ℕ) : ℚ)) = .ok e := h
  by_cases h0 : max c.n d.n = 0
  · rw [h0] at h
    have h : (sizeByOperations (c.ops ++ d.ops)).map (fun n => (⟨c.ops ++ d.ops, n⟩ : Circuit)) = .ok e := by simpa [Circuit.make] using h
    cases hx : sizeByOperations (c.ops ++ d.ops) with
    | error e => rw [hx] at h; cases h
    | ok n => rw [hx] at h; cases h; rfl
  · rw [make_natCast _ _ fun h => absurd h h0] at h
    cases h
    rfl

/-- Basis changes keep the symbols of a circuit, and symbols can still be bound. -/
theorem selected_circuits {c : Circuit} (hbind : Ansatz.Bindable c) {tasks out : List Task} (hc : ∀ t ∈ tasks, t.circuit = c) (hout : performContextSelection tasks = .ok out)
    (hinv : ∀ u ∈ out, u.circuit.Inv) : ∀ u ∈ out, Ansatz.Bindable u.circuit ∧ ∀ s, s ∈ u.circuit.freeSymbols ↔ s ∈ c.freeSymbols := by
  have h := (performContextSelection_spec tasks out).1 hout
  clear hout
  induction h with
  | nil => simp
  | @cons t u tasks out htu _ ih =>
    intro v hv
    rcases List.mem_cons.1 hv with rfl | hv
    · obtain ⟨d, h1, h2, -⟩ := htu
      rw [hc t (by simp)] at h2
      have hops := append_ops h2
      obtain ⟨ctx, h3⟩ := contextSelection_ops h1
      have hplain : ∀ op ∈ d.ops, op.qubits ≠ [] ∧ op.gate.freeSymbols = [] ∧ op.gate.Reachable ∧ op.gate.WF ∧
          ∀ m, op.gate.AllBase fun b ps => b.ByValue ps ∧ b.ByValue (ps.map (Expr.subSymbols m)) := fun op hop => by
        rw [h3] at hop
        obtain ⟨f, -, hop⟩ := List.mem_flatMap.1 hop
        exact contextGate_plain f op hop
      refine ⟨⟨hinv v (by simp), fun op hop => ?_⟩, fun s => ?_⟩
      · rw [hops] at hop
        rcases List.mem_append.1 hop with hop | hop
        · exact hbind.2 op hop
        · exact (hplain op hop).2.2
      · rw [mem_freeSymbols, mem_freeSymbols, hops]
        constructor
        · rintro ⟨op, hop, hs⟩
          rcases List.mem_append.1 hop with hop | hop
          · exact ⟨op, hop, hs⟩
          · rw [(hplain op hop).2.1] at hs
            cases hs
        · rintro ⟨op, hop, hs⟩
          exact ⟨op, List.mem_append_left _ hop, hs⟩
    · exact ih (fun t ht => hc t (by simp [ht])) (fun u hu => hinv u (by simp [hu])) v hv

/-- C140: the gradient of the measured energy of an operator in the state of a circuit.  The terms are grouped greedily, each group gets `s` shots and its basis change, and the circuits
are run on a simulator without a seed.  For all real operators, circuits that are unitary at real parameters, steps, parameters and histories: nothing fails, and the entry of the gradient
for a symbol has the mean `(E(p + h) - E(p - h)) / 2h` with `E` the energy `⟨ψ|H|ψ⟩`, and the variance `(V(p + h) + V(p - h)) / (4 s h²)` with `V` the sum of the groups' variances: shrinking
the step makes the error from measurement grow. -/
theorem measured_energy_gradient (P : Measure Ω) [IsProbabilityMeasure P] {r : Ω → Randomness} (hr : FreshRandom P r) (ρ : String → ℂ) (order : List String → List String)
    (ho : Cost.IsSetOrder order) (key : List Char → List Sorting.Item) (hk : ∀ x, Sorting.Alternating (key x)) {c : Circuit} (hbind : Ansatz.Bindable c) (hq : 0 < c.n)
    (hu : ∀ ρ' : String → ℂ, (∀ x ∈ c.freeSymbols, (ρ' x).im = 0) → Unitary ρ' c) {H : Terms Letter} (hH : CanonicalOp H) (hne : H ≠ []) (hbig : ∀ kv ∈ H, 1 / 10 ^ 8 ≤ ‖kv.2‖)
    (hreal : ∀ kv ∈ H, kv.2.im = 0) (hb : Below c.n H) (sortTerms : Bool) (s : ℕ) (hs : 0 < s) (st₀ : St ℕ) :
    ∃ T symbols, Cost.prepare order key H c [Cost.effectless fun l => .ok (groupGreedily l sortTerms), Cost.effectless fun l => allocateUniformly l s,
        Cost.effectless performContextSelection] st₀ () = (.ok (T, symbols), st₀) ∧ symbols.Nodup ∧ (∀ x, x ∈ symbols ↔ x ∈ c.freeSymbols) ∧
      ∀ (h : ℝ), h ≠ 0 → ∀ (ps : List ℝ) (ρ' : String → ℂ), symbols.length = ps.length → Assigns symbols ps ρ ρ' → ∀ st : St ℕ,
        ∃ G : Fin ps.length → Ω → ℝ,
          (∀ ω, (Cost.costGradient (averagingMethod (r ω) none ρ) (Cost.expectationValueFactory (T, symbols)) [] h ps st).1 = .ok (List.ofFn fun i => G i ω)) ∧
          ∀ (i : Fin ps.length) x, symbols[(i : ℕ)]? = some x →
            let E (t : ℝ) := EnergyGradient.energy c (opMatrix c.n H) (Function.update ρ' x (t : ℂ))
            let V (t : ℝ) := ((groupGreedy H sortTerms).map fun g => qvar (outputState (Function.update ρ' x (t : ℂ)) c) (opMatrix c.n g)).sum
            MemLp (G i) 2 P ∧ P[G i] = (E (ps[i] + h) - E (ps[i] - h)) / (2 * h) ∧ Var[G i; P] = (V (ps[i] + h) + V (ps[i] - h)) / (4 * s * h ^ 2) ∧
              ∀ δ, 0 ≤ δ → P.real {ω | δ ≤ |G i ω - P[G i]|} ≤ 2 * Real.exp (-(s * h ^ 2 * δ ^ 2) / ((groupGreedy H sortTerms).map fun g => reach g ^ 2).sum) := by
  obtain ⟨tasks, T, h1, h2, hrdy, -⟩ := greedy_estimate (hu (fun _ => 0) (by simp)) hq hH hbig hreal hb sortTerms s hs
  -- the tasks are ready at all real parameters, with the means and variances of the groups
  have hall : ∀ ρ' : String → ℂ, (∀ x ∈ c.freeSymbols, (ρ' x).im = 0) → (∀ t ∈ T, Ready ρ' t) ∧ energySum ρ' T = EnergyGradient.energy c (opMatrix c.n H) ρ' ∧
      noiseSum ρ' T = ((groupGreedy H sortTerms).map fun g => qvar (outputState ρ' c) (opMatrix c.n g)).sum / s := by
    intro ρ' hρ
    obtain ⟨tasks', T', k1, k2, k3, k4⟩ := greedy_estimate (hu ρ' hρ) hq hH hbig hreal hb sortTerms s hs
    rw [h1] at k1
    cases k1
    rw [h2] at k2
    cases k2
    obtain ⟨draw, d1, d2⟩ := simulator_measures hr (ready_runs k3) st₀
    obtain ⟨X, x1, -, x3, x4⟩ := k4 P d1 d2
    obtain ⟨Y, y1, -, y3, y4⟩ := averaging_statistics P k3 d1 d2
    have hXY : X = Y := by
      funext ω
      obtain ⟨o1, a1, -, -, a4⟩ := x1 ω
      obtain ⟨o2, b1, -, -, b4⟩ := y1 ω
      rw [a1] at b1
      cases b1
      rw [← a4, b4]
    subst hXY
    exact ⟨k3, y3.symm.trans x3, y4.symm.trans x4⟩
  have htasks : ∀ t ∈ tasks, t.circuit = c := by
    rw [(allocateUniformly_spec _ _).1 (by exact_mod_cast hs)] at h1
    cases h1
    intro t ht
    obtain ⟨t', ht', rfl⟩ := List.mem_map.1 ht
    rw [groupGreedily, List.flatMap_singleton] at ht'
    obtain ⟨g, -, rfl⟩ := List.mem_map.1 ht'
    rfl
  have hR : reachSum T = ((groupGreedy H sortTerms).map fun g => reach g ^ 2).sum / s := by
    have htasks : tasks = (groupGreedy H sortTerms).map fun g => ⟨g, c, some (s : ℤ)⟩ := by
      rw [(allocateUniformly_spec _ _).1 (by exact_mod_cast hs)] at h1
      rw [← Except.ok.inj h1, groupGreedily]
      simp [Function.comp_def]
    have hpart := groupGreedy_partition hH sortTerms hbig
    have hgroup : ∀ t ∈ tasks, Groupable (fun _ => 0) t := by
      intro t ht
      rw [htasks] at ht
      obtain ⟨g, hg, rfl⟩ := List.mem_map.1 ht
      have hnd : (keys g).Nodup := by
        have : (keys (groupGreedy H sortTerms).flatten).Nodup := (hpart.map Prod.fst).nodup_iff.2 hH.1
        exact this.sublist ((List.sublist_flatten_of_mem hg).map Prod.fst)
      obtain ⟨a, b, d, e⟩ := group_ok hH hbig hreal hb (fun kv hkv => hpart.mem_iff.1 (List.mem_flatten.2 ⟨g, hg, hkv⟩)) hnd
      exact ⟨a, ((groupGreedy_spec hH sortTerms).2.1 g hg).2, b, d, e, hu (fun _ => 0) (by simp), hq, s, hs, rfl⟩
    rw [reachSum, contextSelected_reach hgroup h2, htasks, List.map_map]
    generalize groupGreedy H sortTerms = gs
    induction gs with
    | nil => simp
    | cons g gs ih =>
      rw [List.map_cons, List.sum_cons, ih, List.map_cons, List.sum_cons, add_div]
      rfl
  have hT := selected_circuits hbind htasks h2 fun u hu => (hrdy u hu).unitary.1
  have hTne : T ≠ [] := by
    rintro rfl
    have hf := (performContextSelection_spec tasks []).1 h2
    cases hf
    rw [(allocateUniformly_spec _ _).1 (by exact_mod_cast hs)] at h1
    have hg : (groupGreedily [⟨H, c, none⟩] sortTerms) = [] := List.map_eq_nil_iff.1 (Except.ok.inj h1)
    rw [groupGreedily, List.flatMap_singleton, List.map_eq_nil_iff] at hg
    have hp := groupGreedy_partition hH sortTerms hbig
    have hg : groupGreedy H sortTerms = [] := hg
    rw [hg] at hp
    exact hne hp.symm.eq_nil
  obtain ⟨symbols, f1, f2, f3, -, -⟩ := Cost.factory_spec order ho key hk H c [Cost.effectless fun l => .ok (groupGreedily l sortTerms),
    Cost.effectless fun l => allocateUniformly l s, Cost.effectless performContextSelection] st₀ st₀ T (by
      unfold Cost.runAll Cost.runAll Cost.runAll Cost.runAll Cost.andThen Cost.effectless
      dsimp only
      rw [h1]
      dsimp only
      rw [h2]) fun t ht => (hT t ht).1
  have hsym : ∀ x, x ∈ symbols ↔ x ∈ c.freeSymbols := by
    intro x
    rw [f3]
    constructor
    · rintro ⟨t, ht, hx⟩
      exact ((hT t ht).2 x).1 hx
    · intro hx
      obtain ⟨t, ht⟩ := List.exists_mem_of_ne_nil T hTne
      exact ⟨t, ht, ((hT t ht).2 x).2 hx⟩
  refine ⟨T, symbols, f1, f2, hsym, fun h hh ps ρ' hl ha st => ?_⟩
  have him : ∀ (q : List ℝ) (ρ'' : String → ℂ), q.length = symbols.length → Assigns symbols q ρ ρ'' → ∀ x ∈ c.freeSymbols, (ρ'' x).im = 0 := by
    intro q ρ'' hq' hq'' x hx
    obtain ⟨i, hi, rfl⟩ := List.getElem_of_mem ((hsym x).2 hx)
    have hi' : i < q.length := by omega
    rw [hq''.1 i _ _ (List.getElem?_eq_getElem hi) (List.getElem?_eq_getElem hi')]
    exact Complex.ofReal_im _
  obtain ⟨G, g1, g2⟩ := measured_gradient P hr ρ f2 (fun t ht => (hT t ht).1) (fun t ht x hx => (hsym x).2 (((hT t ht).2 x).1 hx)) [] id (fun _ _ => rfl) ps
    (fun q hq' => hl.trans hq'.symm) (fun q hq' => (hall _ (him q _ hq' (assign_assigns f2 ρ q))).1) h hh st
  refine ⟨G, g1, fun i x hx => ?_⟩
  have hsh : ∀ d : ℝ, assign symbols ρ (shifted ps i d) = Function.update ρ' x ((ps[i] + d : ℝ) : ℂ) := fun d =>
    assigns_unique (by rw [hl]; simp [shifted]) (assign_assigns f2 ρ _) (EnergyGradient.assigns_shift f2 ha hx (List.getElem?_eq_getElem i.2) d)
  have hE : ∀ d : ℝ, _ := fun d => (hall _ (him (shifted ps i d) _ (by rw [hl]; simp [shifted]) (assign_assigns f2 ρ _))).2
  obtain ⟨m1, m2, m3, m4⟩ := g2 i
  simp only [id] at m2 m3
  rw [(hE h).1, (hE (-h)).1, hsh, hsh, ← sub_eq_add_neg] at m2
  rw [(hE h).2, (hE (-h)).2, hsh, hsh, ← sub_eq_add_neg] at m3
  have hs' : (s : ℝ) ≠ 0 := by exact_mod_cast hs.ne'
  refine ⟨m1, m2, m3.trans ?_, fun δ hδ => (m4 δ hδ).trans (le_of_eq ?_)⟩
  · field_simp
    ring
  · rw [hR]
    congr 2
    generalize ((groupGreedy H sortTerms).map fun g => reach g ^ 2).sum = R
    by_cases h0 : R = 0
    · simp [h0]
    · field_simp

/-! ## Non-vacuity -/

/-- `RX(a)` and then `RX(b)` on one qubit. -/
noncomputable def two : Circuit := ⟨[⟨rxGate (.sym "a"), [0]⟩, ⟨rxGate (.sym "b"), [0]⟩], 1⟩

theorem two_mem {op : GateOp} (h : op ∈ two.ops) : ∃ x ∈ ["a", "b"], op = ⟨rxGate (.sym x), [0]⟩ := by
  simp only [two, List.mem_cons, List.not_mem_nil, or_false] at h
  rcases h with rfl | rfl
  · exact ⟨"a", by simp, rfl⟩
  · exact ⟨"b", by simp, rfl⟩

theorem two_free (x : String) : x ∈ two.freeSymbols ↔ x ∈ ["a", "b"] := by
  rw [mem_freeSymbols]
  simp [two, rxGate, Gate.freeSymbols, Gate.params, Expr.getFreeSymbols, Expr.free]

theorem two_bindable : Ansatz.Bindable two := by
  refine ⟨fun h => absurd h (by simp [two]), fun op hop => ?_⟩
  obtain ⟨x, -, rfl⟩ := two_mem hop
  exact ⟨.factory _ _, builtin_wf _ (by simp [builtinGates, parametricGates]) _, fun m => ⟨trivial, trivial⟩⟩

theorem two_unitary (ρ : String → ℂ) (h : ∀ x ∈ two.freeSymbols, (ρ x).im = 0) : Unitary ρ two := by
  refine ⟨two_bindable.1, fun op hop => ?_, fun op hop => ?_⟩ <;> obtain ⟨x, hx, rfl⟩ := two_mem hop
  · exact ⟨by simp, by simp, by simp [two], rfl, builtin_wf _ (by simp [builtinGates, parametricGates]) _⟩
  · exact builtin_unitary _ (by simp [builtinGates, parametricGates]) [.sym x] ρ (by
      intro p hp
      rw [List.mem_singleton.1 hp]
      exact h x ((two_free x).2 hx))

/-- The operator `Z + 3 X`, of two groups. -/
noncomputable def zx : Terms Letter := [([(0, .Z)], 1), ([(0, .X)], 3)]

/-- A case of `measured_energy_gradient`: two symbols and an operator of two groups. -/
example : Ansatz.Bindable two ∧ 0 < two.n ∧ (∀ ρ : String → ℂ, (∀ x ∈ two.freeSymbols, (ρ x).im = 0) → Unitary ρ two) ∧ CanonicalOp zx ∧ zx ≠ [] ∧
    (∀ kv ∈ zx, 1 / 10 ^ 8 ≤ ‖kv.2‖) ∧ (∀ kv ∈ zx, kv.2.im = 0) ∧ Below two.n zx ∧ Cost.IsSetOrder List.reverse ∧ (∀ x, Sorting.Alternating (Sorting.strKey x)) ∧
    ∃ (Ω : Type) (_ : MeasurableSpace Ω) (P : Measure Ω) (_ : IsProbabilityMeasure P) (r : Ω → Randomness), FreshRandom P r := by
  refine ⟨two_bindable, by simp [two], two_unitary, ⟨by simp [zx, WF, keys], ?_⟩, by simp [zx], ?_, ?_, ?_, fun l => List.reverse_perm l, Sorting.strKey_alternating, ?_⟩
  · intro t ht
    simp only [zx, keys, List.map_cons, List.map_nil, List.mem_cons, List.not_mem_nil, or_false] at ht
    rcases ht with rfl | rfl <;> exact ⟨by simp, by simp⟩
  · intro kv hkv
    simp only [zx, List.mem_cons, List.not_mem_nil, or_false] at hkv
    rcases hkv with rfl | rfl <;> norm_num
  · intro kv hkv
    simp only [zx, List.mem_cons, List.not_mem_nil, or_false] at hkv
    rcases hkv with rfl | rfl <;> simp
  · intro kv hkv f hf
    simp only [zx, List.mem_cons, List.not_mem_nil, or_false] at hkv
    rcases hkv with rfl | rfl <;> rw [List.mem_singleton.1 hf] <;> exact one_pos
  · obtain ⟨Ω, m, P, hP, r, hr, -⟩ := randomness_exists
    exact ⟨Ω, m, P, hP, r, hr⟩

/-- A case of `measured_gradient`: one task with 100 shots, and the first of the two parameters fixed. -/
example (ρ : String → ℂ) (x y : ℝ) : let T : List Task := [⟨[([(0, .Z)], 1)], two, some 100⟩]
    (∀ t ∈ T, Ansatz.Bindable t.circuit) ∧ (∀ t ∈ T, ∀ s ∈ t.circuit.freeSymbols, s ∈ ["a", "b"]) ∧
    (∀ (st : St ℕ) q, Cost.runAll [Cost.fixParameters (E := Err) [x]] st q = (.ok ([x] ++ q), st)) ∧ (∀ q : List ℝ, q.length = [y].length → ["a", "b"].length = ([x] ++ q).length) ∧
    ∀ q : List ℝ, q.length = ["a", "b"].length → ∀ t ∈ T, Ready (assign ["a", "b"] ρ q) t := by
  refine ⟨by simpa using two_bindable, ?_, fun st q => rfl, ?_, ?_⟩
  · intro t ht s hs
    rw [List.mem_singleton.1 ht] at hs
    exact (two_free s).1 hs
  · intro q hq
    simp only [List.length_cons, List.length_nil] at hq
    simp [hq]
  · intro q hq t ht
    rw [List.mem_singleton.1 ht]
    have h1 : ∀ kv ∈ [([(0, Letter.Z)], (1 : ℂ))], kv = ([(0, Letter.Z)], 1) := fun kv hkv => List.mem_singleton.1 hkv
    refine ⟨⟨by simp [WF, keys], ?_⟩, ?_, ?_, ?_, ?_, two_unitary _ ?_, by simp [two], 100, by norm_num, rfl⟩
    · intro t ht
      simp only [keys, List.map_cons, List.map_nil, List.mem_singleton] at ht
      rw [ht]
      exact ⟨by simp, by simp⟩
    · intro t ht f hf
      simp only [keys, List.map_cons, List.map_nil, List.mem_singleton] at ht
      rw [ht, List.mem_singleton] at hf
      rw [hf]
    · intro kv hkv; rw [h1 kv hkv]; norm_num
    · intro kv hkv; rw [h1 kv hkv]; simp
    · intro kv hkv f hf
      rw [h1 kv hkv, List.mem_singleton] at hf
      rw [hf]
      exact one_pos
    · intro z hz
      rw [assign, if_pos ((two_free z).1 hz)]
      exact Complex.ofReal_im _

end ZQ.Stat
