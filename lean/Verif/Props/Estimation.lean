import Verif.Props.ContextSelection
import Verif.Props.Discretize
import Verif.Lemmas.ExceptList

/-!
# C34, C35, C36: estimation tasks
-/

namespace ZQ.Est

open ZQ ZQ.PyDict ZQ.Op ZQ.Circuits ZQ.Gates ZQ.Disc

/-! ### C36 -/

/-- C36. Uniform allocation: every task keeps its operator and circuit and gets the number of shots; a non-positive number is refused. -/
theorem allocateUniformly_spec (tasks : List Task) (shots : ℤ) :
    (0 < shots → allocateUniformly tasks shots = .ok (tasks.map fun t => ⟨t.operator, t.circuit, some shots⟩)) ∧
    (shots ≤ 0 → allocateUniformly tasks shots = .error .valueError) := by
  refine ⟨fun h => ?_, fun h => ?_⟩
  · rw [allocateUniformly, if_neg (by omega)]
  · rw [allocateUniformly, if_pos h]

/-- The variance bound of an operator: sum of the squared coefficients of its non-constant terms. -/
noncomputable def varianceBound (o : Terms Letter) : ℝ := ((o.filter fun kv => decide (kv.1 ≠ [])).map fun kv => kv.2.re ^ 2).sum

theorem not_mem_keys_filter {l : Terms Letter} (h : [] ∉ keys l) : (l.filter fun kv => decide (kv.1 ≠ [])) = l := by
  rw [List.filter_eq_self]
  intro kv hkv
  simp only [ne_eq, decide_not, Bool.not_eq_true', decide_eq_false_iff_not]
  exact fun e => h (e ▸ List.mem_map_of_mem hkv)

theorem removeConstant_variance {o : Terms Letter} (hw : WF o) : varianceUpperBound (removeConstant o) = varianceBound o := by
  classical
  rw [removeConstant]
  cases hg : PyDict.get? o [] with
  | none =>
    dsimp only
    rw [varianceBound, not_mem_keys_filter ((PyDict.get?_eq_none_iff o []).1 hg), varianceUpperBound]
  | some c =>
    dsimp only
    by_cases hc : c = 0
    · rw [if_neg (not_not.2 hc)]
      have : ∀ l : Terms Letter, (∀ kv ∈ l, kv.1 = [] → kv.2 = 0) → varianceUpperBound l = varianceBound l := by
        intro l
        induction l with
        | nil => intro _; rfl
        | cons kv l ih =>
          intro h
          have h1 := ih (fun kv hkv => h kv (by simp [hkv]))
          rw [varianceUpperBound, varianceBound] at h1 ⊢
          rw [List.map_cons, List.sum_cons, h1]
          by_cases ht : kv.1 = []
          · rw [List.filter_cons_of_neg (by simp [ht]), h kv (by simp) ht]; simp
          · rw [List.filter_cons_of_pos (by simpa using ht), List.map_cons, List.sum_cons]
      refine this o fun kv hkv e => ?_
      have := get?_of_mem hw (show (kv.1, kv.2) ∈ o from hkv)
      rw [e, hg] at this
      injection this with this
      rw [← this, hc]
    · rw [if_pos hc]
      have hdel : ∀ l : Terms Letter, WF l → varianceUpperBound (PyDict.del l []) = varianceBound l := by
        intro l
        induction l with
        | nil => intro _; rfl
        | cons kv l ih =>
          intro hw
          obtain ⟨t, c⟩ := kv
          have hw' : t ∉ keys l ∧ WF l := by rw [WF, keys, List.map_cons, List.nodup_cons] at hw; exact hw
          by_cases ht : t = []
          · subst ht
            rw [varianceBound, List.filter_cons_of_neg (by simp), PyDict.del, not_mem_keys_filter hw'.1, if_pos rfl, varianceUpperBound]
          · have h1 := ih hw'.2
            rw [PyDict.del, if_neg ht]
            rw [varianceUpperBound, varianceBound] at h1 ⊢
            rw [List.filter_cons_of_pos (by simpa using ht), List.map_cons, List.sum_cons, List.map_cons, List.sum_cons, h1]
      exact hdel o hw

/-- C36. Without prior expectation values the variance of a frame is the sum of the squared coefficients of its non-constant terms. -/
theorem groupVariances_none {groups : List (Terms Letter)} (hw : ∀ g ∈ groups, WF g) (hreal : ∀ g ∈ groups, ∀ kv ∈ g, kv.2.im = 0) :
    groupVariances groups none = .ok (groups.map varianceBound) := by
  rw [groupVariances, if_neg (by push Not; exact hreal)]
  rw [List.map_map]
  congr 1
  exact List.map_congr_left fun g hg => removeConstant_variance (hw g hg)

/-- The variance of a frame from the expectation values of its terms. -/
noncomputable def varianceFrom (g : Terms Letter) (vs : List ℝ) : ℝ := (List.zipWith (fun kv v => kv.2.re ^ 2 * (1 - v ^ 2)) g vs).sum

/-- C36. With prior expectation values (one list per frame, concatenated), the variance of a frame is the sum of `c² (1 - v²)` over its terms. -/
theorem groupVariances_some {groups : List (Terms Letter)} (hreal : ∀ g ∈ groups, ∀ kv ∈ g, kv.2.im = 0) {vss : List (List ℝ)}
    (hlen : List.Forall₂ (fun g vs => g.length = vs.length) groups vss) (hv : ∀ vs ∈ vss, ∀ v ∈ vs, -1 ≤ v ∧ v ≤ 1) :
    groupVariances groups (some vss.flatten) = .ok (List.zipWith varianceFrom groups vss) := by
  classical
  rw [groupVariances, if_neg (by push Not; exact hreal)]
  rw [if_neg, if_neg]
  · congr 1
    clear hv hreal
    induction hlen with
    | nil => rfl
    | @cons g vs gs vss h1 h2 ih =>
      rw [List.flatten_cons, List.map_append, priorVariances, List.zipWith_cons_cons]
      have hl : (vs.map fun v => 1 - v ^ 2).length = g.length := by rw [List.length_map, h1]
      rw [List.take_left' hl, List.drop_left' hl, ih]
      congr 1
      rw [varianceFrom, List.zip, List.map_zipWith, List.zipWith_map_right]
  · push Not
    intro v hv'
    obtain ⟨vs, h1, h2⟩ := List.mem_flatten.1 hv'
    exact hv vs h1 v h2
  · rw [not_not]
    clear hv hreal
    induction hlen with
    | nil => rfl
    | cons h1 h2 ih => rw [List.map_cons, List.sum_cons, List.flatten_cons, List.length_append, ih, h1]

/-- C36. A wrong number of prior expectation values, or one outside `[-1, 1]`, is refused. -/
theorem groupVariances_rejects {groups : List (Terms Letter)} (hreal : ∀ g ∈ groups, ∀ kv ∈ g, kv.2.im = 0) {values : List ℝ}
    (h : (groups.map List.length).sum ≠ values.length ∨ ∃ v ∈ values, ¬ (-1 ≤ v ∧ v ≤ 1)) :
    groupVariances groups (some values) = .error .valueError := by
  rw [groupVariances, if_neg (by push Not; exact hreal)]
  by_cases h1 : (groups.map List.length).sum ≠ values.length
  · rw [if_pos h1]
  · rw [if_neg h1, if_pos]
    obtain ⟨v, hv, hb⟩ := h.resolve_left h1
    exact fun hall => hb (hall v hv)

/-- Frame variances are non-negative. -/
theorem groupVariances_nonneg {groups : List (Terms Letter)} {prior : Option (List ℝ)} {vars : List ℝ} (h : groupVariances groups prior = .ok vars) :
    (∀ v ∈ vars, 0 ≤ v) ∧ vars.length = groups.length := by
  unfold groupVariances at h
  split at h
  · cases h
  · cases prior with
    | none =>
      injection h with h
      subst h
      refine ⟨?_, by simp⟩
      intro v hv
      obtain ⟨g, _, rfl⟩ := List.mem_map.1 hv
      exact List.sum_nonneg (by intro x hx; obtain ⟨kv, _, rfl⟩ := List.mem_map.1 hx; exact sq_nonneg _)
    | some values =>
      dsimp only at h
      split at h
      · cases h
      · split at h
        · cases h
        · rename_i hb
          push Not at hb
          injection h with h
          subst h
          have key : ∀ (gs : List (Terms Letter)) (l : List ℝ), (∀ x ∈ l, 0 ≤ x) → (∀ v ∈ priorVariances gs l, 0 ≤ v) ∧ (priorVariances gs l).length = gs.length := by
            intro gs
            induction gs with
            | nil => intro l _; simp [priorVariances]
            | cons g gs ih =>
              intro l hl
              obtain ⟨h1, h2⟩ := ih (l.drop g.length) (fun x hx => hl x (List.mem_of_mem_drop hx))
              rw [priorVariances]
              refine ⟨?_, by rw [List.length_cons, h2, List.length_cons]⟩
              intro v hv
              rcases List.mem_cons.1 hv with rfl | hv
              · refine List.sum_nonneg ?_
                intro x hx
                obtain ⟨kv, hkv, rfl⟩ := List.mem_map.1 hx
                exact mul_nonneg (sq_nonneg _) (hl _ (List.mem_of_mem_take (List.of_mem_zip hkv).2))
              · exact h1 v hv
          refine key groups _ ?_
          intro x hx
          obtain ⟨v, hv, rfl⟩ := List.mem_map.1 hx
          nlinarith [(hb v hv).1, (hb v hv).2]

/-- C36. `estimate_nmeas_for_frames`: the number of measurements of a frame is proportional to the root of its variance, the total is the square of the
sum of the roots, and the terms are counted. -/
theorem estimateNmeas_spec {groups : List (Terms Letter)} {prior : Option (List ℝ)} {vars : List ℝ} (h : groupVariances groups prior = .ok vars) :
    estimateNmeas groups prior = .ok ((vars.map Real.sqrt).sum ^ 2, (groups.map List.length).sum, vars.map fun v => (vars.map Real.sqrt).sum * √v) := by
  rw [estimateNmeas, h]
  show Except.ok _ = _
  rw [List.sum_map_mul_left, sq]

/-- C36. Proportional allocation: the tasks keep their order, operators and circuits; the numbers of shots are non-negative integers that sum exactly to
the total; each differs by less than one from the total's share given by the root of the frame's variance. -/
theorem allocateProportionally_spec (argsort : List ℝ → List ℕ) (ha : IsArgsort argsort) (tasks : List Task) (total : ℤ) (ht : 0 < total)
    (prior : Option (List ℝ)) {vars : List ℝ} (hvars : groupVariances (tasks.map Task.operator) prior = .ok vars) (hpos : ∃ v ∈ vars, 0 < v) :
    ∃ shots : List ℤ, allocateProportionally argsort tasks total prior = .ok (List.zipWith (fun t s => ⟨t.operator, t.circuit, some s⟩) tasks shots) ∧
      shots.length = tasks.length ∧ shots.sum = total ∧ (∀ s ∈ shots, 0 ≤ s) ∧
      ∀ i, i < tasks.length → |(shots.getD i 0 : ℝ) - total * (√(vars.getD i 0) / (vars.map Real.sqrt).sum)| < 1 := by
  obtain ⟨hnn, hlen⟩ := groupVariances_nonneg hvars
  have hsum : 0 < (vars.map Real.sqrt).sum := by
    obtain ⟨v, hv, hv0⟩ := hpos
    refine lt_of_lt_of_le (Real.sqrt_pos.2 hv0) (List.single_le_sum ?_ _ (List.mem_map_of_mem hv))
    intro x hx; obtain ⟨w, _, rfl⟩ := List.mem_map.1 hx; exact Real.sqrt_nonneg _
  set S := (vars.map Real.sqrt).sum with hS
  have hfm : (vars.map fun v => S * √v).sum = S * S := by rw [List.sum_map_mul_left]
  obtain ⟨r, h1, h2, h3, h4, -⟩ := scaleAndDiscretize_spec argsort ha (vars.map fun v => S * √v) (by rw [hfm]; positivity) total
  have h5 := scaleAndDiscretize_nonneg argsort ha (vars.map fun v => S * √v) (by
    intro v hv; obtain ⟨w, _, rfl⟩ := List.mem_map.1 hv; exact mul_nonneg hsum.le (Real.sqrt_nonneg _)) total ht.le r h1
  have hl : r.length = tasks.length := by rw [h2, List.length_map, hlen, List.length_map]
  refine ⟨r, ?_, hl, h3, h5, ?_⟩
  · rw [allocateProportionally, if_neg (by omega), estimateNmeas_spec hvars]
    show (Disc.scaleAndDiscretize argsort (vars.map fun v => S * √v) total >>= _) = _
    rw [h1]
    show Except.ok _ = _
    rw [List.zip, List.map_zipWith]
  · intro i hi
    have := h4 i (by rw [List.length_map, hlen, List.length_map]; exact hi)
    have hsh : share (vars.map fun v => S * √v) total i = total * (√(vars.getD i 0) / S) := by
      rw [share, hfm, getD_map_zero vars (fun v => S * √v) (by simp)]
      field_simp
    rwa [hsh] at this

/-- C36. Non-positive totals are refused. -/
theorem allocateProportionally_rejects (argsort : List ℝ → List ℕ) (tasks : List Task) (total : ℤ) (ht : total ≤ 0) (prior : Option (List ℝ)) :
    allocateProportionally argsort tasks total prior = .error .valueError := by
  rw [allocateProportionally, if_pos ht]

/-- Two frames with variances 4 and 9 (the constant 7 does not count): the hypotheses are met. -/
example : groupVariances [[([(0, .Z)], 2), ([], 7)], [([(1, .X)], -3)]] none = .ok [4, 9] := by
  rw [groupVariances_none (by intro g hg; simp at hg; rcases hg with rfl | rfl <;> simp [WF, keys])
    (by intro g hg kv hkv; simp at hg; rcases hg with rfl | rfl <;> simp at hkv <;> (try rcases hkv with rfl | rfl) <;> (try subst hkv) <;> simp)]
  simp [varianceBound]
  norm_num

/-! ### C35 -/

/-- C35, restricted to one map per task: one task per input task, with its operator and shots, and the circuit bound with the corresponding map.
Missing: the docstring also allows a single map for all tasks, see `evaluateCircuits_counterexample`. -/
theorem evaluateCircuits_partial (tasks : List Task) (maps : List Expr.SymMap) (hlen : maps.length = tasks.length) (out : List Task) :
    evaluateCircuits tasks maps = .ok out ↔
      out.length = tasks.length ∧ ∀ i (h1 : i < tasks.length) (h2 : i < maps.length) (h3 : i < out.length),
        out[i].operator = tasks[i].operator ∧ out[i].shots = tasks[i].shots ∧ tasks[i].circuit.bind maps[i] = .ok out[i].circuit := by
  rw [evaluateCircuits, mapM_ok_iff, List.forall₂_iff_get]
  have hz : (tasks.zip maps).length = tasks.length := by simp [hlen]
  constructor
  · rintro ⟨h1, h2⟩
    refine ⟨by rw [← h1, hz], fun i hi1 hi2 hi3 => ?_⟩
    have := h2 i (by rw [hz]; exact hi1) hi3
    simp only [List.get_eq_getElem, List.getElem_zip] at this
    cases hb : tasks[i].circuit.bind maps[i] with
    | error e => rw [hb] at this; cases this
    | ok c =>
      rw [hb] at this
      have := Except.ok.inj this
      rw [← this]
      exact ⟨rfl, rfl, rfl⟩
  · rintro ⟨h1, h2⟩
    refine ⟨by rw [hz, h1], fun i hi hi3 => ?_⟩
    obtain ⟨a, b, c⟩ := h2 i (by rw [← hz]; exact hi) (by rw [hlen, ← hz]; exact hi) hi3
    simp only [List.get_eq_getElem, List.getElem_zip]
    rw [c]
    show Except.ok _ = Except.ok _
    rw [← a, ← b]

/-- C35. With one map for several tasks all tasks but the first are lost, contrary to the docstring. -/
theorem evaluateCircuits_counterexample (t : Task) (rest : List Task) (m : Expr.SymMap) (out : List Task) (h : evaluateCircuits (t :: rest) [m] = .ok out) :
    out.length = 1 := by
  rw [evaluateCircuits, mapM_ok_iff] at h
  rw [← h.length_eq]
  simp

/-- The situation of the counterexample exists: two tasks in, one out. -/
theorem evaluateCircuits_counterexample_witness (o : Terms Letter) :
    evaluateCircuits [⟨o, ⟨[], 1⟩, some 10⟩, ⟨o, ⟨[], 1⟩, some 20⟩] [[]] = .ok [⟨o, ⟨[], 1⟩, some 10⟩] := by
  rw [evaluateCircuits]
  simp only [List.zip_cons_cons, List.zip_nil_right, List.mapM_cons, List.mapM_nil]
  have : Circuit.bind ⟨[], 1⟩ [] = .ok ⟨[], 1⟩ := by
    rw [Circuit.bind, List.mapM_nil]
    show Circuit.make [] (some ((1 : ℕ) : ℚ)) = _
    exact make_explicit [] 1 (by norm_num)
  rw [this]
  rfl

end ZQ.Est
