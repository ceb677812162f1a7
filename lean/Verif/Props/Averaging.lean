import Verif.Props.Estimation
import Verif.Props.ContextSelection
import Verif.Props.Measurement

/-!
# C34: estimation by averaging
-/

namespace ZQ.Est

open ZQ ZQ.PyDict ZQ.Op ZQ.Circuits ZQ.Gates

/-- The operator is a single constant term. -/
def ConstantOnly (o : Terms Letter) : Prop := ∃ c, o = [([], c)]

theorem notMeasured_iff (t : Task) : notMeasured t = true ↔ ConstantOnly t.operator ∨ t.shots = some 0 := by
  rw [notMeasured, Bool.or_eq_true, Bool.and_eq_true, decide_eq_true_eq, decide_eq_true_eq, decide_eq_true_eq]
  refine or_congr ?_ Iff.rfl
  constructor
  · rintro ⟨h1, h2⟩
    obtain ⟨⟨u, c⟩, h⟩ := List.length_eq_one_iff.1 h1
    rw [h] at h2 ⊢
    simp only [keys, List.map_cons, List.map_nil, List.mem_singleton] at h2
    exact ⟨c, by rw [← h2]⟩
  · rintro ⟨c, h⟩
    rw [h]; simp [keys]

/-- The value a task gets without measurement. -/
noncomputable def plainValue (o : Terms Letter) : Meas.ExpectationValues :=
  match o with
  | [([], c)] => constantValue c
  | _ => constantValue 0

theorem plainValue_constant (c : ℂ) : plainValue [([], c)] = constantValue c := rfl

theorem plainValue_other {o : Terms Letter} (h : ¬ ConstantOnly o) : plainValue o = constantValue 0 := by
  unfold plainValue
  split
  · rename_i c; exact absurd ⟨c, rfl⟩ h
  · rfl

theorem evaluateNonMeasured1_ok {t : Task} (h : notMeasured t = true) : evaluateNonMeasured1 t = .ok (plainValue t.operator) := by
  rw [evaluateNonMeasured1]
  by_cases hc : ConstantOnly t.operator
  · obtain ⟨c, e⟩ := hc
    rw [e, if_neg (by simp [keys]), plainValue_constant, coeff_cons, if_pos rfl]
  · have h0 := ((notMeasured_iff t).1 h).resolve_left hc
    rw [if_pos, h0, plainValue_other hc]
    · rfl
    · by_contra hcon
      push Not at hcon
      apply hc
      obtain ⟨kv, hkv, e⟩ := List.mem_map.1 hcon.2
      have hl : t.operator.length = 1 := le_antisymm hcon.1 (List.length_pos_of_mem hkv)
      obtain ⟨⟨u, c⟩, h⟩ := List.length_eq_one_iff.1 hl
      rw [h, List.mem_singleton] at hkv
      subst hkv
      simp only at e
      exact ⟨c, by rw [h, e]⟩

theorem splitLoop_succ (i : ℕ) (tasks : List Task) :
    splitLoop (i + 1) tasks = ((splitLoop i tasks).1, (splitLoop i tasks).2.1, (splitLoop i tasks).2.2.1.map (· + 1), (splitLoop i tasks).2.2.2.map (· + 1)) := by
  induction tasks generalizing i with
  | nil => rfl
  | cons t ts ih =>
    rw [splitLoop, splitLoop]
    rw [ih (i + 1)]
    by_cases h : notMeasured t = true
    · rw [if_pos h, if_pos h]; rfl
    · rw [if_neg h, if_neg h]; rfl

theorem split_fst (i : ℕ) (tasks : List Task) :
    (splitLoop i tasks).1 = tasks.filter (fun t => !notMeasured t) ∧ (splitLoop i tasks).2.1 = tasks.filter notMeasured := by
  induction tasks generalizing i with
  | nil => exact ⟨rfl, rfl⟩
  | cons t ts ih =>
    rw [splitLoop]
    by_cases h : notMeasured t = true
    · rw [if_pos h, List.filter_cons_of_neg (by simp [h]), List.filter_cons_of_pos h]
      exact ⟨(ih _).1, by rw [(ih _).2]⟩
    · rw [if_neg h, List.filter_cons_of_pos (by simp [h]), List.filter_cons_of_neg h]
      exact ⟨by rw [(ih _).1], (ih _).2⟩

theorem fill_shift {α : Type} (a : Option α) (l : List (Option α)) (vs : List (α)) (is : List ℕ) :
    fill (a :: l) (vs.zip (is.map (· + 1))) = a :: fill l (vs.zip is) := by
  induction vs generalizing l is with
  | nil => rfl
  | cons v vs ih =>
    cases is with
    | nil => rfl
    | cons i is =>
      rw [List.map_cons, List.zip_cons_cons, List.zip_cons_cons, fill, fill, List.foldl_cons, List.foldl_cons]
      exact ih (l.set i (some v)) is

/-- Results in task order: each task takes the next value of its kind. -/
def mergeResults {α : Type} : List Task → List α → List α → List (Option α)
  | [], _, _ => []
  | t :: ts, non, meas =>
    if notMeasured t then non.head? :: mergeResults ts non.tail meas
    else meas.head? :: mergeResults ts non meas.tail

theorem fill_split {α : Type} (tasks : List Task) (non meas : List α) :
    fill (fill (List.replicate ((split tasks).2.1.length + (split tasks).1.length) none) (non.zip (split tasks).2.2.2)) (meas.zip (split tasks).2.2.1) =
      mergeResults tasks non meas := by
  induction tasks generalizing non meas with
  | nil =>
    show fill (fill [] (non.zip [])) (meas.zip []) = []
    rw [List.zip_nil_right, List.zip_nil_right]; rfl
  | cons t ts ih =>
    rw [mergeResults]
    have hs : split (t :: ts) = splitLoop 0 (t :: ts) := rfl
    rw [hs, splitLoop]
    rw [splitLoop_succ 0 ts]
    by_cases h : notMeasured t = true
    · rw [if_pos h, if_pos h]
      dsimp only
      rw [List.length_cons, Nat.succ_add, List.replicate_succ]
      have := ih non.tail meas
      cases non with
      | nil =>
        rw [List.zip_nil_left, show ∀ X : List (Option α), fill X [] = X from fun _ => rfl, fill_shift]
        exact congrArg _ this
      | cons v non =>
        rw [List.zip_cons_cons]
        have hf : fill (none :: List.replicate ((splitLoop 0 ts).2.1.length + (splitLoop 0 ts).1.length) none) ((v, 0) :: non.zip ((splitLoop 0 ts).2.2.2.map (· + 1))) =
            fill (some v :: List.replicate ((splitLoop 0 ts).2.1.length + (splitLoop 0 ts).1.length) none) (non.zip ((splitLoop 0 ts).2.2.2.map (· + 1))) := rfl
        rw [hf, fill_shift, fill_shift]
        rw [← this]
        rfl
    · rw [if_neg h, if_neg h]
      dsimp only
      rw [List.length_cons, Nat.add_succ, List.replicate_succ, fill_shift]
      have := ih non meas.tail
      cases meas with
      | nil =>
        exact congrArg _ this
      | cons v meas =>
        rw [List.zip_cons_cons]
        have hf : ∀ X : List (Option α), fill (none :: X) ((v, 0) :: meas.zip ((splitLoop 0 ts).2.2.1.map (· + 1))) =
            fill (some v :: X) (meas.zip ((splitLoop 0 ts).2.2.1.map (· + 1))) := fun _ => rfl
        rw [hf, fill_shift, ← this]
        rfl

theorem mergeResults_spec {α : Type} (tasks : List Task) (non meas : List α) :
    (mergeResults tasks non meas).length = tasks.length ∧
    ∀ i (hi : i < tasks.length), (mergeResults tasks non meas)[i]? =
      some (if notMeasured tasks[i] then non[(tasks.take i).countP notMeasured]? else meas[(tasks.take i).countP fun t => !notMeasured t]?) := by
  induction tasks generalizing non meas with
  | nil => exact ⟨rfl, fun i hi => by simp at hi⟩
  | cons t ts ih =>
    rw [mergeResults]
    by_cases h : notMeasured t = true
    · rw [if_pos h]
      obtain ⟨h1, h2⟩ := ih non.tail meas
      refine ⟨by rw [List.length_cons, h1, List.length_cons], ?_⟩
      intro i hi
      cases i with
      | zero => simp [h, List.head?_eq_getElem?]
      | succ i =>
        have hi' : i < ts.length := by simpa using hi
        rw [List.getElem?_cons_succ, h2 i hi', List.getElem_cons_succ, List.take_succ_cons, List.countP_cons_of_pos h,
          List.countP_cons_of_neg (by simp [h]), List.getElem?_tail]
    · rw [if_neg h]
      obtain ⟨h1, h2⟩ := ih non meas.tail
      refine ⟨by rw [List.length_cons, h1, List.length_cons], ?_⟩
      intro i hi
      cases i with
      | zero => simp [h, List.head?_eq_getElem?]
      | succ i =>
        have hi' : i < ts.length := by simpa using hi
        rw [List.getElem?_cons_succ, h2 i hi', List.getElem_cons_succ, List.take_succ_cons, List.countP_cons_of_neg h,
          List.countP_cons_of_pos (by simp [h]), List.getElem?_tail]

/-- The tasks that are sent to the backend: all but the constant ones and those with zero shots. -/
def measuredTasks (tasks : List Task) : List Task := tasks.filter fun t => !notMeasured t

theorem getElem_filter_countP {α : Type} (p : α → Bool) (l : List α) (i : ℕ) (hi : i < l.length) (hp : p l[i] = true) :
    (l.filter p)[(l.take i).countP p]? = some l[i] := by
  induction l generalizing i with
  | nil => simp at hi
  | cons a l ih =>
    cases i with
    | zero =>
      have hp : p a = true := hp
      simp [List.filter_cons_of_pos hp]
    | succ i =>
      have hi' : i < l.length := by simpa using hi
      have := ih i hi' hp
      by_cases h : p a = true
      · rw [List.filter_cons_of_pos h, List.take_succ_cons, List.countP_cons_of_pos h, List.getElem?_cons_succ, this]; rfl
      · rw [List.filter_cons_of_neg h, List.take_succ_cons, List.countP_cons_of_neg h, this]; rfl

/-- C34. Whatever the backend returns for the measured tasks, in order: the result has one entry per task, in task order.  A constant task
gets its constant, a task with zero shots gets 0, and a measured task gets the value computed from its own measurements. -/
theorem estimateByAveraging_spec (run : Runner) (tasks : List Task) (ms : List (List (List ℕ))) (vals : List Meas.ExpectationValues)
    (hrun : measuredTasks tasks ≠ [] → run ((measuredTasks tasks).map fun t => (t.circuit, t.shots)) = .ok ms)
    (hlen : ms.length = (measuredTasks tasks).length)
    (hvals : List.Forall₂ (fun (tm : Task × List (List ℕ)) v => measuredValue tm.1.operator tm.2 = .ok v) ((measuredTasks tasks).zip ms) vals) :
    ∃ out, estimateByAveraging run tasks = .ok out ∧ out.length = tasks.length ∧
      ∀ i (hi : i < tasks.length),
        (∀ c, tasks[i].operator = [([], c)] → out[i]? = some (some (constantValue c))) ∧
        (¬ ConstantOnly tasks[i].operator → tasks[i].shots = some 0 → out[i]? = some (some (constantValue 0))) ∧
        (¬ ConstantOnly tasks[i].operator → tasks[i].shots ≠ some 0 →
          ∃ m v, ms[((tasks.take i).filter fun t => !notMeasured t).length]? = some m ∧
            measuredValue tasks[i].operator m = .ok v ∧ out[i]? = some (some v)) := by
  have hnon : evaluateNonMeasured (split tasks).2.1 = .ok ((tasks.filter notMeasured).map fun t => plainValue t.operator) := by
    rw [evaluateNonMeasured, mapM_ok_iff, show (split tasks).2.1 = tasks.filter notMeasured from (split_fst 0 tasks).2]
    rw [List.forall₂_map_right_iff, List.forall₂_same]
    exact fun t ht => evaluateNonMeasured1_ok (List.mem_filter.1 ht).2
  have hs1 : (split tasks).1 = measuredTasks tasks := (split_fst 0 tasks).1
  have hmeas : (if (split tasks).1.isEmpty then (.ok [] : Except Err (List Meas.ExpectationValues))
    else do
      let ms ← run ((split tasks).1.map fun t => (t.circuit, t.shots))
      (((split tasks).1.map Task.operator).zip ms).mapM fun om => measuredValue om.1 om.2) = .ok vals := by
    rw [hs1]
    by_cases he : measuredTasks tasks = []
    · rw [he] at hvals ⊢
      cases hvals
      rfl
    · rw [if_neg (by simpa using he), hrun he]
      show List.mapM _ _ = _
      rw [mapM_ok_iff, List.zip_map_left, List.forall₂_map_left_iff]
      exact hvals
  obtain ⟨h1, h2⟩ := mergeResults_spec tasks ((tasks.filter notMeasured).map fun t => plainValue t.operator) vals
  refine ⟨_, ?_, h1, ?_⟩
  · rw [estimateByAveraging]
    dsimp only
    rw [hnon]
    rw [← fill_split]
    by_cases he : (split tasks).1.isEmpty = true
    · rw [if_pos he] at hmeas
      cases hmeas
      simp only [he, if_true]
      rfl
    · rw [if_neg he] at hmeas
      cases hr : run ((split tasks).1.map fun t => (t.circuit, t.shots)) with
      | error e => rw [hr] at hmeas; cases hmeas
      | ok ms' =>
        rw [hr] at hmeas
        have hmeas : (((split tasks).1.map Task.operator).zip ms').mapM (fun om => measuredValue om.1 om.2) = .ok vals := hmeas
        simp only [he, hmeas, bind, Except.bind]
        rfl
  · intro i hi
    have hi2 := h2 i hi
    have hnm : notMeasured tasks[i] = true → (mergeResults tasks ((tasks.filter notMeasured).map fun t => plainValue t.operator) vals)[i]? =
        some (some (plainValue tasks[i].operator)) := by
      intro h
      rw [hi2, if_pos h, List.getElem?_map, getElem_filter_countP notMeasured tasks i hi h]
      rfl
    refine ⟨?_, ?_, ?_⟩
    · intro c hc
      rw [hnm ((notMeasured_iff _).2 (.inl ⟨c, hc⟩)), hc, plainValue_constant]
    · intro hc h0
      rw [hnm ((notMeasured_iff _).2 (.inr h0)), plainValue_other hc]
    · intro hc h0
      have h : ¬ notMeasured tasks[i] = true := by
        rw [notMeasured_iff]; exact not_or.2 ⟨hc, h0⟩
      rw [if_neg h] at hi2
      have hg := getElem_filter_countP (fun t => !notMeasured t) tasks i hi (by simp [h])
      rw [← List.countP_eq_length_filter]
      set k := (tasks.take i).countP fun t => !notMeasured t
      have hk : k < (measuredTasks tasks).length := by
        by_contra hcon
        have : (measuredTasks tasks)[k]? = none := List.getElem?_eq_none (not_lt.1 hcon)
        have hg : (measuredTasks tasks)[k]? = some tasks[i] := hg
        rw [hg] at this
        cases this
      have hvl : vals.length = (measuredTasks tasks).length := by
        rw [← hvals.length_eq, List.length_zip, hlen, min_self]
      have hkz : k < ((measuredTasks tasks).zip ms).length := by rw [List.length_zip, hlen, min_self]; exact hk
      have hv := (List.forall₂_iff_get.1 hvals).2 k hkz (by rw [hvl]; exact hk)
      simp only [List.get_eq_getElem, List.getElem_zip] at hv
      have ht : (measuredTasks tasks)[k] = tasks[i] := by
        have := List.getElem?_eq_getElem hk
        have hg : (measuredTasks tasks)[k]? = some tasks[i] := hg
        rw [hg] at this
        exact (Option.some.inj this).symm
      rw [ht] at hv
      refine ⟨ms[k]'(by rw [hlen]; exact hk), vals[k]'(by rw [hvl]; exact hk), List.getElem?_eq_getElem _, hv, ?_⟩
      rw [hi2, List.getElem?_eq_getElem (by rw [hvl]; exact hk)]

/-- A `QubitOperator` with only `Z`s becomes the same Ising operator (items below the tolerance are dropped); another letter is refused. -/
theorem toIsing_spec {o : Terms Letter} (h : CanonicalOp o) :
    (IsingOp o → toIsing o = .ok (bigTerms o)) ∧ (¬ IsingOp o → toIsing o = .error .valueError) := by
  constructor
  · intro hz
    have h1 : toIsing o = .ok (o.foldl (fun acc kv => Op.add acc [(id kv.1, kv.2)]) []) := by
      rw [toIsing]
      refine foldlM_ok _ _ _ ?_ _
      intro kv hkv b
      have hk : kv.1 ∈ keys o := List.mem_map_of_mem hkv
      rw [isingOf, if_pos (show ∀ f ∈ kv.1, f.2 = Letter.Z from hz _ hk)]
      show Except.ok _ = _
      rw [show ofTerm ising kv.1 kv.2 = [(id kv.1, kv.2)] from ?_]
      show [((isingSimplify kv.1 kv.2).2, (isingSimplify kv.1 kv.2).1)] = _
      rw [isingSimplify_fixed (h.2 _ hk).1 (hz _ hk)]
      rfl
    rw [h1, rename_fold id o h.1 (fun _ _ _ _ e => e)]
    simp
  · intro hz
    have key : ∀ (o acc : Terms Letter), ¬ IsingOp o → o.foldlM (fun acc kv => (isingOf kv.1 kv.2).map (Op.add acc)) acc = .error .valueError := by
      intro o
      induction o with
      | nil => intro acc h; exact absurd (by intro t ht; simp [keys] at ht) h
      | cons kv o ih =>
        intro acc h
        rw [List.foldlM_cons]
        by_cases hkv : AllZ kv.1
        · obtain ⟨r, hr, -⟩ := (isingOf_spec kv.1 kv.2).1 hkv
          rw [hr]
          refine ih _ fun ho => h ?_
          intro t ht
          rw [keys, List.map_cons, List.mem_cons] at ht
          rcases ht with rfl | ht
          · exact hkv
          · exact ho t ht
        · rw [(isingOf_spec kv.1 kv.2).2 hkv]; rfl
    exact key o [] hz

/-- C34. The value of a measured task: for every term of the operator its coefficient times the average, over the measured bitstrings, of the product of
`±1` of its qubits. -/
theorem measuredValue_spec {o : Terms Letter} (h : CanonicalOp o) (hz : IsingOp o) (hbig : ∀ kv ∈ o, 1 / 10 ^ 8 ≤ ‖kv.2‖)
    (n : ℕ) (hn : 0 < n) (ho : ∀ kv ∈ o, ∀ f ∈ kv.1, f.1 < n) (m : List (List ℕ)) (hne : m ≠ []) (hb : Meas.Bitstrings n m) :
    ∃ v, measuredValue o m = .ok v ∧ v.values = o.map fun kv => kv.2.re * Meas.mean (Meas.termSpin (kv.1.map Prod.fst)) m := by
  rw [measuredValue, (toIsing_spec h).1 hz, bigTerms_eq_self hbig]
  have := Meas.expectationValues_spec n hn m hne hb (isingTable o) (by
    intro tc htc
    obtain ⟨kv, hkv, rfl⟩ := List.mem_map.1 htc
    refine ⟨(h.2 _ (List.mem_map_of_mem hkv)).nodup, ?_⟩
    intro q hq
    obtain ⟨f, hf, rfl⟩ := List.mem_map.1 hq
    exact ho kv hkv f hf) false (by simp)
  refine ⟨_, this, ?_⟩
  show (isingTable o).map _ = _
  rw [isingTable, List.map_map]
  rfl

/-- C34. A measured task whose operator has a letter other than `Z` makes the call fail. -/
theorem measuredValue_rejects {o : Terms Letter} (h : CanonicalOp o) (hz : ¬ IsingOp o) (m : List (List ℕ)) : measuredValue o m = .error .valueError := by
  rw [measuredValue, (toIsing_spec h).2 hz]; rfl

/-- C34. Exceptions of the backend are passed on. -/
theorem estimateByAveraging_error (run : Runner) (tasks : List Task) (e : Err) (hne : measuredTasks tasks ≠ [])
    (hrun : run ((measuredTasks tasks).map fun t => (t.circuit, t.shots)) = .error e) : estimateByAveraging run tasks = .error e := by
  have hs1 : (split tasks).1 = measuredTasks tasks := (split_fst 0 tasks).1
  have hnon : evaluateNonMeasured (split tasks).2.1 = .ok ((tasks.filter notMeasured).map fun t => plainValue t.operator) := by
    rw [evaluateNonMeasured, mapM_ok_iff, show (split tasks).2.1 = tasks.filter notMeasured from (split_fst 0 tasks).2]
    rw [List.forall₂_map_right_iff, List.forall₂_same]
    exact fun t ht => evaluateNonMeasured1_ok (List.mem_filter.1 ht).2
  rw [estimateByAveraging]
  dsimp only
  rw [hnon, hs1]
  have hne' : (measuredTasks tasks).isEmpty = false := by simpa using hne
  simp only [hne', hrun, bind, Except.bind]
  rfl

/-- C34. `calculate_exact_expectation_values`: one value per task, in order, that of the simulator for the task's circuit and operator. -/
theorem exactValues_spec (exact : Circuit → Terms Letter → Except Err Meas.ExpectationValues) (tasks : List Task) (out : List Meas.ExpectationValues) :
    exactValues exact tasks = .ok out ↔ List.Forall₂ (fun t v => exact t.circuit t.operator = .ok v) tasks out := by
  rw [exactValues, mapM_ok_iff]

/-- C37. `perform_context_selection`: every task keeps its shots, its operator is replaced with the diagonal one, its circuit is followed by the basis
change of its own operator. -/
theorem performContextSelection_spec (tasks out : List Task) :
    performContextSelection tasks = .ok out ↔
      List.Forall₂ (fun t u => ∃ c, contextSelection t.operator = .ok (c, u.operator) ∧ append t.circuit (.circuit c) = .ok u.circuit ∧ u.shots = t.shots)
        tasks out := by
  rw [performContextSelection, mapM_ok_iff]
  refine Iff.of_eq (congrArg (fun R => List.Forall₂ R tasks out) ?_)
  funext t u
  refine propext ⟨fun h => ?_, ?_⟩
  · cases h1 : contextSelection t.operator with
    | error e => rw [h1] at h; cases h
    | ok r =>
      rw [h1] at h
      cases h2 : append t.circuit (.circuit r.1) with
      | error e =>
        have h : (append t.circuit (.circuit r.1) >>= fun c => pure (⟨r.2, c, t.shots⟩ : Task)) = .ok u := h
        rw [h2] at h; cases h
      | ok c =>
        have h : (append t.circuit (.circuit r.1) >>= fun c => pure (⟨r.2, c, t.shots⟩ : Task)) = .ok u := h
        rw [h2] at h
        cases h
        exact ⟨r.1, rfl, h2, rfl⟩
  · rintro ⟨c, h1, h2, h3⟩
    rw [h1]
    show (append t.circuit (.circuit c) >>= fun c => pure (⟨u.operator, c, t.shots⟩ : Task)) = .ok u
    rw [h2, ← h3]
    rfl

/-- C38. `group_individually`: each task becomes one task per term, with the same circuit and shots. -/
theorem groupIndividually_spec (tasks : List Task) (h : ∀ t ∈ tasks, CanonicalOp t.operator) :
    groupIndividually tasks = tasks.flatMap fun t => t.operator.map fun kv => ⟨[kv], t.circuit, t.shots⟩ := by
  rw [groupIndividually]
  refine List.flatMap_congr fun t ht => ?_
  rw [getOperators, List.map_map]
  refine List.map_congr_left fun kv hkv => ?_
  show Task.mk (ofTerm qubit kv.1 kv.2) _ _ = _
  rw [show ofTerm qubit kv.1 kv.2 = [kv] from ?_]
  show [((qubitSimplify kv.1 kv.2).2, (qubitSimplify kv.1 kv.2).1)] = _
  rw [qubitSimplify_of_canonical ((h t ht).2 _ (List.mem_map_of_mem hkv))]

/-- C38. `group_greedily`: each task becomes tasks with the same circuit and shots whose operators are the groups; together they have exactly the terms of
the task's operator. -/
theorem groupGreedily_spec (tasks : List Task) (sortTerms : Bool) :
    ∃ parts : List (List Task), groupGreedily tasks sortTerms = parts.flatten ∧
      List.Forall₂ (fun t part => (∀ u ∈ part, u.circuit = t.circuit ∧ u.shots = t.shots) ∧ part.map Task.operator = groupGreedy t.operator sortTerms ∧
        (CanonicalOp t.operator → (∀ kv ∈ t.operator, 1 / 10 ^ 8 ≤ ‖kv.2‖) → (part.map Task.operator).flatten.Perm t.operator)) tasks parts := by
  refine ⟨tasks.map fun task => (groupGreedy task.operator sortTerms).map fun o => ⟨o, task.circuit, task.shots⟩, by rw [groupGreedily, List.flatMap_def], ?_⟩
  rw [List.forall₂_map_right_iff, List.forall₂_same]
  intro t _
  have hm : ((groupGreedy t.operator sortTerms).map fun o => (⟨o, t.circuit, t.shots⟩ : Task)).map Task.operator = groupGreedy t.operator sortTerms := by
    rw [List.map_map]; exact List.map_id _
  refine ⟨?_, hm, fun hc hb => ?_⟩
  · intro u hu
    obtain ⟨o, _, rfl⟩ := List.mem_map.1 hu
    exact ⟨rfl, rfl⟩
  · rw [hm]
    exact groupGreedy_partition hc sortTerms hb

/-- A concrete run: a constant, a measured task and a task without shots. -/
example : ∃ (tasks : List Task) (ms : List (List (List ℕ))) (vals : List Meas.ExpectationValues),
    measuredTasks tasks ≠ [] ∧ ms.length = (measuredTasks tasks).length ∧
    List.Forall₂ (fun (tm : Task × List (List ℕ)) v => measuredValue tm.1.operator tm.2 = .ok v) ((measuredTasks tasks).zip ms) vals := by
  obtain ⟨v, hv, -⟩ := measuredValue_spec (o := [([(0, .Z)], 2)]) ⟨by simp [WF, keys], by intro t ht; simp [keys] at ht; subst ht; simp [Canonical]⟩
    (by intro t ht; simp [keys] at ht; subst ht; intro f hf; simp at hf; subst hf; rfl) (by intro kv hkv; simp at hkv; subst hkv; norm_num) 1 (by norm_num)
    (by intro kv hkv; simp at hkv; subst hkv; simp) [[0], [1]] (by simp) (by intro s hs; simp at hs; rcases hs with rfl | rfl <;> simp)
  refine ⟨[⟨[([], 5)], ⟨[], 1⟩, some 10⟩, ⟨[([(0, .Z)], 2)], ⟨[], 1⟩, some 2⟩, ⟨[([(0, .Z)], 3)], ⟨[], 1⟩, some 0⟩], [[[0], [1]]], [v], ?_⟩
  have : measuredTasks [⟨[([], 5)], ⟨[], 1⟩, some 10⟩, ⟨[([(0, .Z)], 2)], ⟨[], 1⟩, some 2⟩, ⟨[([(0, .Z)], 3)], ⟨[], 1⟩, some 0⟩] =
      [⟨[([(0, .Z)], 2)], ⟨[], 1⟩, some 2⟩] := by
    simp [measuredTasks, notMeasured, keys]
  rw [this]
  exact ⟨by simp, rfl, .cons hv .nil⟩

end ZQ.Est
