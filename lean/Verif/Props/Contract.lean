import Verif.Model.Contract
import Verif.Props.Born
import Verif.Props.Expectation
import Verif.Props.Averaging

/-!
# C114: the contracts for estimators
-/

namespace ZQ.Contract

open ZQ ZQ.PyDict ZQ.Op ZQ.Circuits ZQ.Gates ZQ.Est ZQ.Backend ZQ.Stat ZQ.Expect Matrix

variable {W : Type}

/-- Specification: what the estimator returns does not depend on what the backend did before. -/
def Stateless (est : Estimator W) : Prop := ∀ w w' ts, (est w ts).1 = (est w' ts).1

/-- Specification: `out` has the values `v` at position `i`. -/
def HasValues (out : Except Err (List (Option Meas.ExpectationValues))) (i : ℕ) (v : List ℝ) : Prop :=
  ∃ l e, out = .ok l ∧ l[i]? = some (some e) ∧ e.values = v

theorem valuesAt_iff (l : List (Option Meas.ExpectationValues)) (i : ℕ) (v : List ℝ) : valuesAt l i = .ok v ↔ ∃ e, l[i]? = some (some e) ∧ e.values = v := by
  unfold valuesAt
  cases h : l[i]? with
  | none => simp
  | some o =>
    cases o with
    | none => simp
    | some e => simp

theorem orderLoop_iff {est : Estimator W} (hs : Stateless est) (joint : List (Option Meas.ExpectationValues)) (w₀ : W) : ∀ (ts : List Task) (i : ℕ) (w : W),
    (∃ bs, (orderLoop est joint i ts w).1 = .ok bs ∧ bs.all id = true) ↔
      ∀ k (hk : k < ts.length), ∃ v, HasValues (.ok joint) (i + k) v ∧ HasValues (est w₀ [ts[k]]).1 0 v := by
  intro ts
  induction ts with
  | nil => intro i w; simp [orderLoop]
  | cons t ts ih =>
    intro i w
    have hsplit : (∀ k (hk : k < (t :: ts).length), ∃ v, HasValues (.ok joint) (i + k) v ∧ HasValues (est w₀ [(t :: ts)[k]]).1 0 v) ↔
        (∃ v, HasValues (.ok joint) i v ∧ HasValues (est w₀ [t]).1 0 v) ∧
          ∀ k (hk : k < ts.length), ∃ v, HasValues (.ok joint) (i + 1 + k) v ∧ HasValues (est w₀ [ts[k]]).1 0 v := by
      constructor
      · intro h
        refine ⟨h 0 (by simp), fun k hk => ?_⟩
        have := h (k + 1) (by simpa using hk)
        rw [show i + 1 + k = i + (k + 1) by omega]
        exact this
      · rintro ⟨h0, h1⟩ k hk
        cases k with
        | zero => exact h0
        | succ k =>
          have := h1 k (by simpa using hk)
          rw [show i + 1 + k = i + (k + 1) by omega] at this
          exact this
    rw [hsplit, orderLoop]
    have he := hs w₀ w [t]
    rw [he]
    cases hv : valuesAt joint i with
    | error e =>
      refine iff_of_false (by simp) ?_
      rintro ⟨⟨v, ⟨l, x, e1, e2, e3⟩, -⟩, -⟩
      cases e1
      have := (valuesAt_iff joint i v).2 ⟨x, e2, e3⟩
      rw [hv] at this
      cases this
    | ok v =>
      have hj : ∀ v', HasValues (.ok joint) i v' ↔ v' = v := by
        intro v'
        constructor
        · rintro ⟨l, x, e1, e2, e3⟩
          cases e1
          have := (valuesAt_iff joint i v').2 ⟨x, e2, e3⟩
          rw [hv] at this
          cases this; rfl
        · rintro rfl
          obtain ⟨x, e2, e3⟩ := (valuesAt_iff joint i _).1 hv
          exact ⟨_, x, rfl, e2, e3⟩
      simp only [hj, exists_eq_left]
      rcases hest : est w [t] with ⟨o, w'⟩
      cases o with
      | error e =>
        refine iff_of_false (by simp) ?_
        rintro ⟨⟨l, x, e1, -⟩, -⟩
        cases e1
      | ok l =>
        dsimp only
        cases hv' : valuesAt l 0 with
        | error e =>
          refine iff_of_false (by simp) ?_
          rintro ⟨⟨l, x, e1, e2, e3⟩, -⟩
          cases e1
          have := (valuesAt_iff _ 0 v).2 ⟨x, e2, e3⟩
          rw [hv'] at this
          cases this
        | ok v' =>
          have hl : HasValues (.ok l) 0 v ↔ v = v' := by
            constructor
            · rintro ⟨l, x, e1, e2, e3⟩
              cases e1
              have := (valuesAt_iff _ 0 v).2 ⟨x, e2, e3⟩
              rw [hv'] at this
              cases this; rfl
            · rintro rfl
              obtain ⟨x, e2, e3⟩ := (valuesAt_iff _ 0 _).1 hv'
              exact ⟨_, x, rfl, e2, e3⟩
          rw [hl, ← ih (i + 1) w']
          dsimp only
          rcases ho : orderLoop est joint (i + 1) ts w' with ⟨o, w''⟩
          cases o with
          | error e => simp
          | ok bs => simp

/-- C114. The order contract accepts an estimator whose results do not depend on the backend's past exactly when it returns, for each task of the list, the same values as for that task
alone. -/
theorem order_iff {est : Estimator W} (hs : Stateless est) (tasks : List Task) (w : W) :
    (orderCheck est tasks w).1 = .ok true ↔
      (∃ l, (est w tasks).1 = .ok l) ∧ ∀ k (hk : k < tasks.length), ∃ v, HasValues (est w tasks).1 k v ∧ HasValues (est w [tasks[k]]).1 0 v := by
  unfold orderCheck
  rcases h : est w tasks with ⟨o, w'⟩
  cases o with
  | error e => simp
  | ok l =>
    have := orderLoop_iff hs l w tasks 0 w'
    simp only [zero_add] at this
    dsimp only
    rw [← this]
    rcases ho : orderLoop est l 0 tasks w' with ⟨o, w''⟩
    cases o with
    | error e => simp
    | ok bs => simp

/-- C114. The count contract accepts exactly the estimators that return as many results as there are tasks. -/
theorem count_iff (est : Estimator W) (tasks : List Task) (w : W) : (countCheck est tasks w).1 = .ok true ↔ ∃ l, (est w tasks).1 = .ok l ∧ l.length = tasks.length := by
  unfold countCheck
  rcases h : est w tasks with ⟨o, w'⟩
  cases o with
  | error e => simp
  | ok l => simp

/-- C114. The contracts on coefficients and constants accept exactly the estimators whose first two results have different values. -/
theorem differ_iff (est : Estimator W) (tasks : List Task) (w : W) :
    (differCheck est tasks w).1 = .ok true ↔ ∃ v v', HasValues (est w tasks).1 0 v ∧ HasValues (est w tasks).1 1 v' ∧ v ≠ v' := by
  unfold differCheck
  rcases h : est w tasks with ⟨o, w'⟩
  cases o with
  | error e =>
    refine iff_of_false (by simp) ?_
    rintro ⟨v, v', ⟨l, x, e1, -⟩, -⟩
    cases e1
  | ok l =>
    have hj : ∀ i v', HasValues (.ok l) i v' ↔ valuesAt l i = .ok v' := by
      intro i v'
      rw [valuesAt_iff]
      constructor
      · rintro ⟨l, x, e1, e2, e3⟩
        cases e1
        exact ⟨x, e2, e3⟩
      · rintro ⟨x, e2, e3⟩
        exact ⟨_, x, rfl, e2, e3⟩
    simp only [hj]
    cases h0 : valuesAt l 0 with
    | error e =>
      refine iff_of_false ?_ (by simp)
      cases valuesAt l 1 <;> simp
    | ok v =>
      cases h1 : valuesAt l 1 with
      | error e => simp
      | ok v' => simp

/-! ### Estimation by averaging with a seeded simulator -/

/-- What averaging gives for one task: without measurement the constant, else the value of the measurements of the seeded simulator. -/
noncomputable def single (r : Randomness) (s : ℕ) (ρ : String → ℂ) (t : Task) : Except Err Meas.ExpectationValues :=
  if notMeasured t then .ok (plainValue t.operator) else (simRun r (some s) ρ t.circuit t.shots ⟨0, 0, 0⟩).1 >>= fun m => measuredValue t.operator m

theorem simLoop_seeded (r : Randomness) (s : ℕ) (ρ : String → ℂ) : ∀ (cs : List (Circuit × Option ℤ)) (st st₀ : St ℕ),
    (simLoop r (some s) ρ cs st).1 = cs.mapM fun cn => (simRun r (some s) ρ cn.1 cn.2 st₀).1 := by
  intro cs
  induction cs with
  | nil => intro st st₀; rfl
  | cons cn cs ih =>
    intro st st₀
    obtain ⟨c, n⟩ := cn
    rw [List.mapM_cons, simLoop, seeded_same r s ρ c n st₀ st]
    rcases h : simRun r (some s) ρ c n st with ⟨o, st'⟩
    cases o with
    | error e => rfl
    | ok m =>
      dsimp only
      have := ih st' st₀
      rcases h2 : simLoop r (some s) ρ cs st' with ⟨o, st''⟩
      rw [h2] at this
      show _ = (List.mapM _ cs >>= fun bs => pure (m :: bs))
      rw [← this]
      cases o with
      | error e => rfl
      | ok ms => rfl

theorem merge_iff {f : Task → Except Err Meas.ExpectationValues} (hf : ∀ t, notMeasured t = true → f t = .ok (plainValue t.operator)) : ∀ (tasks : List Task) (out : List (Option Meas.ExpectationValues)),
    (∃ vals, List.Forall₂ (fun t v => f t = .ok v) (measuredTasks tasks) vals ∧ out = mergeResults tasks ((tasks.filter notMeasured).map fun t => plainValue t.operator) vals) ↔
      ∃ vs, out = vs.map some ∧ List.Forall₂ (fun t v => f t = .ok v) tasks vs := by
  intro tasks
  induction tasks with
  | nil =>
    intro out
    constructor
    · rintro ⟨vals, -, rfl⟩; exact ⟨[], rfl, .nil⟩
    · rintro ⟨vs, rfl, h⟩; cases h; exact ⟨[], .nil, rfl⟩
  | cons t ts ih =>
    intro out
    by_cases h : notMeasured t = true
    · have hm : measuredTasks (t :: ts) = measuredTasks ts := List.filter_cons_of_neg (by simp [h])
      rw [hm, List.filter_cons_of_pos h]
      constructor
      · rintro ⟨vals, h1, rfl⟩
        obtain ⟨vs, e, h2⟩ := (ih _).1 ⟨vals, h1, rfl⟩
        refine ⟨plainValue t.operator :: vs, ?_, .cons (hf t h) h2⟩
        rw [mergeResults, if_pos h, List.map_cons, List.tail_cons, e]
        rfl
      · rintro ⟨vs, rfl, h1⟩
        cases h1 with
        | cons h1 h2 =>
          rename_i v vs
          rw [hf t h] at h1
          cases h1
          obtain ⟨vals, h3, e⟩ := (ih _).2 ⟨vs, rfl, h2⟩
          refine ⟨vals, h3, ?_⟩
          rw [mergeResults, if_pos h, List.map_cons, List.map_cons, List.tail_cons, e]
          rfl
    · have hm : measuredTasks (t :: ts) = t :: measuredTasks ts := List.filter_cons_of_pos (by simp [h])
      rw [hm, List.filter_cons_of_neg h]
      constructor
      · rintro ⟨vals, h1, rfl⟩
        cases h1 with
        | cons h1 h2 =>
          rename_i v vals
          obtain ⟨vs, e, h3⟩ := (ih _).1 ⟨vals, h2, rfl⟩
          refine ⟨v :: vs, ?_, .cons h1 h3⟩
          rw [mergeResults, if_neg h, List.tail_cons, e]
          rfl
      · rintro ⟨vs, rfl, h1⟩
        cases h1 with
        | cons h1 h2 =>
          rename_i v vs
          obtain ⟨vals, h3, e⟩ := (ih _).2 ⟨vs, rfl, h2⟩
          refine ⟨v :: vals, .cons h1 h3, ?_⟩
          rw [mergeResults, if_neg h, List.map_cons, List.tail_cons, e]
          rfl

theorem measured_bind (f : Task → Except Err (List (List ℕ))) : ∀ (ts : List Task) (vals : List Meas.ExpectationValues),
    (ts.mapM f >>= fun ms => ((ts.map Task.operator).zip ms).mapM fun om => measuredValue om.1 om.2) = .ok vals ↔
      List.Forall₂ (fun t v => (f t >>= fun m => measuredValue t.operator m) = .ok v) ts vals := by
  intro ts vals
  constructor
  · intro h
    cases hm : ts.mapM f with
    | error e => rw [hm] at h; cases h
    | ok ms =>
      rw [hm] at h
      have h : ((ts.map Task.operator).zip ms).mapM (fun om => measuredValue om.1 om.2) = .ok vals := h
      rw [mapM_ok_iff] at hm h
      clear * - hm h
      induction hm generalizing vals with
      | nil => cases h; exact .nil
      | cons h1 h2 ih =>
        rw [List.map_cons, List.zip_cons_cons] at h
        cases h with
        | cons h3 h4 => exact .cons (by rw [h1]; exact h3) (ih _ h4)
  · intro h
    have : ∃ ms, List.Forall₂ (fun t m => f t = .ok m) ts ms ∧ List.Forall₂ (fun (om : Terms Letter × List (List ℕ)) v => measuredValue om.1 om.2 = .ok v) ((ts.map Task.operator).zip ms) vals := by
      induction h with
      | nil => exact ⟨[], .nil, .nil⟩
      | cons h1 h2 ih =>
        rename_i t v ts vals
        obtain ⟨ms, h3, h4⟩ := ih
        cases hf : f t with
        | error e => rw [hf] at h1; cases h1
        | ok m =>
          rw [hf] at h1
          exact ⟨m :: ms, .cons hf h3, .cons h1 h4⟩
    obtain ⟨ms, h1, h2⟩ := this
    rw [(mapM_ok_iff _ _ _).2 h1]
    exact (mapM_ok_iff _ _ _).2 h2

theorem averaging_general (g : Task → Except Err (List (List ℕ))) (run : Runner) (tasks : List Task)
    (hrun : run ((measuredTasks tasks).map fun t => (t.circuit, t.shots)) = (measuredTasks tasks).mapM g) (out : List (Option Meas.ExpectationValues)) :
    estimateByAveraging run tasks = .ok out ↔ ∃ vs, out = vs.map some ∧
      List.Forall₂ (fun t v => (if notMeasured t then .ok (plainValue t.operator) else g t >>= fun m => measuredValue t.operator m) = .ok v) tasks vs := by
  rw [← merge_iff (f := fun t => if notMeasured t then .ok (plainValue t.operator) else g t >>= fun m => measuredValue t.operator m) (fun t h => if_pos h)]
  have hnon : evaluateNonMeasured (split tasks).2.1 = .ok ((tasks.filter notMeasured).map fun t => plainValue t.operator) := by
    rw [evaluateNonMeasured, mapM_ok_iff, show (split tasks).2.1 = tasks.filter notMeasured from (split_fst 0 tasks).2]
    rw [List.forall₂_map_right_iff, List.forall₂_same]
    exact fun t ht => evaluateNonMeasured1_ok (List.mem_filter.1 ht).2
  have hs1 : (split tasks).1 = measuredTasks tasks := (split_fst 0 tasks).1
  have hmeas : (if (split tasks).1.isEmpty then (.ok [] : Except Err (List Meas.ExpectationValues))
    else do
      let ms ← run ((split tasks).1.map fun t => (t.circuit, t.shots))
      (((split tasks).1.map Task.operator).zip ms).mapM fun om => measuredValue om.1 om.2) =
      ((measuredTasks tasks).mapM g >>= fun ms => (((measuredTasks tasks).map Task.operator).zip ms).mapM fun om => measuredValue om.1 om.2) := by
    rw [hs1]
    by_cases he : measuredTasks tasks = []
    · rw [he]; rfl
    · rw [if_neg (by simpa using he), hrun]
  have hF : ∀ vals, ((measuredTasks tasks).mapM g >>= fun ms => (((measuredTasks tasks).map Task.operator).zip ms).mapM fun om => measuredValue om.1 om.2) = .ok vals ↔
      List.Forall₂ (fun t v => (if notMeasured t then .ok (plainValue t.operator) else g t >>= fun m => measuredValue t.operator m) = .ok v) (measuredTasks tasks) vals := by
    intro vals
    rw [measured_bind]
    have hcongr : ∀ t ∈ measuredTasks tasks, (if notMeasured t then .ok (plainValue t.operator) else g t >>= fun m => measuredValue t.operator m) = (g t >>= fun m => measuredValue t.operator m) := by
      intro t ht
      have := (List.mem_filter.1 ht).2
      exact if_neg (by simpa using this)
    generalize measuredTasks tasks = M at hcongr
    clear * - hcongr
    rw [List.forall₂_iff_get, List.forall₂_iff_get]
    refine and_congr_right fun _ => forall_congr' fun i => forall_congr' fun h => forall_congr' fun h' => ?_
    rw [hcongr _ (List.get_mem _ _)]
  have he : estimateByAveraging run tasks = (((measuredTasks tasks).mapM g >>= fun ms => (((measuredTasks tasks).map Task.operator).zip ms).mapM fun om => measuredValue om.1 om.2) >>= fun vals =>
      .ok (mergeResults tasks ((tasks.filter notMeasured).map fun t => plainValue t.operator) vals)) := by
    rw [← hmeas, estimateByAveraging]
    dsimp only
    rw [hnon]
    simp only [← fill_split]
    by_cases hem : (split tasks).1.isEmpty = true
    · simp only [hem, if_true]; rfl
    · simp only [hem]
      cases run ((split tasks).1.map fun t => (t.circuit, t.shots)) <;> rfl
  rw [he]
  constructor
  · intro h
    cases hv : ((measuredTasks tasks).mapM g >>= fun ms => (((measuredTasks tasks).map Task.operator).zip ms).mapM fun om => measuredValue om.1 om.2) with
    | error e => rw [hv] at h; cases h
    | ok vals =>
      rw [hv] at h
      exact ⟨vals, (hF vals).1 hv, (Except.ok.inj h).symm⟩
  · rintro ⟨vals, h1, rfl⟩
    rw [(hF vals).2 h1]
    rfl

theorem averaging_ok_iff (r : Randomness) (s : ℕ) (ρ : String → ℂ) (st : St ℕ) (tasks : List Task) (out : List (Option Meas.ExpectationValues)) :
    (averaging r (some s) ρ st tasks).1 = .ok out ↔ ∃ vs, out = vs.map some ∧ List.Forall₂ (fun t v => single r s ρ t = .ok v) tasks vs := by
  refine averaging_general (fun t => (simRun r (some s) ρ t.circuit t.shots ⟨0, 0, 0⟩).1) (simRunner r (some s) ρ st) tasks ?_ out
  rw [simRunner, simLoop_seeded r s ρ _ st ⟨0, 0, 0⟩, List.mapM_map]
  rfl

theorem averaging_stateless (r : Randomness) (s : ℕ) (ρ : String → ℂ) : Stateless (averaging r (some s) ρ) := by
  intro st st' ts
  have : simRunner r (some s) ρ st = simRunner r (some s) ρ st' := by
    funext cs
    show (simLoop r (some s) ρ cs st).1 = (simLoop r (some s) ρ cs st').1
    rw [simLoop_seeded r s ρ cs st ⟨0, 0, 0⟩, simLoop_seeded r s ρ cs st' ⟨0, 0, 0⟩]
  show estimateByAveraging _ ts = estimateByAveraging _ ts
  rw [this]

theorem averaging_one (r : Randomness) (s : ℕ) (ρ : String → ℂ) (st : St ℕ) (t : Task) (v : Meas.ExpectationValues) :
    (averaging r (some s) ρ st [t]).1 = .ok [some v] ↔ single r s ρ t = .ok v := by
  rw [averaging_ok_iff]
  constructor
  · rintro ⟨vs, e, h⟩
    cases h with
    | cons h1 h2 =>
      cases h2
      rw [List.map_singleton, List.singleton_inj, Option.some_inj] at e
      rw [e]; exact h1
  · intro h
    exact ⟨[v], rfl, .cons h .nil⟩

/-- C114. With a seeded simulator, averaging treats each task by itself: for all tasks, seeds, random numbers and histories, the result of a list of tasks is the list of the results of the
tasks estimated alone, and it exists exactly when all of those exist. -/
theorem averaging_taskwise (r : Randomness) (s : ℕ) (ρ : String → ℂ) (st st' : St ℕ) (tasks : List Task) (out : List (Option Meas.ExpectationValues)) :
    (averaging r (some s) ρ st tasks).1 = .ok out ↔
      ∃ vs, out = vs.map some ∧ List.Forall₂ (fun t v => (averaging r (some s) ρ st' [t]).1 = .ok [some v]) tasks vs := by
  rw [averaging_ok_iff]
  simp only [averaging_one]

/-- C114. Averaging with a seeded simulator meets the count and the order contract for every list of tasks it can estimate. -/
theorem averaging_order (r : Randomness) (s : ℕ) (ρ : String → ℂ) (st : St ℕ) (tasks : List Task) (out : List (Option Meas.ExpectationValues))
    (h : (averaging r (some s) ρ st tasks).1 = .ok out) :
    (countCheck (averaging r (some s) ρ) tasks st).1 = .ok true ∧ (orderCheck (averaging r (some s) ρ) tasks st).1 = .ok true := by
  obtain ⟨vs, e, h2⟩ := (averaging_taskwise r s ρ st st tasks out).1 h
  rw [count_iff, order_iff (averaging_stateless r s ρ)]
  refine ⟨⟨out, h, by rw [e, List.length_map, h2.length_eq]⟩, ⟨out, h⟩, fun k hk => ?_⟩
  have hk' : k < vs.length := by rw [← h2.length_eq]; exact hk
  have := (List.forall₂_iff_get.1 h2).2 k hk hk'
  exact ⟨vs[k].values, ⟨out, vs[k], h, by rw [e, List.getElem?_map, List.getElem?_eq_getElem hk']; rfl, rfl⟩, ⟨_, vs[k], this, rfl, rfl⟩⟩

/-! ### The tasks of the contracts -/

theorem zOp (q : ℕ) (c : ℂ) : ofTerm ising [(q, Letter.Z)] c = [([(q, .Z)], c)] := by
  show [((isingSimplify _ c).2, (isingSimplify _ c).1)] = _
  rw [isingSimplify_fixed (by simp) (by simp [AllZ])]

theorem zConst (c : ℂ) : ofTerm ising [] c = [([], c)] := by
  show [((isingSimplify _ c).2, (isingSimplify _ c).1)] = _
  rw [isingSimplify_fixed (by simp) (by simp [AllZ])]

theorem set_new {o : Terms Letter} {t : Term Letter} {c : ℂ} (ht : t ∉ keys o) : PyDict.set o t c = o ++ [(t, c)] := by
  induction o with
  | nil => rfl
  | cons kv o ih =>
    obtain ⟨k, v⟩ := kv
    rw [keys, List.map_cons, List.mem_cons, not_or] at ht
    rw [PyDict.set, if_neg (Ne.symm ht.1), ih ht.2]
    rfl

theorem add_new {o : Terms Letter} {t : Term Letter} {c : ℂ} (ht : t ∉ keys o) (hc : 1 / 10 ^ 8 ≤ ‖c‖) : add o [(t, c)] = o ++ [(t, c)] := by
  show addStep o (t, c) = _
  unfold addStep
  dsimp only
  rw [coeff_of_not_mem ht, zero_add, if_neg (show ¬ IsSmall c eqTol from not_lt.2 hc), set_new ht]

theorem norm_one' : (1 / 10 ^ 8 : ℝ) ≤ ‖(1 : ℂ)‖ := by rw [norm_one]; norm_num

theorem norm_four : (1 / 10 ^ 8 : ℝ) ≤ ‖(4 : ℂ)‖ := by
  rw [show (4 : ℂ) = ((4 : ℝ) : ℂ) by push_cast; rfl, Complex.norm_real]
  norm_num

/-- The tasks of the first two contracts, with their operators written out. -/
theorem sharedTasks_eq : sharedTasks =
    [⟨[([(0, .Z)], 1)], ⟨[hOp 0], 1⟩, some 10000⟩,
      ⟨[([(0, .Z)], 1), ([(1, .Z)], 1), ([(2, .Z)], 1)], ⟨[hOp 0, rotOp "RX" rxMatrix (Real.pi / 3) 0, hOp 2], 3⟩, some 10000⟩,
      ⟨[([(0, .Z)], 1), ([(1, .Z)], 4)],
        ⟨[rotOp "RX" rxMatrix Real.pi 0, rotOp "RY" ryMatrix (12 / 100) 1, rotOp "RZ" rzMatrix (Real.pi / 3) 1, rotOp "RY" ryMatrix (19213 / 10000) 0], 2⟩, some 10000⟩] := by
  simp only [sharedTasks, zOp]
  rw [add_new (t := [(1, .Z)]) (by simp [keys]) norm_one', add_new (t := [(2, .Z)]) (by simp [keys]) norm_one', add_new (t := [(1, .Z)]) (by simp [keys]) norm_four]
  rfl

theorem coefficientTasks_eq : coefficientTasks =
    [⟨[([(0, .Z)], 1)], ⟨[rotOp "RX" rxMatrix (Real.pi / 3) 0], 1⟩, some 10000⟩,
      ⟨[([(0, .Z)], 19971997 / 1000000)], ⟨[rotOp "RX" rxMatrix (Real.pi / 3) 0], 1⟩, some 10000⟩] := by
  simp only [coefficientTasks, zOp]

theorem norm_big : (1 / 10 ^ 8 : ℝ) ≤ ‖(19971997 / 1000000 : ℂ)‖ := by
  rw [show (19971997 / 1000000 : ℂ) = ((19971997 / 1000000 : ℝ) : ℂ) by push_cast; rfl, Complex.norm_real]
  norm_num

theorem constantTasks_eq : constantTasks =
    [⟨[([(0, .Z)], 1)], ⟨[hOp 0], 1⟩, some 10000⟩, ⟨[([(0, .Z)], 1), ([], 19971997 / 1000000)], ⟨[hOp 0], 1⟩, some 10000⟩] := by
  simp only [constantTasks, zOp, zConst]
  rw [add_new (t := []) (by simp [keys]) norm_big]
  rfl

theorem hOp_ok (ρ : String → ℂ) {n q : ℕ} (hq : q < n) : (hOp q).Valid n ∧ UnitaryOp ρ (hOp q) := by
  refine ⟨⟨by simp [hOp], by simp [hOp], by simpa [hOp] using hq, rfl, builtin_wf _ (by simp [builtinGates, fixedGates, parametricGates]) _⟩, ?_⟩
  exact builtin_unitary ⟨"H", .builtin fun _ => hMatrix, 1, true⟩ (by simp [builtinGates, fixedGates, parametricGates]) [] ρ (by simp)

theorem rotOp_ok (ρ : String → ℂ) {name : String} {m : ℂ → Mat ℂ} (hb : (⟨name, param1 m, 1, false⟩ : Base) ∈ builtinGates) (a : ℝ) {n q : ℕ} (hq : q < n) :
    (rotOp name m a q).Valid n ∧ UnitaryOp ρ (rotOp name m a q) := by
  refine ⟨⟨by simp [rotOp], by simp [rotOp], by simpa [rotOp] using hq, rfl, builtin_wf _ hb _⟩, ?_⟩
  exact builtin_unitary _ hb [.num (a : ℂ)] ρ (by
    intro p hp
    rw [List.mem_singleton.1 hp]
    exact Complex.ofReal_im _)

theorem rx_builtin : (⟨"RX", param1 rxMatrix, 1, false⟩ : Base) ∈ builtinGates := by simp [builtinGates, parametricGates]
theorem ry_builtin : (⟨"RY", param1 ryMatrix, 1, false⟩ : Base) ∈ builtinGates := by simp [builtinGates, parametricGates]
theorem rz_builtin : (⟨"RZ", param1 rzMatrix, 1, false⟩ : Base) ∈ builtinGates := by simp [builtinGates, parametricGates]

theorem circuit_unitary (ρ : String → ℂ) (ops : List GateOp) (n : ℕ) (hn : 0 < n) (h : ∀ op ∈ ops, op.Valid n ∧ UnitaryOp ρ op) : Expect.Unitary ρ ⟨ops, n⟩ :=
  ⟨fun h0 => absurd h0 hn.ne', fun op ho => (h op ho).1, fun op ho => (h op ho).2⟩

/-- An operator of single `Z`s on different qubits, and possibly a constant, with the given coefficients. -/
theorem ready_of (ρ : String → ℂ) (o : Terms Letter) (c : Circuit) (hu : Expect.Unitary ρ c) (hn : 0 < c.n) (hk : (keys o).Nodup)
    (h : ∀ kv ∈ o, (kv.1 = [] ∨ ∃ q < c.n, kv.1 = [(q, .Z)]) ∧ 1 / 10 ^ 8 ≤ ‖kv.2‖ ∧ kv.2.im = 0) : Ready ρ ⟨o, c, some 10000⟩ where
  canonical := ⟨hk, fun t ht => by
    obtain ⟨kv, hkv, rfl⟩ := List.mem_map.1 ht
    rcases (h kv hkv).1 with e | ⟨q, -, e⟩
    · rw [e]; exact ⟨by simp, by simp⟩
    · rw [e]; exact ⟨by simp, by simp⟩⟩
  ising := fun t ht => by
    obtain ⟨kv, hkv, rfl⟩ := List.mem_map.1 ht
    rcases (h kv hkv).1 with e | ⟨q, -, e⟩
    · rw [e]; simp [AllZ]
    · rw [e]; simp [AllZ]
  big := fun kv hkv => (h kv hkv).2.1
  real := fun kv hkv => (h kv hkv).2.2
  below := fun kv hkv f hf => by
    rcases (h kv hkv).1 with e | ⟨q, hq, e⟩
    · rw [e] at hf; cases hf
    · rw [e, List.mem_singleton] at hf; rw [hf]; exact hq
  unitary := hu
  qubits := hn
  shots := ⟨10000, by norm_num, rfl⟩

/-- All the tasks of the contracts can be measured. -/
theorem tasks_ready (ρ : String → ℂ) : ∀ t ∈ sharedTasks ++ coefficientTasks ++ constantTasks, Ready ρ t := by
  have hH : Expect.Unitary ρ ⟨[hOp 0], 1⟩ := circuit_unitary ρ _ _ (by norm_num) (by
    intro op ho
    rw [List.mem_singleton.1 ho]
    exact hOp_ok ρ (by norm_num))
  have hX : Expect.Unitary ρ ⟨[rotOp "RX" rxMatrix (Real.pi / 3) 0], 1⟩ := circuit_unitary ρ _ _ (by norm_num) (by
    intro op ho
    rw [List.mem_singleton.1 ho]
    exact rotOp_ok ρ rx_builtin _ (by norm_num))
  have h3 : Expect.Unitary ρ ⟨[hOp 0, rotOp "RX" rxMatrix (Real.pi / 3) 0, hOp 2], 3⟩ := circuit_unitary ρ _ _ (by norm_num) (by
    intro op ho
    simp only [List.mem_cons, List.not_mem_nil, or_false] at ho
    rcases ho with rfl | rfl | rfl
    · exact hOp_ok ρ (by norm_num)
    · exact rotOp_ok ρ rx_builtin _ (by norm_num)
    · exact hOp_ok ρ (by norm_num))
  have h4 : Expect.Unitary ρ ⟨[rotOp "RX" rxMatrix Real.pi 0, rotOp "RY" ryMatrix (12 / 100) 1, rotOp "RZ" rzMatrix (Real.pi / 3) 1, rotOp "RY" ryMatrix (19213 / 10000) 0], 2⟩ :=
    circuit_unitary ρ _ _ (by norm_num) (by
    intro op ho
    simp only [List.mem_cons, List.not_mem_nil, or_false] at ho
    rcases ho with rfl | rfl | rfl | rfl
    · exact rotOp_ok ρ rx_builtin _ (by norm_num)
    · exact rotOp_ok ρ ry_builtin _ (by norm_num)
    · exact rotOp_ok ρ rz_builtin _ (by norm_num)
    · exact rotOp_ok ρ ry_builtin _ (by norm_num))
  have big := norm_big
  have e1 := norm_one'
  have e4 := norm_four
  have im : (19971997 / 1000000 : ℂ).im = 0 := by
    rw [show (19971997 / 1000000 : ℂ) = ((19971997 / 1000000 : ℝ) : ℂ) by push_cast; rfl]; exact Complex.ofReal_im _
  have im1 : (1 : ℂ).im = 0 := rfl
  have im4 : (4 : ℂ).im = 0 := rfl
  intro t ht
  simp only [sharedTasks_eq, coefficientTasks_eq, constantTasks_eq, List.cons_append, List.nil_append, List.mem_cons, List.not_mem_nil, or_false] at ht
  rcases ht with rfl | rfl | rfl | rfl | rfl | rfl | rfl
  · refine ready_of ρ _ _ hH (by norm_num) (by simp [keys]) fun kv hkv => ?_
    rw [List.mem_singleton.1 hkv]; exact ⟨.inr ⟨0, by norm_num, rfl⟩, e1, im1⟩
  · refine ready_of ρ _ _ h3 (by norm_num) (by simp [keys]) fun kv hkv => ?_
    simp only [List.mem_cons, List.not_mem_nil, or_false] at hkv
    rcases hkv with rfl | rfl | rfl
    · exact ⟨.inr ⟨0, by norm_num, rfl⟩, e1, im1⟩
    · exact ⟨.inr ⟨1, by norm_num, rfl⟩, e1, im1⟩
    · exact ⟨.inr ⟨2, by norm_num, rfl⟩, e1, im1⟩
  · refine ready_of ρ _ _ h4 (by norm_num) (by simp [keys]) fun kv hkv => ?_
    simp only [List.mem_cons, List.not_mem_nil, or_false] at hkv
    rcases hkv with rfl | rfl
    · exact ⟨.inr ⟨0, by norm_num, rfl⟩, e1, im1⟩
    · exact ⟨.inr ⟨1, by norm_num, rfl⟩, e4, im4⟩
  · refine ready_of ρ _ _ hX (by norm_num) (by simp [keys]) fun kv hkv => ?_
    rw [List.mem_singleton.1 hkv]; exact ⟨.inr ⟨0, by norm_num, rfl⟩, e1, im1⟩
  · refine ready_of ρ _ _ hX (by norm_num) (by simp [keys]) fun kv hkv => ?_
    rw [List.mem_singleton.1 hkv]; exact ⟨.inr ⟨0, by norm_num, rfl⟩, big, im⟩
  · refine ready_of ρ _ _ hH (by norm_num) (by simp [keys]) fun kv hkv => ?_
    rw [List.mem_singleton.1 hkv]; exact ⟨.inr ⟨0, by norm_num, rfl⟩, e1, im1⟩
  · refine ready_of ρ _ _ hH (by norm_num) (by simp [keys]) fun kv hkv => ?_
    simp only [List.mem_cons, List.not_mem_nil, or_false] at hkv
    rcases hkv with rfl | rfl
    · exact ⟨.inr ⟨0, by norm_num, rfl⟩, e1, im1⟩
    · exact ⟨.inl rfl, big, im⟩

/-! ### What averaging gives for them -/

theorem bits_digits {n : ℕ} (x : Fin n → Bool) : (bits x).length = n ∧ ∀ d ∈ bits x, d = 0 ∨ d = 1 := by
  refine ⟨List.length_ofFn, fun d hd => ?_⟩
  obtain ⟨q, rfl⟩ := (List.mem_ofFn' _ _).1 hd
  cases x q <;> simp

/-- The measurements of one task on the seeded simulator. -/
noncomputable def shotsSeen (r : Randomness) (s : ℕ) (ρ : String → ℂ) (t : Task) : List (List ℕ) :=
  List.ofFn fun j : Fin (shotsOf t) => bits (outcome ρ t.circuit (r.seeded s j))

theorem single_values {r : Randomness} {s : ℕ} (hr : ∀ j, 0 ≤ r.seeded s j ∧ r.seeded s j < 1) {ρ : String → ℂ} {t : Task} (ht : Ready ρ t) (hc : ¬ ConstantOnly t.operator) :
    ∃ v, single r s ρ t = .ok v ∧ v.values = t.operator.map fun kv => kv.2.re * Meas.mean (Meas.termSpin (kv.1.map Prod.fst)) (shotsSeen r s ρ t) := by
  obtain ⟨n, hn, hs⟩ := ht.shots
  have hsh : shotsOf t = n := by rw [shotsOf, hs]; exact Int.toNat_natCast n
  have hm : ¬ notMeasured t = true := by
    rw [notMeasured_iff, not_or, hs]
    refine ⟨hc, fun h => ?_⟩
    have := Option.some.inj h
    omega
  have hrun : (simRun r (some s) ρ t.circuit t.shots ⟨0, 0, 0⟩).1 = .ok (shotsSeen r s ρ t) := by
    have := symbolicRun_stream hr ht.unitary ht.qubits n hn (⟨0, 0, 0⟩ : St ℕ)
    rw [simRun.eq_def, hs]
    refine this.trans ?_
    rw [shotsSeen, hsh]
  rw [single, if_neg hm, hrun]
  refine measuredValue_spec ht.canonical ht.ising ht.big t.circuit.n ht.qubits ht.below _ ?_ ?_
  · intro h
    have := congrArg List.length h
    rw [shotsSeen, List.length_ofFn, hsh, List.length_nil] at this
    omega
  · intro b hb
    obtain ⟨j, rfl⟩ := (List.mem_ofFn' _ _).1 hb
    exact bits_digits _

theorem one_state (ρ : String → ℂ) (g : Gate) {A : Matrix Bool Bool ℂ} (hA : (g.matrix ρ).onBits 1 = onOne A) (x : Fin 1 → Bool) :
    outputState ρ ⟨[⟨g, [0]⟩], 1⟩ x = A (x 0) false := by
  unfold outputState
  simp only [List.reverse_singleton, List.map_singleton, List.prod_singleton]
  rw [operator_single ρ g 0 (by norm_num) hA, Matrix.mulVec_single_one]
  simp [tensor, Function.update, Matrix.col]

theorem one_outcome {ρ : String → ℂ} {g : Gate} {A : Matrix Bool Bool ℂ} (hA : (g.matrix ρ).onBits 1 = onOne A) (hu : Expect.Unitary ρ ⟨[⟨g, [0]⟩], 1⟩) {u : ℝ} (h : 0 ≤ u ∧ u < 1) :
    outcome ρ ⟨[⟨g, [0]⟩], 1⟩ u 0 = true ↔ Complex.normSq (A false false) ≤ u := by
  have hl : bornList ρ ⟨[⟨g, [0]⟩], 1⟩ = [Complex.normSq (A false false), Complex.normSq (A true false)] := by
    unfold bornList
    simp only [pow_one, List.range_succ, List.range_zero, List.nil_append, List.cons_append, List.map_cons, List.map_nil, one_state ρ g hA]
    rfl
  have h1 := pick_iff (bornList_nonneg ρ _) (bornList_sum hu) h 1
  have h0 := pick_lt (bornList_nonneg ρ _) (bornList_sum hu) h
  have hs := bornList_sum hu
  rw [hl] at h1 h0 hs
  unfold outcome
  rw [hl]
  generalize pick _ u = k at h1 h0 ⊢
  have hs' : Complex.normSq (A false false) + Complex.normSq (A true false) = 1 := by simpa using hs
  have hk : bitsOf 1 k 0 = true ↔ k = 1 := by
    have : k < 2 := h0
    interval_cases k
    · exact iff_of_false (by decide +kernel) (by norm_num)
    · exact iff_of_true (by decide +kernel) rfl
  rw [hk, h1]
  simp [hs', h.2]

theorem rx_third (ρ : String → ℂ) : ((Gate.factory ⟨"RX", param1 rxMatrix, 1, false⟩ [.num ((Real.pi / 3 : ℝ) : ℂ)]).matrix ρ).onBits 1 = onOne (rxBit ((Real.pi / 3 : ℝ) : ℂ)) :=
  rxMatrix_onBits _

theorem cos_sixth : Complex.normSq (rxBit ((Real.pi / 3 : ℝ) : ℂ) false false) = 3 / 4 := by
  rw [rxBit, if_pos rfl, show (((Real.pi / 3 : ℝ) : ℂ) / 2) = ((Real.pi / 6 : ℝ) : ℂ) by push_cast; ring, ← Complex.ofReal_cos, Complex.normSq_ofReal, Real.cos_pi_div_six]
  have := Real.mul_self_sqrt (show (0 : ℝ) ≤ 3 by norm_num)
  linarith [this, show √3 / 2 * (√3 / 2) = (√3 * √3) / 4 by ring]

/-- The matrix of the Hadamard gate on one bit. -/
noncomputable def hBit : Matrix Bool Bool ℂ := fun i j => if i ∧ j then -(1 / (√2 : ℝ)) else 1 / (√2 : ℝ)

theorem h_gate (ρ : String → ℂ) : ((Gate.factory ⟨"H", .builtin fun _ => hMatrix, 1, true⟩ []).matrix ρ).onBits 1 = onOne hBit := by
  show hMatrix.onBits 1 = _
  apply ext_one
  intro x y
  cases x <;> cases y <;> simp [Mat.onBits, basisIndex_one, hMatrix, Mat.ofRows, onOne, hBit, neg_div]

theorem h_half : Complex.normSq (hBit false false) = 1 / 2 := by
  have e : hBit false false = ((1 / √2 : ℝ) : ℂ) := by simp [hBit]
  rw [e, Complex.normSq_ofReal]
  have := Real.mul_self_sqrt (show (0 : ℝ) ≤ 2 by norm_num)
  field_simp
  nlinarith

/-- The mean of `Z` on one qubit, by the number of ones. -/
theorem mean_one {N : ℕ} (b : Fin N → (Fin 1 → Bool)) :
    Meas.mean (Meas.termSpin [0]) (List.ofFn fun j => bits (b j)) = ((N : ℝ) - 2 * ((Finset.univ.filter fun j => b j 0 = true).card : ℝ)) / N := by
  unfold Meas.mean
  rw [List.length_ofFn]
  congr 1
  rw [List.map_ofFn, List.sum_ofFn, Finset.card_filter]
  push_cast
  rw [Finset.mul_sum, show ((N : ℝ)) = ∑ j : Fin N, (1 : ℝ) by simp, ← Finset.sum_sub_distrib]
  refine Finset.sum_congr rfl fun j _ => ?_
  show Meas.termSpin [0] (bits (b j)) = _
  unfold Meas.termSpin Meas.spin bits
  cases h : b j 0
  · simp [h]
  · simp [h]; norm_num

theorem averaging_values {r : Randomness} {s : ℕ} (hr : ∀ j, 0 ≤ r.seeded s j ∧ r.seeded s j < 1) {ρ : String → ℂ} (st : St ℕ) {tasks : List Task}
    (ht : ∀ t ∈ tasks, Ready ρ t ∧ ¬ ConstantOnly t.operator) :
    ∃ out, (averaging r (some s) ρ st tasks).1 = .ok out ∧ out.length = tasks.length ∧ ∀ k (hk : k < tasks.length),
      HasValues (averaging r (some s) ρ st tasks).1 k (tasks[k].operator.map fun kv => kv.2.re * Meas.mean (Meas.termSpin (kv.1.map Prod.fst)) (shotsSeen r s ρ tasks[k])) := by
  have : ∃ vs, List.Forall₂ (fun t v => single r s ρ t = .ok v ∧
      v.values = t.operator.map fun kv => kv.2.re * Meas.mean (Meas.termSpin (kv.1.map Prod.fst)) (shotsSeen r s ρ t)) tasks vs := by
    clear st
    induction tasks with
    | nil => exact ⟨[], .nil⟩
    | cons t ts ih =>
      obtain ⟨vs, h⟩ := ih fun t h => ht t (List.mem_cons_of_mem _ h)
      obtain ⟨v, h1⟩ := single_values hr (ht t (by simp)).1 (ht t (by simp)).2
      exact ⟨v :: vs, .cons h1 h⟩
  obtain ⟨vs, h⟩ := this
  have hok : (averaging r (some s) ρ st tasks).1 = .ok (vs.map some) := (averaging_ok_iff r s ρ st tasks _).2 ⟨vs, rfl, h.imp fun _ _ h => h.1⟩
  refine ⟨_, hok, by rw [List.length_map, h.length_eq], fun k hk => ?_⟩
  have hk' : k < vs.length := by rw [← h.length_eq]; exact hk
  have := ((List.forall₂_iff_get.1 h).2 k hk hk').2
  exact ⟨_, vs[k], hok, by rw [List.getElem?_map, List.getElem?_eq_getElem hk']; rfl, this⟩

theorem hasValues_unique {out : Except Err (List (Option Meas.ExpectationValues))} {i : ℕ} {v v' : List ℝ} (h : HasValues out i v) (h' : HasValues out i v') : v = v' := by
  obtain ⟨l, e, a1, a2, a3⟩ := h
  obtain ⟨l', e', b1, b2, b3⟩ := h'
  rw [a1] at b1
  cases b1
  rw [a2] at b2
  cases b2
  rw [← a3, ← b3]

theorem zOnly (c : ℂ) : ¬ ConstantOnly [([(0, Letter.Z)], c)] := by
  rintro ⟨d, h⟩
  simp at h

/-- C114. Estimation by averaging with a seeded simulator, whatever the seed, the numbers of its stream and the history: it meets the count, the order and the constant contract. It meets the
coefficient contract exactly if the number of ones among the 10000 measurements, those numbers of the stream that are at least 3/4, is not 5000. -/
theorem averaging_contracts (r : Randomness) (s : ℕ) (hr : ∀ j, 0 ≤ r.seeded s j ∧ r.seeded s j < 1) (ρ : String → ℂ) (st : St ℕ) :
    (countCheck (averaging r (some s) ρ) sharedTasks st).1 = .ok true ∧ (orderCheck (averaging r (some s) ρ) sharedTasks st).1 = .ok true ∧
      (differCheck (averaging r (some s) ρ) constantTasks st).1 = .ok true ∧
      ((differCheck (averaging r (some s) ρ) coefficientTasks st).1 = .ok true ↔
        (Finset.univ.filter fun j : Fin 10000 => 3 / 4 ≤ r.seeded s j).card ≠ 5000) := by
  have hready := tasks_ready ρ
  have hsh : ∀ t ∈ sharedTasks, Ready ρ t ∧ ¬ ConstantOnly t.operator := by
    intro t ht
    refine ⟨hready t (by simp [ht]), ?_⟩
    rw [sharedTasks_eq] at ht
    simp only [List.mem_cons, List.not_mem_nil, or_false] at ht
    rcases ht with rfl | rfl | rfl <;> rintro ⟨d, h⟩ <;> simp at h
  have hco : ∀ t ∈ coefficientTasks, Ready ρ t ∧ ¬ ConstantOnly t.operator := by
    intro t ht
    refine ⟨hready t (by simp [ht]), ?_⟩
    rw [coefficientTasks_eq] at ht
    simp only [List.mem_cons, List.not_mem_nil, or_false] at ht
    rcases ht with rfl | rfl <;> exact zOnly _
  have hcn : ∀ t ∈ constantTasks, Ready ρ t ∧ ¬ ConstantOnly t.operator := by
    intro t ht
    refine ⟨hready t (by simp [ht]), ?_⟩
    rw [constantTasks_eq] at ht
    simp only [List.mem_cons, List.not_mem_nil, or_false] at ht
    rcases ht with rfl | rfl <;> rintro ⟨d, h⟩ <;> simp at h
  obtain ⟨out, o1, -, -⟩ := averaging_values hr st hsh
  obtain ⟨h1, h2⟩ := averaging_order r s ρ st _ _ o1
  refine ⟨h1, h2, ?_, ?_⟩
  · obtain ⟨out, -, -, o3⟩ := averaging_values hr st hcn
    rw [differ_iff]
    have a := o3 0 (by simp [constantTasks])
    have b := o3 1 (by simp [constantTasks])
    refine ⟨_, _, a, b, fun h => ?_⟩
    have := congrArg List.length h
    simp [constantTasks_eq] at this
  · obtain ⟨out, -, -, o3⟩ := averaging_values hr st hco
    have a := o3 0 (by simp [coefficientTasks])
    have b := o3 1 (by simp [coefficientTasks])
    have hm : ∀ c : ℂ, Meas.mean (Meas.termSpin [0]) (shotsSeen r s ρ ⟨[([(0, Letter.Z)], c)], ⟨[rotOp "RX" rxMatrix (Real.pi / 3) 0], 1⟩, some 10000⟩) =
        ((10000 : ℝ) - 2 * ((Finset.univ.filter fun j : Fin 10000 => 3 / 4 ≤ r.seeded s j).card : ℝ)) / 10000 := by
      intro c
      have hx : Expect.Unitary ρ ⟨[rotOp "RX" rxMatrix (Real.pi / 3) 0], 1⟩ := (hco ⟨_, _, _⟩ (by rw [coefficientTasks_eq]; exact List.mem_cons_self ..)).1.unitary
      have := mean_one (N := 10000) fun j => outcome ρ ⟨[rotOp "RX" rxMatrix (Real.pi / 3) 0], 1⟩ (r.seeded s j)
      refine this.trans ?_
      have hf : ∀ j : Fin 10000, (outcome ρ ⟨[rotOp "RX" rxMatrix (Real.pi / 3) 0], 1⟩ (r.seeded s j) 0 = true) ↔ 3 / 4 ≤ r.seeded s j := by
        intro j
        rw [← cos_sixth]
        exact one_outcome (rx_third ρ) hx (hr j)
      rw [Finset.filter_congr fun j _ => hf j, Nat.cast_ofNat]
    rw [differ_iff]
    have ha : HasValues (averaging r (some s) ρ st coefficientTasks).1 0 [((10000 : ℝ) - 2 * ((Finset.univ.filter fun j : Fin 10000 => 3 / 4 ≤ r.seeded s j).card : ℝ)) / 10000] := by
      rw [← hm 1]
      simpa [coefficientTasks_eq] using a
    have hb : HasValues (averaging r (some s) ρ st coefficientTasks).1 1
        [19971997 / 1000000 * (((10000 : ℝ) - 2 * ((Finset.univ.filter fun j : Fin 10000 => 3 / 4 ≤ r.seeded s j).card : ℝ)) / 10000)] := by
      rw [← hm (19971997 / 1000000)]
      have hre : (19971997 / 1000000 : ℂ).re = 19971997 / 1000000 := by
        rw [show (19971997 / 1000000 : ℂ) = ((19971997 / 1000000 : ℝ) : ℂ) by push_cast; rfl]; exact Complex.ofReal_re _
      simpa only [coefficientTasks_eq, List.getElem_cons_succ, List.getElem_cons_zero, List.map_cons, List.map_nil, hre] using b
    constructor
    · rintro ⟨v, v', h1, h2, h3⟩ hcard
      rw [hasValues_unique h1 ha, hasValues_unique h2 hb, hcard] at h3
      norm_num at h3
    · intro hcard
      refine ⟨_, _, ha, hb, fun h => hcard ?_⟩
      rw [List.cons.injEq] at h
      have h0 : (10000 : ℝ) - 2 * ((Finset.univ.filter fun j : Fin 10000 => 3 / 4 ≤ r.seeded s j).card : ℝ) = 0 := by linarith [h.1]
      have : ((Finset.univ.filter fun j : Fin 10000 => 3 / 4 ≤ r.seeded s j).card : ℝ) = 5000 := by linarith
      exact_mod_cast this

/-! ### Exact estimation -/

theorem wavefunction_outcome {W : Type} (ρ : String → ℂ) (c : Circuit) (st st' : St W) :
    (getWavefunction (symbolic ρ) ρ c none st).1 = (getWavefunction (symbolic ρ) ρ c none st').1 := by
  unfold getWavefunction
  cases splitCircuit c (symbolic (W := W) ρ).isNative with
  | error e => rfl
  | ok pieces =>
    have h := wavefunctionLoop_outcome ρ pieces (Option.getD none (zeroVec c.n)) st st'
    dsimp only
    cases ha : wavefunctionLoop (symbolic ρ) ρ pieces (Option.getD none (zeroVec c.n)) st with
    | mk a b =>
      cases ha' : wavefunctionLoop (symbolic ρ) ρ pieces (Option.getD none (zeroVec c.n)) st' with
      | mk a' b' =>
        rw [ha, ha'] at h
        dsimp only at h
        subst h
        cases a with
        | error e => rfl
        | ok v => dsimp only; cases Wavefunction.mk? ((Backend.Vec.toList v).map .num) <;> rfl

theorem exact_outcome {W : Type} (ρ : String → ℂ) (c : Circuit) (o : Terms Letter) (st st' : St W) :
    (getExactExpectationValues (symbolic ρ) ρ c true o st).1 = (getExactExpectationValues (symbolic ρ) ρ c true o st').1 := by
  have h := wavefunction_outcome ρ c st st'
  unfold getExactExpectationValues
  cases ha : getWavefunction (symbolic ρ) ρ c none st with
  | mk a b =>
    cases ha' : getWavefunction (symbolic ρ) ρ c none st' with
    | mk a' b' =>
      rw [ha, ha'] at h
      dsimp only at h
      subst h
      cases a <;> rfl

theorem exactEstimator_mapM (ρ : String → ℂ) (st₀ : St ℕ) : ∀ (ts : List Task) (st : St ℕ),
    (exactEstimator ρ st ts).1 = ts.mapM fun t => (getExactExpectationValues (symbolic ρ) ρ t.circuit true t.operator st₀).1.map some := by
  intro ts
  induction ts with
  | nil => intro st; rw [exactEstimator]; rfl
  | cons t ts ih =>
    intro st
    rw [List.mapM_cons, exactEstimator, exact_outcome ρ t.circuit t.operator st₀ st]
    rcases h : getExactExpectationValues (symbolic ρ) ρ t.circuit true t.operator st with ⟨o, st'⟩
    cases o with
    | error e => rfl
    | ok v =>
      dsimp only
      have := ih st'
      rcases h2 : exactEstimator ρ st' ts with ⟨o, st''⟩
      rw [h2] at this
      show _ = (List.mapM _ ts >>= fun bs => pure (some v :: bs))
      rw [← this]
      cases o <;> rfl

theorem exact_stateless (ρ : String → ℂ) : Stateless (exactEstimator ρ) := by
  intro st st' ts
  rw [exactEstimator_mapM ρ st ts st, exactEstimator_mapM ρ st ts st']

theorem exact_values {ρ : String → ℂ} (st : St ℕ) {tasks : List Task} (ht : ∀ t ∈ tasks, Ready ρ t) :
    (exactEstimator ρ st tasks).1 = .ok (tasks.map fun t => some ⟨t.operator.map fun kv => (braket (outputState ρ t.circuit) (kv.2 • pauliString t.circuit.n kv.1)).re, none, none⟩) := by
  rw [exactEstimator_mapM ρ st, mapM_ok_iff, List.forall₂_map_right_iff, List.forall₂_same]
  intro t h
  have hr := ht t h
  have := (exactValues_spec (symbolic ρ) ρ (fun _ _ _ => rfl) t.circuit hr.unitary true hr.canonical hr.below st).1
  rw [this]
  show Except.ok _ = _
  rw [valued, if_pos rfl, bigTerms_eq_self hr.big]

/-- An estimator that gives each task the values of a function of the task. -/
theorem taskwise_contracts {est : Estimator W} (f : Task → Meas.ExpectationValues) (hs : Stateless est) (tasks : List Task) (w : W)
    (hall : (est w tasks).1 = .ok (tasks.map fun t => some (f t))) (hone : ∀ t ∈ tasks, (est w [t]).1 = .ok [some (f t)]) :
    (countCheck est tasks w).1 = .ok true ∧ (orderCheck est tasks w).1 = .ok true := by
  rw [count_iff, order_iff hs]
  refine ⟨⟨_, hall, by simp⟩, ⟨_, hall⟩, fun k hk => ?_⟩
  exact ⟨(f tasks[k]).values, ⟨_, f tasks[k], hall, by rw [List.getElem?_map, List.getElem?_eq_getElem hk]; rfl, rfl⟩, ⟨_, f tasks[k], hone _ (List.getElem_mem hk), rfl, rfl⟩⟩

theorem differ_of {est : Estimator W} (f : Task → Meas.ExpectationValues) (t t' : Task) (w : W) (hall : (est w [t, t']).1 = .ok ([t, t'].map fun t => some (f t)))
    (hne : (f t).values ≠ (f t').values) : (differCheck est [t, t'] w).1 = .ok true :=
  (differ_iff est _ w).2 ⟨_, _, ⟨_, f t, hall, rfl, rfl⟩, ⟨_, f t', hall, rfl, rfl⟩, hne⟩

theorem z_third (ρ : String → ℂ) (c : ℝ) :
    (braket (outputState ρ ⟨[rotOp "RX" rxMatrix (Real.pi / 3) 0], 1⟩) ((c : ℂ) • pauliString 1 [(0, Letter.Z)])).re = c / 2 := by
  have hs : ∑ x : Fin 1 → Bool, Complex.normSq (outputState ρ ⟨[rotOp "RX" rxMatrix (Real.pi / 3) 0], 1⟩ x) = 1 :=
    output_normalised (tasks_ready ρ ⟨[([(0, .Z)], 1)], ⟨[rotOp "RX" rxMatrix (Real.pi / 3) 0], 1⟩, some 10000⟩ (by rw [coefficientTasks_eq]; simp)).unitary
  have e : ∀ x : Fin 1 → Bool, outputState ρ ⟨[rotOp "RX" rxMatrix (Real.pi / 3) 0], 1⟩ x = rxBit ((Real.pi / 3 : ℝ) : ℂ) (x 0) false := one_state ρ _ (rx_third ρ)
  rw [braket_smul, pauliString_allZ (by exact ⟨by simp, by simp⟩) (by simp [AllZ]) (by simp), braket_diagonal, Complex.re_ofReal_mul, Complex.ofReal_re]
  simp only [e] at hs ⊢
  rw [← (Equiv.funUnique (Fin 1) Bool).symm.sum_comp] at hs ⊢
  simp only [Fintype.sum_bool, Equiv.funUnique_symm_apply, uniqueElim_const] at hs ⊢
  rw [cos_sixth] at hs ⊢
  have hs' : Complex.normSq (rxBit ((Real.pi / 3 : ℝ) : ℂ) true false) = 1 / 4 := by linarith
  rw [hs']
  simp [Meas.termSpin, Meas.spin, bits]
  norm_num
  ring

/-- The values of exact estimation. -/
noncomputable def exactOne (ρ : String → ℂ) (t : Task) : Meas.ExpectationValues :=
  ⟨t.operator.map fun kv => (braket (outputState ρ t.circuit) (kv.2 • pauliString t.circuit.n kv.1)).re, none, none⟩

theorem exact_coefficient (ρ : String → ℂ) (st : St ℕ) : (differCheck (exactEstimator ρ) coefficientTasks st).1 = .ok true := by
  have h := exact_values (ρ := ρ) st (tasks := coefficientTasks) fun t ht => tasks_ready ρ t (by simp [ht])
  rw [coefficientTasks_eq] at h ⊢
  refine differ_of (exactOne ρ) _ _ st h ?_
  simp only [exactOne, List.map_cons, List.map_nil]
  have e1 := z_third ρ 1
  have e2 := z_third ρ (19971997 / 1000000)
  push_cast at e1 e2
  rw [e1, e2]
  norm_num

theorem exact_constant (ρ : String → ℂ) (st : St ℕ) : (differCheck (exactEstimator ρ) constantTasks st).1 = .ok true := by
  have h := exact_values (ρ := ρ) st (tasks := constantTasks) fun t ht => tasks_ready ρ t (by simp [ht])
  rw [constantTasks_eq] at h ⊢
  refine differ_of (exactOne ρ) _ _ st h fun h => ?_
  have := congrArg List.length h
  simp [exactOne] at this

theorem exact_shared (ρ : String → ℂ) (st : St ℕ) :
    (countCheck (exactEstimator ρ) sharedTasks st).1 = .ok true ∧ (orderCheck (exactEstimator ρ) sharedTasks st).1 = .ok true := by
  have hsh : ∀ t ∈ sharedTasks, Ready ρ t := fun t ht => tasks_ready ρ t (by simp [ht])
  exact taskwise_contracts (exactOne ρ) (exact_stateless ρ) sharedTasks st (exact_values st hsh) fun t ht => exact_values st fun t' ht' => by rw [List.mem_singleton.1 ht']; exact hsh t ht

/-- C114. Exact estimation meets all the contracts, in every state of the simulator. -/
theorem exact_contracts (ρ : String → ℂ) (st : St ℕ) : ∀ check ∈ allContracts (exactEstimator ρ), (check st).1 = .ok true := by
  intro check hc
  simp only [allContracts, List.mem_cons, List.not_mem_nil, or_false] at hc
  rcases hc with rfl | rfl | rfl | rfl
  · exact (exact_shared ρ st).1
  · exact (exact_shared ρ st).2
  · exact exact_coefficient ρ st
  · exact exact_constant ρ st

/-! ### What the contracts exclude, and what they do not -/

/-- C114. An estimator that does not look at the coefficients of the operators is refused by the coefficient contract. -/
theorem coefficients_needed {est : Estimator W} (f : Circuit → Option ℤ → List (Term Letter) → Meas.ExpectationValues)
    (hf : ∀ w ts, (est w ts).1 = .ok (ts.map fun t => some (f t.circuit t.shots (keys t.operator)))) (w : W) : (differCheck est coefficientTasks w).1 = .ok false := by
  have h := hf w coefficientTasks
  unfold differCheck
  rcases e : est w coefficientTasks with ⟨o, w'⟩
  rw [e] at h
  dsimp only at h
  subst h
  simp [coefficientTasks_eq, valuesAt, keys]

/-- C114. An estimator that does not look at the constant terms of the operators is refused by the constant contract. -/
theorem constant_needed {est : Estimator W} (f : Circuit → Option ℤ → Terms Letter → Meas.ExpectationValues)
    (hf : ∀ w ts, (est w ts).1 = .ok (ts.map fun t => some (f t.circuit t.shots (t.operator.filter fun kv => decide (kv.1 ≠ []))))) (w : W) :
    (differCheck est constantTasks w).1 = .ok false := by
  have h := hf w constantTasks
  unfold differCheck
  rcases e : est w constantTasks with ⟨o, w'⟩
  rw [e] at h
  dsimp only at h
  subst h
  simp [constantTasks_eq, valuesAt]

/-- C114. An estimator that returns one value for each term, but the results of a list of tasks in another order: the order contract accepts it only if the order is that of the tasks. -/
theorem order_needed {est : Estimator W} (hs : Stateless est) (f : Task → Meas.ExpectationValues) (hlen : ∀ t ∈ sharedTasks, (f t).values.length = t.operator.length) (w : W)
    (hone : ∀ t ∈ sharedTasks, (est w [t]).1 = .ok [some (f t)]) (σ : Fin sharedTasks.length → Fin sharedTasks.length)
    (hall : (est w sharedTasks).1 = .ok (List.ofFn fun i => some (f sharedTasks[σ i]))) :
    (orderCheck est sharedTasks w).1 = .ok true ↔ σ = id := by
  have hinj : ∀ i j : Fin sharedTasks.length, (sharedTasks[i]).operator.length = (sharedTasks[j]).operator.length → i = j := by
    intro i j h
    have hnd : (sharedTasks.map fun t => t.operator.length).Nodup := by rw [sharedTasks_eq]; simp
    refine Fin.ext ((hnd.getElem_inj_iff (hi := by simp) (hj := by simp)).1 ?_)
    rw [List.getElem_map, List.getElem_map]
    exact h
  constructor
  · intro h
    obtain ⟨-, h2⟩ := (order_iff hs _ _).1 h
    funext i
    obtain ⟨v, ⟨l, e, a1, a2, a3⟩, ⟨l', e', b1, b2, b3⟩⟩ := h2 i i.isLt
    rw [hall] at a1
    cases a1
    rw [hone _ (List.getElem_mem _)] at b1
    cases b1
    rw [List.getElem?_ofFn, dif_pos i.isLt] at a2
    cases a2
    cases b2
    refine hinj _ _ ?_
    have e1 := hlen sharedTasks[σ i] (List.getElem_mem _)
    have e2 := hlen sharedTasks[(i : ℕ)] (List.getElem_mem _)
    rw [← e1]
    refine Eq.trans ?_ e2
    rw [b3]
    exact congrArg List.length a3
  · rintro rfl
    refine (taskwise_contracts f hs sharedTasks w ?_ hone).2
    rw [hall]
    refine congrArg Except.ok (List.ext_getElem (by simp) fun i h1 h2 => ?_)
    rw [List.getElem_ofFn, List.getElem_map]
    rfl

/-- An estimator that never uses the backend: the value of a term is its coefficient. -/
noncomputable def coefficientEstimator : Estimator W := fun w ts => (.ok (ts.map fun t => some ⟨t.operator.map fun kv => kv.2.re, none, none⟩), w)

/-- C114, counterexample. The contracts do not check the values: an estimator that never runs a circuit, and for which the state of the circuit is irrelevant, meets all of them. -/
theorem contracts_counterexample (w : W) : ∀ check ∈ allContracts (coefficientEstimator (W := W)), (check w).1 = .ok true := by
  obtain ⟨h1, h2⟩ := taskwise_contracts (est := coefficientEstimator (W := W)) (fun t => ⟨t.operator.map fun kv => kv.2.re, none, none⟩) (fun _ _ _ => rfl) sharedTasks w rfl fun t _ => rfl
  intro check hc
  simp only [allContracts, List.mem_cons, List.not_mem_nil, or_false] at hc
  rcases hc with rfl | rfl | rfl | rfl
  · exact h1
  · exact h2
  · have hre : (19971997 / 1000000 : ℂ).re = 19971997 / 1000000 := by
      rw [show (19971997 / 1000000 : ℂ) = ((19971997 / 1000000 : ℝ) : ℂ) by push_cast; rfl]; exact Complex.ofReal_re _
    rw [coefficientTasks_eq]
    refine differ_of (fun t => ⟨t.operator.map fun kv => kv.2.re, none, none⟩) _ _ w rfl ?_
    simp only [List.map_cons, List.map_nil, hre]
    norm_num
  · rw [constantTasks_eq]
    refine differ_of (fun t => ⟨t.operator.map fun kv => kv.2.re, none, none⟩) _ _ w rfl fun h => ?_
    have := congrArg List.length h
    simp at this

theorem order_first {est : Estimator W} {t : Task} {ts : List Task} {w : W} (h : (orderCheck est (t :: ts) w).1 = .ok true) :
    ∃ v, HasValues (est w (t :: ts)).1 0 v ∧ HasValues (est (est w (t :: ts)).2 [t]).1 0 v := by
  unfold orderCheck at h
  rcases e1 : est w (t :: ts) with ⟨o, w'⟩
  rw [e1] at h
  cases o with
  | error e => simp at h
  | ok l =>
    dsimp only at h ⊢
    rw [orderLoop] at h
    cases hv : valuesAt l 0 with
    | error e => rw [hv] at h; simp at h
    | ok v =>
      rw [hv] at h
      dsimp only at h
      rcases e2 : est w' [t] with ⟨o, w''⟩
      rw [e2] at h
      cases o with
      | error e => simp at h
      | ok l' =>
        dsimp only at h
        cases hv' : valuesAt l' 0 with
        | error e => rw [hv'] at h; simp at h
        | ok v' =>
          rw [hv'] at h
          dsimp only at h
          rcases e3 : orderLoop est l (0 + 1) ts w'' with ⟨o, w3⟩
          rw [e3] at h
          cases o with
          | error e => simp at h
          | ok bs =>
            simp at h
            obtain ⟨x, x1, x2⟩ := (valuesAt_iff _ _ _).1 hv
            obtain ⟨y, y1, y2⟩ := (valuesAt_iff _ _ _).1 hv'
            exact ⟨v, ⟨l, x, rfl, x1, x2⟩, ⟨l', y, rfl, y1, y2.trans h.1.symm⟩⟩

theorem simLoop_world (r : Randomness) (seed : Option ℕ) (ρ : String → ℂ) : ∀ (cs : List (Circuit × Option ℤ)) (st : St ℕ), st.world ≤ (simLoop r seed ρ cs st).2.world ∧
    ((∀ cn ∈ cs, cn.2 ≠ none) → cs ≠ [] → st.world < (simLoop r seed ρ cs st).2.world) := by
  intro cs
  induction cs with
  | nil => intro st; exact ⟨le_refl _, fun _ h => absurd rfl h⟩
  | cons cn cs ih =>
    intro st
    obtain ⟨c, n⟩ := cn
    rw [simLoop]
    have hw : st.world ≤ (simRun r seed ρ c n st).2.world ∧ (n ≠ none → st.world < (simRun r seed ρ c n st).2.world) := by
      cases n with
      | none => exact ⟨le_refl _, fun h => absurd rfl h⟩
      | some n => exact ⟨Nat.le_succ _, fun _ => Nat.lt_succ_self _⟩
    rcases h : simRun r seed ρ c n st with ⟨o, st'⟩
    rw [h] at hw
    cases o with
    | error e => exact ⟨hw.1, fun h1 _ => hw.2 (h1 (c, n) (by simp))⟩
    | ok m =>
      dsimp only at hw ⊢
      have := (ih st').1
      rcases h2 : simLoop r seed ρ cs st' with ⟨o, st''⟩
      rw [h2] at this
      have this : st'.world ≤ st''.world := this
      cases o with
      | error e => exact ⟨hw.1.trans this, fun h1 _ => (hw.2 (h1 (c, n) (by simp))).trans_le this⟩
      | ok ms => exact ⟨hw.1.trans this, fun h1 _ => (hw.2 (h1 (c, n) (by simp))).trans_le this⟩

theorem exists_values {α β : Type} {R : α → β → Prop} : ∀ (l : List α), (∀ a ∈ l, ∃ b, R a b) → ∃ bs, List.Forall₂ R l bs := by
  intro l
  induction l with
  | nil => exact fun _ => ⟨[], .nil⟩
  | cons a l ih =>
    intro h
    obtain ⟨bs, hb⟩ := ih fun a ha => h a (List.mem_cons_of_mem _ ha)
    obtain ⟨b, h1⟩ := h a (by simp)
    exact ⟨b :: bs, .cons h1 hb⟩

/-- The value of the first task of the shared tasks on a simulator without a seed. -/
theorem unseeded_first {r : Randomness} (hr : ∀ k j, 0 ≤ r.fresh k j ∧ r.fresh k j < 1) (ρ : String → ℂ) (st : St ℕ) (rest : List Task)
    (hrest : ∀ t ∈ rest, Ready ρ t ∧ ¬ ConstantOnly t.operator) :
    HasValues (averaging r none ρ st (⟨[([(0, .Z)], 1)], ⟨[hOp 0], 1⟩, some 10000⟩ :: rest)).1 0
      [((10000 : ℝ) - 2 * ((Finset.univ.filter fun j : Fin 10000 => 1 / 2 ≤ r.fresh st.world j).card : ℝ)) / 10000] := by
  set t : Task := ⟨[([(0, .Z)], 1)], ⟨[hOp 0], 1⟩, some 10000⟩ with ht
  have htr : Ready ρ t := tasks_ready ρ t (by rw [sharedTasks_eq]; simp [ht])
  have hall : ∀ x ∈ t :: rest, Ready ρ x ∧ ¬ ConstantOnly x.operator := by
    intro x hx
    rcases List.mem_cons.1 hx with rfl | hx
    · exact ⟨htr, zOnly _⟩
    · exact hrest x hx
  have hmeas : measuredTasks (t :: rest) = t :: rest := by
    refine List.filter_eq_self.2 fun x hx => ?_
    obtain ⟨h1, h2⟩ := hall x hx
    obtain ⟨n, hn, hs⟩ := h1.shots
    have : ¬ notMeasured x = true := by
      rw [notMeasured_iff, not_or, hs]
      refine ⟨h2, fun h => ?_⟩
      have := Option.some.inj h
      omega
    simpa using this
  have hruns : ∀ x ∈ t :: rest, Expect.Unitary ρ x.circuit ∧ 0 < x.circuit.n ∧ ∃ s : ℕ, 0 < s ∧ x.shots = some (s : ℤ) := fun x hx =>
    ⟨(hall x hx).1.unitary, (hall x hx).1.qubits, (hall x hx).1.shots⟩
  have hloop := simLoop_stream (r := r) (seed := none) hr (t :: rest) hruns st
  set ms : List (List (List ℕ)) := List.ofFn fun k : Fin (t :: rest).length => List.ofFn fun j : Fin (shotsOf (t :: rest)[k]) =>
    bits (outcome ρ (t :: rest)[k].circuit (defaultRng r none (st.world + k) j)) with hms
  have hval : ∀ tm ∈ (t :: rest).zip ms, ∃ v, measuredValue tm.1.operator tm.2 = .ok v := by
    intro tm htm
    obtain ⟨i, hi, rfl⟩ := List.mem_iff_getElem.1 htm
    have hi' : i < (t :: rest).length := lt_of_lt_of_le hi (by rw [List.length_zip]; exact min_le_left _ _)
    rw [List.getElem_zip]
    dsimp only
    obtain ⟨h1, -⟩ := hall _ (List.getElem_mem hi')
    obtain ⟨n, hn, hs⟩ := h1.shots
    have hsh : shotsOf (t :: rest)[i] = n := by rw [shotsOf, hs]; exact Int.toNat_natCast n
    obtain ⟨v, hv, -⟩ := measuredValue_spec h1.canonical h1.ising h1.big _ h1.qubits h1.below (ms[i]'(by simpa [hms] using hi')) (by
      intro h0
      have := congrArg List.length h0
      simp only [hms, List.getElem_ofFn, List.length_ofFn, List.length_nil] at this
      have this : shotsOf (t :: rest)[i] = 0 := this
      omega) (by
      intro b hb
      simp only [hms, List.getElem_ofFn] at hb
      obtain ⟨j, rfl⟩ := (List.mem_ofFn' _ _).1 hb
      exact bits_digits _)
    exact ⟨v, hv⟩
  obtain ⟨vals, hvals⟩ := exists_values _ hval
  obtain ⟨out, e1, -, e3⟩ := estimateByAveraging_spec (simRunner r none ρ st) (t :: rest) ms vals (fun _ => by rw [hmeas]; exact hloop)
    (by rw [hmeas, hms, List.length_ofFn]) (by rw [hmeas]; exact hvals)
  obtain ⟨m, v, m1, m2, m3⟩ := (e3 0 (by simp)).2.2 (zOnly _) (by simp [ht])
  have hm : m = List.ofFn fun j : Fin 10000 => bits (outcome ρ ⟨[hOp 0], 1⟩ (r.fresh st.world j)) := by
    rw [hms] at m1
    simp only [List.take_zero, List.filter_nil, List.length_nil, List.getElem?_ofFn] at m1
    rw [dif_pos (by simp)] at m1
    exact (Option.some.inj m1).symm
  have hx := htr.unitary
  obtain ⟨v', w1, w2⟩ := measuredValue_spec htr.canonical htr.ising htr.big 1 (by norm_num) htr.below m (by
      rw [hm]
      intro h0
      have := congrArg List.length h0
      rw [List.length_ofFn, List.length_nil] at this
      omega) (by
      rw [hm]
      intro b hb
      obtain ⟨j, rfl⟩ := (List.mem_ofFn' _ _).1 hb
      exact bits_digits _)
  have hv : v = v' := Except.ok.inj (m2.symm.trans w1)
  refine ⟨out, v, e1, m3, ?_⟩
  rw [hv, w2]
  have := mean_one (N := 10000) fun j => outcome ρ ⟨[hOp 0], 1⟩ (r.fresh st.world j)
  have hf : ∀ j : Fin 10000, (outcome ρ ⟨[hOp 0], 1⟩ (r.fresh st.world j) 0 = true) ↔ 1 / 2 ≤ r.fresh st.world j := by
    intro j
    rw [← h_half]
    exact one_outcome (h_gate ρ) hx (hr _ j)
  rw [Finset.filter_congr fun j _ => hf j, Nat.cast_ofNat, ← hm] at this
  rw [← this]
  simp [ht]

/-- C114, counterexample. Averaging on a simulator without a seed, which does not repeat its measurements, is refused by the order contract for some random numbers. -/
theorem unseeded_counterexample : ∃ r : Randomness, (∀ k j, 0 ≤ r.fresh k j ∧ r.fresh k j < 1) ∧ ∀ ρ : String → ℂ, (orderCheck (averaging r none ρ) sharedTasks ⟨0, 0, 0⟩).1 ≠ .ok true := by
  refine ⟨⟨fun k _ => if k = 0 then 0 else 9 / 10, fun _ _ => 0⟩, fun k j => by dsimp only; split <;> norm_num, fun ρ h => ?_⟩
  set r : Randomness := ⟨fun k _ => if k = 0 then 0 else 9 / 10, fun _ _ => 0⟩ with hr
  have hr01 : ∀ k j, 0 ≤ r.fresh k j ∧ r.fresh k j < 1 := fun k j => by rw [hr]; dsimp only; split <;> norm_num
  have hready : ∀ t ∈ sharedTasks.tail, Ready ρ t ∧ ¬ ConstantOnly t.operator := by
    intro t ht
    refine ⟨tasks_ready ρ t (by simp [List.mem_of_mem_tail ht]), ?_⟩
    rw [sharedTasks_eq] at ht
    simp only [List.tail_cons, List.mem_cons, List.not_mem_nil, or_false] at ht
    rcases ht with rfl | rfl <;> rintro ⟨d, h⟩ <;> simp at h
  have hcons : sharedTasks = ⟨[([(0, .Z)], 1)], ⟨[hOp 0], 1⟩, some 10000⟩ :: sharedTasks.tail := by rw [sharedTasks_eq]; rfl
  rw [hcons] at h
  obtain ⟨v, h1, h2⟩ := order_first h
  have a := hasValues_unique h1 (unseeded_first hr01 ρ ⟨0, 0, 0⟩ _ hready)
  have b := hasValues_unique h2 (unseeded_first hr01 ρ _ [] (by simp))
  have hw : 0 < (averaging r none ρ ⟨0, 0, 0⟩ (⟨[([(0, .Z)], 1)], ⟨[hOp 0], 1⟩, some 10000⟩ :: sharedTasks.tail)).2.world := by
    have hne : (split (⟨[([(0, .Z)], 1)], ⟨[hOp 0], 1⟩, some 10000⟩ :: sharedTasks.tail)).1 ≠ [] := by
      rw [show (split _).1 = measuredTasks _ from (split_fst 0 _).1, measuredTasks, List.filter_cons_of_pos (by simp [notMeasured, keys])]
      simp
    have hsome : ∀ t ∈ (split (⟨[([(0, .Z)], 1)], ⟨[hOp 0], 1⟩, some 10000⟩ :: sharedTasks.tail)).1, t.shots ≠ none := by
      intro t ht
      rw [show (split _).1 = measuredTasks _ from (split_fst 0 _).1] at ht
      have := (List.mem_filter.1 ht).1
      rw [← hcons] at this
      obtain ⟨n, -, hs⟩ := (tasks_ready ρ t (by simp [this])).shots
      rw [hs]; simp
    show 0 < (if List.isEmpty _ then _ else _ : St ℕ).world
    rw [if_neg (by simpa using hne)]
    exact (simLoop_world r none ρ _ ⟨0, 0, 0⟩).2 (by simpa using hsome) (by simpa using hne)
  rw [a] at b
  have h0 : (Finset.univ.filter fun j : Fin 10000 => 1 / 2 ≤ r.fresh (⟨0, 0, 0⟩ : St ℕ).world j).card = 0 := by
    rw [Finset.card_eq_zero, Finset.filter_eq_empty_iff]
    intro j _
    show ¬ (1 / 2 : ℝ) ≤ 0
    norm_num
  have h9 : (Finset.univ.filter fun j : Fin 10000 => 1 / 2 ≤ r.fresh (averaging r none ρ ⟨0, 0, 0⟩ (⟨[([(0, .Z)], 1)], ⟨[hOp 0], 1⟩, some 10000⟩ :: sharedTasks.tail)).2.world j).card = 10000 := by
    rw [Finset.filter_true_of_mem, Finset.card_univ, Fintype.card_fin]
    intro j _
    show (1 / 2 : ℝ) ≤ if _ = 0 then 0 else 9 / 10
    rw [if_neg hw.ne']
    norm_num
  rw [h0, h9] at b
  norm_num at b

/-- `Circuit(ops)` gives the registers of the tasks: one more than the largest qubit. -/
theorem task_circuits : ∀ t ∈ sharedTasks ++ coefficientTasks ++ constantTasks, Circuit.make t.circuit.ops none = .ok t.circuit := by
  intro t ht
  simp only [sharedTasks, coefficientTasks, constantTasks, List.cons_append, List.nil_append, List.mem_cons, List.not_mem_nil, or_false] at ht
  rcases ht with rfl | rfl | rfl | rfl | rfl | rfl | rfl <;> rfl

/-- Non-vacuity: the streams of numbers with and without exactly 5000 ones. -/
example : (Finset.univ.filter fun j : Fin 10000 => (3 / 4 : ℝ) ≤ (fun _ => 0 : ℕ → ℝ) j).card ≠ 5000 := by
  rw [Finset.filter_false_of_mem (by norm_num)]
  simp

/-- Non-vacuity: exact estimation and the estimator by coefficients meet the hypotheses of `taskwise_contracts` and `order_needed`. -/
example (ρ : String → ℂ) : Stateless (exactEstimator ρ) ∧ (∀ t ∈ sharedTasks, (exactOne ρ t).values.length = t.operator.length) ∧ (∀ t ∈ sharedTasks, (exactEstimator ρ ⟨0, 0, 0⟩ [t]).1 = .ok [some (exactOne ρ t)]) :=
  ⟨exact_stateless ρ, fun t _ => by simp [exactOne], fun t ht => exact_values _ fun t' ht' => by rw [List.mem_singleton.1 ht']; exact tasks_ready ρ t (by simp [ht])⟩

end ZQ.Contract
