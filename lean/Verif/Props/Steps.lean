import Verif.Spec.Steps
import Verif.Props.CreateObject

/-!
# C109: what workflow steps make of their specifications, and what a call leaves behind for the next
-/

namespace ZQ.Steps

open ZQ.CreateObject ZQ.Steps.Spec

variable {V : Type}

/-! ## A world for the examples -/

namespace Example

/-- symbolic_simulator.py:20-27: the parameters of the simulator. -/
def simulator : List (Param String) :=
  [⟨"noise_model", .posOrKw, some "None"⟩, ⟨"device_connectivity", .posOrKw, some "None"⟩, ⟨"seed", .posOrKw, some "None"⟩]

/-- A class `Simulator` whose instances show their noise model, a class `Any` that takes every parameter and shows its Hamiltonian and
preprocessors, a function `pre(tasks)`. -/
def world : World String where
  importModule m := if m = "m" then .ok "module" else .error .importError
  getattr _ n := .ok n
  signature v := if v = "pre" then some [⟨"tasks", .posOrKw, none⟩] else none
  run _ b := .ok ((PyDict.get? b.named "tasks").getD "")
  invoke c args kw :=
    if c = "Simulator" then do
      let b ← bind simulator args kw
      .ok ("Simulator " ++ (PyDict.get? b.named "noise_model").getD "")
    else .ok (c ++ " " ++ (PyDict.get? kw "cost_hamiltonian").getD "-" ++ " " ++ (PyDict.get? kw "estimation_preprocessors").getD "-")

def py : Py String where
  truthy v := v = "True"
  contains s v := v = "QAOAFarhiAnsatz" ∧ s = "QAOA"
  equals s v := v = s
  ofObj _ := "object"
  ofList _ := "list"

def simulatorSpecs (rest : PyDict String String) : PyDict String String := ("module_name", "m") :: ("function_name", "Simulator") :: rest

theorem simulator_class (rest : PyDict String String) : Class world (simulatorSpecs rest) "Simulator" :=
  ⟨⟨"m", "Simulator", "module", rfl, rfl, rfl, rfl⟩, rfl⟩

theorem simulator_constructor : Constructor world "Simulator" simulator :=
  ⟨⟨by decide, by decide⟩, fun b => .ok ("Simulator " ++ (PyDict.get? b.named "noise_model").getD ""), fun _ => rfl⟩

end Example

/-! ## Lemmas -/

theorem found_set {W : World V} {specs : PyDict String V} {c : V} (h : ZQ.CreateObject.Spec.Found W specs c) {k : String} (v : V)
    (hm : k ≠ "module_name") (hn : k ≠ "function_name") : ZQ.CreateObject.Spec.Found W (PyDict.set specs k v) c := by
  obtain ⟨m, n, module, h1, h2, h3, h4⟩ := h
  refine ⟨m, n, module, ?_, h2, ?_, h4⟩
  · rw [PyDict.get?_set]; simp [hm, h1]
  · rw [PyDict.get?_set]; simp [hn, h3]

theorem class_set {W : World V} {specs : PyDict String V} {c : V} (h : Class W specs c) {k : String} (v : V)
    (hm : k ≠ "module_name") (hn : k ≠ "function_name") : Class W (PyDict.set specs k v) c := ⟨found_set h.1 v hm hn, h.2⟩

theorem class_setOpt {W : World V} {specs : PyDict String V} {c : V} (h : Class W specs c) {k : String} (v : Option V)
    (hm : k ≠ "module_name") (hn : k ≠ "function_name") : Class W (setOpt specs k v) c := by
  cases v with
  | none => exact h
  | some v => exact class_set h v hm hn

theorem nodup_setOpt {specs : PyDict String V} (h : (PyDict.keys specs).Nodup) (k : String) (v : Option V) :
    (PyDict.keys (setOpt specs k v)).Nodup := by
  cases v with
  | none => exact h
  | some v => exact PyDict.nodup_set h k v

theorem get?_setOpt (specs : PyDict String V) (k : String) (v : Option V) (j : String) :
    PyDict.get? (setOpt specs k v) j = if j = k then v.or (PyDict.get? specs j) else PyDict.get? specs j := by
  cases v with
  | none => simp [setOpt]
  | some v =>
    simp only [setOpt, PyDict.get?_set]
    by_cases h : j = k
    · simp [h]
    · simp [h, Ne.symm h]

theorem given_nil (specs : PyDict String V) : ZQ.CreateObject.Spec.given specs [] = parameters specs := by
  funext k
  unfold ZQ.CreateObject.Spec.given parameters
  by_cases h : k = "module_name" ∨ k = "function_name"
  · rw [if_pos h, if_pos h]; rfl
  · rw [if_neg h, if_neg h]; simp [PyDict.get?]

theorem not_twice_nil (specs : PyDict String V) : ¬ ZQ.CreateObject.Spec.Twice specs ([] : PyDict String V) := by
  rintro ⟨k, -, -, -, h⟩; cases h

/-- `create_object` of a class. -/
theorem create_called {W : World V} {specs : PyDict String V} {c : V} (hs : (PyDict.keys specs).Nodup) (hc : Class W specs c) :
    ∃ made, CalledWith W c (parameters specs) made ∧ createObject W specs [] = made.map .val := by
  obtain ⟨d, h1, h2, h3⟩ := create_class W specs [] hs (by simp [PyDict.keys]) c hc.1 hc.2 (not_twice_nil specs)
  exact ⟨_, ⟨d, h1, by rw [given_nil] at h2; exact h2, rfl⟩, h3⟩

theorem makeBackend_isBackend {W : World V} (py : Py V) {specs : PyDict String V} {made : Except CreateObject.Err V}
    (h : createObject W specs [] = made.map .val) : IsBackend py specs made (makeBackend W py specs) := by
  unfold makeBackend
  rw [h]
  constructor
  · rintro e rfl; rfl
  · rintro v rfl ht
    cases h1 : PyDict.get? specs "track_measurements" with
    | none => rfl
    | some t =>
      show (if py.truthy t then _ else _) = _
      rw [if_neg (fun h2 => ht ⟨t, h1, h2⟩)]
  · rintro v file rfl ⟨t, h1, h2⟩ h3
    rw [h1, h3]
    show (if py.truthy t then _ else _) = _
    rw [if_pos h2]
  · rintro v rfl ⟨t, h1, h2⟩ h3
    rw [h1, h3]
    show (if py.truthy t then _ else _) = _
    rw [if_pos h2]

theorem tracked_congr {py : Py V} {specs specs' : PyDict String V}
    (h : PyDict.get? specs' "track_measurements" = PyDict.get? specs "track_measurements") : Tracked py specs' ↔ Tracked py specs := by
  unfold Tracked; rw [h]

theorem isBackend_congr {py : Py V} {specs specs' : PyDict String V} {made : Except CreateObject.Err V} {b : Except CreateObject.Err (Backend V)}
    (h1 : PyDict.get? specs' "track_measurements" = PyDict.get? specs "track_measurements")
    (h2 : PyDict.get? specs' "raw_data_file_name" = PyDict.get? specs "raw_data_file_name")
    (h3 : PyDict.get? specs' "record_bitstrings" = PyDict.get? specs "record_bitstrings")
    (h : IsBackend py specs' made b) : IsBackend py specs made b := by
  have ht := tracked_congr (py := py) h1
  refine ⟨h.failed, fun v hv hn => h.untracked v hv (fun hh => hn (ht.1 hh)), ?_, ?_⟩
  · intro v file hv hh hf
    rw [h.tracked v file hv (ht.2 hh) (by rw [h2, hf]), h3]
  · intro v hv hh hf
    exact h.nameless v hv (ht.2 hh) (by rw [h2, hf])

/-! ## Backends -/

/-- A measuring step calls the class of its backend with the parameters of the specifications, the noise model and the connectivity it was given
taking precedence; the backend is wrapped iff `track_measurements` is set, with the file name and the flag of the specifications, and it is a
`KeyError` if there is no file name. -/
theorem measure_backend (W : World V) (py : Py V) (specs : PyDict String V) (hs : (PyDict.keys specs).Nodup) (c : V) (hc : Class W specs c)
    (noise connectivity : Option V) :
    ∃ made, CalledWith W c (override (override (parameters specs) "noise_model" noise) "device_connectivity" connectivity) made ∧
      IsBackend py specs made (measureBackend W py specs noise connectivity).2 := by
  have hs' := nodup_setOpt (nodup_setOpt hs "noise_model" noise) "device_connectivity" connectivity
  have hc' := class_setOpt (class_setOpt hc noise (k := "noise_model") (by decide) (by decide)) connectivity (k := "device_connectivity")
    (by decide) (by decide)
  obtain ⟨made, h1, h2⟩ := create_called hs' hc'
  refine ⟨made, ?_, ?_⟩
  · convert h1 using 1
    funext k
    unfold override parameters
    rw [get?_setOpt, get?_setOpt]
    by_cases ha : k = "module_name" ∨ k = "function_name"
    · rw [if_pos ha, if_pos ha]
      rcases ha with rfl | rfl <;> simp
    · rw [if_neg ha, if_neg ha]
  · refine isBackend_congr ?_ ?_ ?_ (makeBackend_isBackend py h2) <;>
      (rw [get?_setOpt, get?_setOpt, if_neg (by decide), if_neg (by decide)])

example : (measureBackend Example.world Example.py (Example.simulatorSpecs []) (some "depolarizing") none).2 =
    .ok (.plain (.val "Simulator depolarizing")) := rfl

example : (Example.simulatorSpecs []).keys.Nodup ∧ Class Example.world (Example.simulatorSpecs []) "Simulator" :=
  ⟨by decide, Example.simulator_class []⟩

/-- No class whose constructor does not name the parameter `track_measurements` can be tracked: as the key stays among the specifications, the
constructor is called with it and raises `TypeError`. -/
theorem tracking_rejected (W : World V) (py : Py V) (specs : PyDict String V) (hs : (PyDict.keys specs).Nodup) (c : V)
    (ps : List (Param V)) (hc : Class W specs c) (hps : Constructor W c ps) (hp : "track_measurements" ∉ ps.map Param.name)
    (hk : "track_measurements" ∈ PyDict.keys specs) (noise connectivity : Option V) :
    (measureBackend W py specs noise connectivity).2 = .error .typeError := by
  obtain ⟨made, ⟨d, hd, hg, hm⟩, hb⟩ := measure_backend W py specs hs c hc noise connectivity
  obtain ⟨hord, init, hinit⟩ := hps
  refine hb.failed _ ?_
  rw [hm, hinit]
  have hbad : ¬ ZQ.CreateObject.Spec.Accepts ps (fun _ => none) [] d := by
    intro ha
    refine hp (ha.known _ ((PyDict.mem_keys_iff _ _).2 ?_))
    obtain ⟨v, hv⟩ := (PyDict.mem_keys_iff _ _).1 hk
    exact ⟨v, by rw [hg]; simp [override, parameters, hv]⟩
  rw [(bind_ordinary hord (fun _ => none) [] d d (by simp) (by simp)).2 hbad]
  rfl

/-- The simulator of the library cannot be tracked in the way the documentation of the steps describes. -/
theorem tracking_counterexample :
    (measureBackend Example.world Example.py
      (Example.simulatorSpecs [("track_measurements", "True"), ("raw_data_file_name", "raw_data.json")]) none none).2 = .error .typeError :=
  tracking_rejected _ _ _ (by decide) "Simulator" Example.simulator (Example.simulator_class _) Example.simulator_constructor (by decide)
    (by decide) none none

theorem lastGiven_append (l : List (Option V)) (v : Option V) : lastGiven (l ++ [v]) = v.or (lastGiven l) := by
  unfold lastGiven; rw [List.foldl_append]; rfl

theorem lastGiven_cons (a : Option V) (l : List (Option V)) : lastGiven (a :: l) = (lastGiven l).or a := by
  induction l using List.reverseRecOn with
  | nil => cases a <;> rfl
  | append_singleton l b ih =>
    rw [← List.cons_append, lastGiven_append, ih, lastGiven_append]
    cases b <;> simp

/-- Steps called with the same dictionary: the backend of a call has the noise model given last, in this call or in an earlier one. -/
theorem measure_history (W : World V) (py : Py V) (calls : List (Option V × Option V)) (specs : PyDict String V)
    (hs : (PyDict.keys specs).Nodup) (c : V) (hc : Class W specs c) (i : ℕ) (hi : i < calls.length) :
    ∃ made b, CalledWith W c (override (override (parameters specs) "noise_model" (lastGiven ((calls.take (i + 1)).map Prod.fst)))
        "device_connectivity" (lastGiven ((calls.take (i + 1)).map Prod.snd))) made ∧
      (measureRuns W py specs calls)[i]? = some b ∧ IsBackend py specs made b := by
  induction calls generalizing specs i with
  | nil => simp at hi
  | cons call calls ih =>
    obtain ⟨noise, conn⟩ := call
    cases i with
    | zero =>
      obtain ⟨made, h1, h2⟩ := measure_backend W py specs hs c hc noise conn
      refine ⟨made, _, ?_, rfl, h2⟩
      simpa [lastGiven] using h1
    | succ i =>
      have hs' := nodup_setOpt (nodup_setOpt hs "noise_model" noise) "device_connectivity" conn
      have hc' := class_setOpt (class_setOpt hc noise (k := "noise_model") (by decide) (by decide)) conn (k := "device_connectivity")
        (by decide) (by decide)
      obtain ⟨made, b, h1, h2, h3⟩ := ih _ hs' hc' i (by simpa using hi)
      refine ⟨made, b, ?_, h2, ?_⟩
      · convert h1 using 1
        funext k
        rw [List.take_succ_cons, List.map_cons, List.map_cons, lastGiven_cons, lastGiven_cons]
        unfold override parameters
        rw [get?_setOpt, get?_setOpt]
        by_cases ha : k = "module_name" ∨ k = "function_name"
        · rcases ha with rfl | rfl <;> simp
        · simp only [ha, if_false]
          by_cases h4 : k = "device_connectivity"
          · subst h4; simp [Option.or_assoc]
          · by_cases h5 : k = "noise_model"
            · subst h5; simp [Option.or_assoc]
            · simp [h4, h5]
      · refine isBackend_congr ?_ ?_ ?_ h3 <;>
          (rw [get?_setOpt, get?_setOpt, if_neg (by decide), if_neg (by decide)])

example : lastGiven [some "a", none, some "b", none] = some "b" := rfl

/-- A noise model survives the call it was given to: the second call is given none and measures with that of the first. -/
theorem measure_noise_counterexample :
    measureRuns Example.world Example.py (Example.simulatorSpecs []) [(some "depolarizing", none), (none, none)] =
      [.ok (.plain (.val "Simulator depolarizing")), .ok (.plain (.val "Simulator depolarizing"))] ∧
    measureRuns Example.world Example.py (Example.simulatorSpecs []) [(none, none)] = [.ok (.plain (.val "Simulator None"))] :=
  ⟨rfl, rfl⟩

/-! ## Ansatzes -/

/-- Optimization step: a QAOA ansatz is created with the target operator of this call as its `cost_hamiltonian`, also if the specifications
already hold one (from an earlier call), and a warm start ansatz with `thetas` too. -/
theorem optimize_ansatz (W : World V) (py : Py V) (specs : PyDict String V) (hs : (PyDict.keys specs).Nodup) (c name target : V)
    (hc : Class W specs c) (hn : PyDict.get? specs "function_name" = some name) (thetas : Option V) :
    (py.contains "WarmStartQAOAAnsatz" name = false → py.contains "QAOA" name = true →
      ∃ made, CalledWith W c (override (parameters specs) "cost_hamiltonian" (some target)) made ∧
        (optimizeAnsatz W py specs target thetas).2 = made.map .val) ∧
    (py.contains "WarmStartQAOAAnsatz" name = true → ∀ t, thetas = some t →
      ∃ made, CalledWith W c (override (override (parameters specs) "thetas" (some t)) "cost_hamiltonian" (some target)) made ∧
        (optimizeAnsatz W py specs target thetas).2 = made.map .val) ∧
    (py.contains "WarmStartQAOAAnsatz" name = true → thetas = none → (optimizeAnsatz W py specs target thetas).2 = .error .keyError) ∧
    (py.contains "WarmStartQAOAAnsatz" name = false → py.contains "QAOA" name = false →
      ∃ made, CalledWith W c (parameters specs) made ∧ optimizeAnsatz W py specs target thetas = (specs, made.map .val)) := by
  have key : ∀ (d : PyDict String V) (k : String) (v : V), k ≠ "module_name" → k ≠ "function_name" →
      parameters (PyDict.set d k v) = override (parameters d) k (some v) := by
    intro d k v h1 h2
    funext j
    unfold parameters override
    rw [PyDict.get?_set]
    by_cases ha : j = "module_name" ∨ j = "function_name"
    · rcases ha with rfl | rfl
      · simp [Ne.symm h1]
      · simp [Ne.symm h2]
    · simp only [ha, if_false]
      by_cases hj : j = k
      · simp [hj]
      · simp [hj, Ne.symm hj]
  refine ⟨?_, ?_, ?_, ?_⟩
  · intro h1 h2
    obtain ⟨made, h3, h4⟩ := create_called (PyDict.nodup_set hs "cost_hamiltonian" target)
      (class_set hc target (k := "cost_hamiltonian") (by decide) (by decide))
    rw [key _ _ _ (by decide) (by decide)] at h3
    refine ⟨made, h3, ?_⟩
    unfold optimizeAnsatz
    rw [hn]
    simp [h1, h2, h4]
  · rintro h1 t rfl
    obtain ⟨made, h3, h4⟩ := create_called (PyDict.nodup_set (PyDict.nodup_set hs "thetas" t) "cost_hamiltonian" target)
      (class_set (class_set hc t (k := "thetas") (by decide) (by decide)) target (k := "cost_hamiltonian") (by decide) (by decide))
    rw [key _ _ _ (by decide) (by decide), key _ _ _ (by decide) (by decide)] at h3
    refine ⟨made, h3, ?_⟩
    unfold optimizeAnsatz
    rw [hn]
    simp [h1, h4]
  · rintro h1 rfl
    unfold optimizeAnsatz
    rw [hn]
    simp [h1]
  · intro h1 h2
    obtain ⟨made, h3, h4⟩ := create_called hs hc
    refine ⟨made, h3, ?_⟩
    unfold optimizeAnsatz
    rw [hn]
    simp [h1, h2, h4]

/-- Evaluation step: the ansatz named `QAOAFarhiAnsatz` is created with the operator as its `cost_hamiltonian` if the specifications do not hold
one, and it is a `ValueError` if they do; any other ansatz is created from the specifications alone. -/
theorem evaluate_ansatz (W : World V) (py : Py V) (specs : PyDict String V) (hs : (PyDict.keys specs).Nodup) (c name target : V)
    (hc : Class W specs c) (hn : PyDict.get? specs "function_name" = some name) :
    (py.equals "QAOAFarhiAnsatz" name = true → "cost_hamiltonian" ∉ PyDict.keys specs →
      ∃ made, CalledWith W c (override (parameters specs) "cost_hamiltonian" (some target)) made ∧
        evaluateAnsatz W py specs target = made.map .val) ∧
    (py.equals "QAOAFarhiAnsatz" name = true → "cost_hamiltonian" ∈ PyDict.keys specs →
      evaluateAnsatz W py specs target = .error .valueError) ∧
    (py.equals "QAOAFarhiAnsatz" name = false →
      ∃ made, CalledWith W c (parameters specs) made ∧ evaluateAnsatz W py specs target = made.map .val) := by
  refine ⟨?_, ?_, ?_⟩
  · intro h1 h2
    have ht : ¬ ZQ.CreateObject.Spec.Twice specs [("cost_hamiltonian", target)] := by
      rintro ⟨k, -, -, h3, h4⟩
      simp [PyDict.keys] at h4
      subst h4
      exact h2 h3
    obtain ⟨d, h3, h4, h5⟩ := create_class W specs [("cost_hamiltonian", target)] hs (by simp [PyDict.keys]) c hc.1 hc.2 ht
    refine ⟨_, ⟨d, h3, ?_, rfl⟩, ?_⟩
    · intro k
      rw [h4]
      unfold ZQ.CreateObject.Spec.given override parameters
      have h6 : PyDict.get? specs "cost_hamiltonian" = none := (PyDict.get?_eq_none_iff _ _).2 h2
      by_cases ha : k = "module_name" ∨ k = "function_name"
      · rcases ha with rfl | rfl <;> simp [PyDict.get?]
      · simp only [ha, if_false]
        by_cases hk : k = "cost_hamiltonian"
        · subst hk; simp [h6, PyDict.get?]
        · simp [hk, Ne.symm hk, PyDict.get?]
    · unfold evaluateAnsatz
      rw [hn]
      simp [h1, h5]
  · intro h1 h2
    unfold evaluateAnsatz
    rw [hn]
    simp only [h1, if_true]
    exact (create_errors W specs _ hs).2.2.2.2 c hc.1 ⟨"cost_hamiltonian", by decide, by decide, h2, by simp [PyDict.keys]⟩
  · intro h1
    obtain ⟨made, h3, h4⟩ := create_called hs hc
    refine ⟨made, h3, ?_⟩
    unfold evaluateAnsatz
    rw [hn]
    simp [h1, h4]

/-- Specifications of a QAOA ansatz that have been through the optimization step cannot be evaluated: the step left the Hamiltonian in them, so
the evaluation step raises `ValueError`, whatever the operators. -/
theorem optimize_then_evaluate_counterexample (W : World V) (py : Py V) (specs : PyDict String V) (hs : (PyDict.keys specs).Nodup)
    (c name target target' : V) (hc : Class W specs c) (hn : PyDict.get? specs "function_name" = some name)
    (h0 : py.contains "WarmStartQAOAAnsatz" name = false) (h1 : py.contains "QAOA" name = true)
    (h2 : py.equals "QAOAFarhiAnsatz" name = true) (thetas : Option V) :
    evaluateAnsatz W py (optimizeAnsatz W py specs target thetas).1 target' = .error .valueError := by
  have e : (optimizeAnsatz W py specs target thetas).1 = PyDict.set specs "cost_hamiltonian" target := by
    unfold optimizeAnsatz
    rw [hn]
    simp [h0, h1]
  rw [e]
  refine (evaluate_ansatz W py _ (PyDict.nodup_set hs _ _) c name target' (class_set hc target (by decide) (by decide)) ?_).2.1 h2 ?_
  · rw [PyDict.get?_set]; simpa using hn
  · exact (PyDict.mem_keys_iff _ _).2 ⟨target, by rw [PyDict.get?_set]; simp⟩

example : optimizeAnsatz Example.world Example.py [("module_name", "m"), ("function_name", "QAOAFarhiAnsatz")] "H" none =
      ([("module_name", "m"), ("function_name", "QAOAFarhiAnsatz"), ("cost_hamiltonian", "H")], .ok (.val "QAOAFarhiAnsatz H -")) ∧
    evaluateAnsatz Example.world Example.py [("module_name", "m"), ("function_name", "QAOAFarhiAnsatz")] "H" =
      .ok (.val "QAOAFarhiAnsatz H -") ∧
    evaluateAnsatz Example.world Example.py [("module_name", "m"), ("function_name", "QAOAFarhiAnsatz"), ("cost_hamiltonian", "H")] "H" =
      .error .valueError := ⟨rfl, rfl, rfl⟩

/-! ## Cost functions and preprocessors -/

/-- The parameters the evaluation step passes on to the class of the cost function in one call. -/
def costParameters (passed : String → Option V) (call : CostCall V) (pre : Option V) : String → Option V :=
  override (override (override (override (override passed "estimation_method" (some call.method)) "estimation_preprocessors" pre)
    "target_operator" (some call.target)) "ansatz" (some call.ansatz)) "backend" (some call.backend)

/-- What the step does to the specifications of the cost function. -/
theorem evaluateCost_eq (W : World V) (specs : PyDict String V) (call : CostCall V)
    (h1 : "estimator-specs" ∉ PyDict.keys specs) (h2 : "estimation-tasks-transformations-specs" ∉ PyDict.keys specs) :
    evaluateCost W specs call.method call.target call.ansatz call.backend call.pre =
      let d := setOpt (setOpt (setOpt (setOpt (setOpt specs "estimation_method" (some call.method)) "estimation_preprocessors" call.pre)
        "target_operator" (some call.target)) "ansatz" (some call.ansatz)) "backend" (some call.backend)
      (d, createObject W d []) := by
  unfold evaluateCost
  rw [if_neg (by rintro (h | h); exacts [h1 h, h2 h])]
  rfl

/-- Evaluation steps called with the same dictionary: the cost function of each call gets the estimation method, operator, ansatz and backend of
this call, but the preprocessors given last, in this call or in an earlier one. -/
theorem cost_history (W : World V) (calls : List (CostCall V)) (specs : PyDict String V)
    (hs : (PyDict.keys specs).Nodup) (c : V) (hc : Class W specs c)
    (h1 : "estimator-specs" ∉ PyDict.keys specs) (h2 : "estimation-tasks-transformations-specs" ∉ PyDict.keys specs)
    (i : ℕ) (call : CostCall V) (hi : calls[i]? = some call) :
    ∃ made, CalledWith W c (costParameters (parameters specs) call (lastGiven ((calls.take (i + 1)).map CostCall.pre))) made ∧
      (costRuns W specs calls)[i]? = some (made.map .val) := by
  induction calls generalizing specs i with
  | nil => simp at hi
  | cons call' calls ih =>
    set d := setOpt (setOpt (setOpt (setOpt (setOpt specs "estimation_method" (some call'.method)) "estimation_preprocessors" call'.pre)
        "target_operator" (some call'.target)) "ansatz" (some call'.ansatz)) "backend" (some call'.backend) with hd
    have hds : (PyDict.keys d).Nodup :=
      nodup_setOpt (nodup_setOpt (nodup_setOpt (nodup_setOpt (nodup_setOpt hs _ _) _ _) _ _) _ _) _ _
    have hdc : Class W d c := class_setOpt (class_setOpt (class_setOpt (class_setOpt (class_setOpt hc _ (by decide) (by decide)) _
      (by decide) (by decide)) _ (by decide) (by decide)) _ (by decide) (by decide)) _ (by decide) (by decide)
    have e := evaluateCost_eq W specs call' h1 h2
    have hget : ∀ k, PyDict.get? d k =
        if k = "backend" then some call'.backend
        else if k = "ansatz" then some call'.ansatz
        else if k = "target_operator" then some call'.target
        else if k = "estimation_preprocessors" then call'.pre.or (PyDict.get? specs k)
        else if k = "estimation_method" then some call'.method
        else PyDict.get? specs k := by
      intro k
      rw [hd]
      simp only [get?_setOpt, Option.some_or]
      grind
    cases i with
    | zero =>
      simp only [List.getElem?_cons_zero, Option.some.injEq] at hi
      subst hi
      obtain ⟨made, h3, h4⟩ := create_called hds hdc
      refine ⟨made, ?_, ?_⟩
      · convert h3 using 1
        funext k
        unfold costParameters override parameters
        rw [hget]
        have : lastGiven ((List.take (0 + 1) (call' :: calls)).map CostCall.pre) = call'.pre := by simp [lastGiven]
        rw [this]
        by_cases ha : k = "module_name" ∨ k = "function_name"
        · rcases ha with rfl | rfl <;> simp
        · simp only [ha, if_false, Option.some_or]
          grind
      · unfold costRuns
        rw [e]
        simpa using h4
    | succ i =>
      have hk : ∀ k, k ∉ PyDict.keys specs → k ≠ "backend" → k ≠ "ansatz" → k ≠ "target_operator" → k ≠ "estimation_preprocessors" →
          k ≠ "estimation_method" → k ∉ PyDict.keys d := by
        intro k h0 a1 a2 a3 a4 a5
        rw [← PyDict.get?_eq_none_iff, hget]
        simp [a1, a2, a3, a4, a5, (PyDict.get?_eq_none_iff _ _).2 h0]
      obtain ⟨made, h3, h4⟩ := ih d hds hdc (hk _ h1 (by decide) (by decide) (by decide) (by decide) (by decide))
        (hk _ h2 (by decide) (by decide) (by decide) (by decide) (by decide)) i (by simpa using hi)
      refine ⟨made, ?_, ?_⟩
      · convert h3 using 1
        funext k
        rw [List.take_succ_cons, List.map_cons, lastGiven_cons]
        unfold costParameters override parameters
        rw [hget]
        by_cases ha : k = "module_name" ∨ k = "function_name"
        · rcases ha with rfl | rfl <;> simp
        · simp only [ha, if_false, Option.some_or]
          by_cases a1 : k = "backend"
          · simp [a1]
          by_cases a2 : k = "ansatz"
          · simp [a2]
          by_cases a3 : k = "target_operator"
          · simp [a3]
          by_cases a4 : k = "estimation_preprocessors"
          · subst a4; simp [Option.or_assoc]
          by_cases a5 : k = "estimation_method"
          · simp [a5]
          simp [a1, a2, a3, a4, a5]
      · have e1 : (evaluateCost W specs call'.method call'.target call'.ansatz call'.backend call'.pre).1 = d := by rw [e]
        unfold costRuns
        rw [e1]
        simpa using h4

/-- Specifications with one of the keys `estimator-specs` and `estimation-tasks-transformations-specs` are rejected and left as they are. -/
theorem cost_rejected (W : World V) (specs : PyDict String V) (method target ansatz backend : V) (pre : Option V)
    (h : "estimator-specs" ∈ PyDict.keys specs ∨ "estimation-tasks-transformations-specs" ∈ PyDict.keys specs) :
    evaluateCost W specs method target ansatz backend pre = (specs, .error (.other 0)) := by
  unfold evaluateCost; rw [if_pos h]

/-- Preprocessors survive the call they were given to: the second call is given none and uses those of the first. -/
theorem cost_preprocessors_counterexample :
    costRuns Example.world [("module_name", "m"), ("function_name", "CostFunction")]
      [⟨"e", "H", "a", "b", some "shots"⟩, ⟨"e", "H", "a", "b", none⟩] =
        [.ok (.val "CostFunction - shots"), .ok (.val "CostFunction - shots")] ∧
    costRuns Example.world [("module_name", "m"), ("function_name", "CostFunction")] [⟨"e", "H", "a", "b", none⟩] =
      [.ok (.val "CostFunction - -")] := ⟨rfl, rfl⟩

/-- The prior expectation values are ignored by a preprocessor that is a function without such a parameter. -/
theorem prior_ignored (W : World V) (specs : PyDict String V) (hs : (PyDict.keys specs).Nodup) (c prior : V) (ps : List (Param V))
    (hf : ZQ.CreateObject.Spec.Found W specs c) (hc : W.signature c = some ps) (hp : "prior_expectation_values" ∉ ps.map Param.name)
    (hk : "prior_expectation_values" ∉ PyDict.keys specs) :
    ∃ o o', (preprocessor W none [] specs).2 = .ok o ∧ (preprocessor W (some prior) [] specs).2 = .ok o' ∧
      ∀ args kw, (PyDict.keys kw).Nodup → callObj W o' args kw = callObj W o args kw := by
  obtain ⟨o, o', _, h1, h2, _, h3⟩ := unknown_ignored W specs [] hs c ps hf hc (not_twice_nil specs) "prior_expectation_values" prior hp
    (by decide) (by decide) hk (by simp [PyDict.keys])
  exact ⟨o, o', h1, h2, fun args kw hkw => (h3 args kw hkw).1⟩

example : ∃ o, (preprocessor Example.world (some "p") [] [("module_name", "m"), ("function_name", "pre")]).2 = .ok o ∧
    callObj Example.world o ["task"] [] = .ok "task" := ⟨_, rfl, rfl⟩

/-- They are not ignored by a preprocessor that is a class: if its constructor has no such parameter, the step raises `TypeError`. -/
theorem prior_class_counterexample (W : World V) (specs : PyDict String V) (hs : (PyDict.keys specs).Nodup) (c prior : V)
    (ps : List (Param V)) (hc : Class W specs c) (hps : Constructor W c ps) (hp : "prior_expectation_values" ∉ ps.map Param.name) :
    (preprocessor W (some prior) [] specs).2 = .error .typeError := by
  obtain ⟨made, ⟨d, hd, hg, hm⟩, hb⟩ := create_called (PyDict.nodup_set hs "prior_expectation_values" prior)
    (class_set hc prior (by decide) (by decide))
  obtain ⟨hord, init, hinit⟩ := hps
  have hbad : ¬ ZQ.CreateObject.Spec.Accepts ps (fun _ => none) [] d := by
    intro ha
    refine hp (ha.known _ ((PyDict.mem_keys_iff _ _).2 ⟨prior, ?_⟩))
    rw [hg]
    unfold parameters
    rw [if_neg (by decide), PyDict.get?_set, if_pos rfl]
  have he : made = .error .typeError := by
    rw [hm, hinit, (bind_ordinary hord (fun _ => none) [] d d (by simp) (by simp)).2 hbad]
    rfl
  show createObject W (PyDict.set specs "prior_expectation_values" prior) [] = _
  rw [hb, he]
  rfl

example : (preprocessor Example.world (some "p") [] (Example.simulatorSpecs [])).2 = .error .typeError :=
  prior_class_counterexample _ _ (by decide) "Simulator" "p" Example.simulator (Example.simulator_class []) Example.simulator_constructor
    (by decide)

/-! ## Steps that cannot succeed -/

/-- `evaluate_parametrized_circuit` never saves a circuit: circuits have no attribute `symbolic_params`. -/
theorem evaluate_parametrized_counterexample {α : Type} (bindAndSave : Unit → Except CreateObject.Err α) :
    evaluateParametrized (.ok ()) (.ok ()) bindAndSave = .error .attributeError := rfl

/-- `get_expectation_values_for_qubit_operator` never saves expectation values: backends have no attribute `n_samples`. -/
theorem expectation_step_counterexample {α : Type} (estimateAndSave : Unit → Except CreateObject.Err α) :
    expectationValuesStep (.ok ()) estimateAndSave = .error .attributeError := rfl

/-- `get_summed_expectation_values` of an operator given by the name of its file never gets to the measurements: `IsingOperator` is not imported. -/
theorem summed_step_counterexample {α : Type} (rest : Except CreateObject.Err α) : summedStep true (.ok ()) rest = .error .nameError := by
  simp [summedStep, measureImports, Bind.bind, Except.bind]

end ZQ.Steps
