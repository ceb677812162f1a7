import Verif.Lemmas.CreateObject

/-!
# C108: objects created from specifications
-/

namespace ZQ.CreateObject

open Spec

variable {V : Type}

/-! ## A world for the examples: a module `m` with a function `f(x, y="1")`, a function `g(x, **options)` and a class `C` -/

namespace Example

def f : List (Param String) := [⟨"x", .posOrKw, none⟩, ⟨"y", .posOrKw, some "1"⟩]

def g : List (Param String) := [⟨"x", .posOrKw, none⟩, ⟨"options", .varKw, none⟩]

/-- `f` returns `x` and `y` joined, `g` the option `depth` or "none", `C` can be created with the parameter `size` only and its instances are
not callable. -/
def world : World String where
  importModule m := if m = "m" then .ok "module" else .error .importError
  getattr m n := if m = "module" ∧ (n = "f" ∨ n = "g" ∨ n = "C") then .ok n else .error .attributeError
  signature v := if v = "f" then some f else if v = "g" then some g else none
  run v b :=
    if v = "f" then .ok ((PyDict.get? b.named "x").getD "" ++ (PyDict.get? b.named "y").getD "")
    else .ok ((PyDict.get? b.extra "depth").getD "none")
  invoke v args kw :=
    if v = "C" then
      match args, PyDict.keys kw with
      | [], ["size"] => .ok ("C of " ++ (PyDict.get? kw "size").getD "")
      | _, _ => .error .typeError
    else .error .typeError

theorem f_ordinary : Ordinary f := by constructor <;> decide

theorem found_f (rest : PyDict String String) : Found world (("module_name", "m") :: ("function_name", "f") :: rest) "f" :=
  ⟨"m", "f", "module", rfl, rfl, rfl, rfl⟩

theorem found_C (rest : PyDict String String) : Found world (("module_name", "m") :: ("function_name", "C") :: rest) "C" :=
  ⟨"m", "C", "module", rfl, rfl, rfl, rfl⟩

end Example

/-! ## Finding the creator -/

/-- Specifications without `module_name` or `function_name` raise `KeyError`, failing imports and missing attributes raise what Python raises, and
a parameter given twice is a `ValueError`: in all these cases nothing is created or called. -/
theorem create_errors (W : World V) (specs kwargs : PyDict String V) (hs : (PyDict.keys specs).Nodup) :
    ("module_name" ∉ PyDict.keys specs → createObject W specs kwargs = .error .keyError) ∧
    (∀ m e, PyDict.get? specs "module_name" = some m → W.importModule m = .error e → createObject W specs kwargs = .error e) ∧
    (∀ m module, PyDict.get? specs "module_name" = some m → W.importModule m = .ok module →
      "function_name" ∉ PyDict.keys specs → createObject W specs kwargs = .error .keyError) ∧
    (∀ m n module e, PyDict.get? specs "module_name" = some m → W.importModule m = .ok module →
      PyDict.get? specs "function_name" = some n → W.getattr module n = .error e → createObject W specs kwargs = .error e) ∧
    (∀ c, Found W specs c → Twice specs kwargs → createObject W specs kwargs = .error .valueError) := by
  refine ⟨?_, ?_, ?_, ?_, ?_⟩
  · intro h
    unfold createObject pop
    rw [(PyDict.get?_eq_none_iff _ _).2 h]; rfl
  · intro m e hm hi
    unfold createObject pop
    rw [hm]
    simp only [Bind.bind, Except.bind, hi]
  · intro m module hm hi hn
    have hn' : PyDict.get? (PyDict.del specs "module_name") "function_name" = none := by
      rw [PyDict.get?_del hs]
      simpa using (PyDict.get?_eq_none_iff _ _).2 hn
    unfold createObject pop
    rw [hm]
    simp only [Bind.bind, Except.bind, hi, hn']
  · intro m n module e hm hi hn hg
    have hn' : PyDict.get? (PyDict.del specs "module_name") "function_name" = some n := by
      rw [PyDict.get?_del hs]; simpa using hn
    unfold createObject pop
    rw [hm]
    simp only [Bind.bind, Except.bind, hi, hn', hg]
  · intro c hf ht
    rw [createObject_found hs hf, if_pos ((twice_iff hs).2 ht)]

example : createObject Example.world [("module_name", "m"), ("function_name", "C"), ("size", "2")] [("size", "3")] = .error .valueError :=
  (create_errors _ _ _ (by decide)).2.2.2.2 _ (Example.found_C _) ⟨"size", by decide, by decide, by decide, by decide⟩

/-! ## Classes and other callables -/

/-- A class named by the specifications is called exactly once, with no positional arguments and with every parameter of the specifications and
every keyword by name, and with nothing else; its exception is passed on. -/
theorem create_class (W : World V) (specs kwargs : PyDict String V) (hs : (PyDict.keys specs).Nodup) (hk : (PyDict.keys kwargs).Nodup)
    (c : V) (hf : Found W specs c) (hc : W.signature c = none) (ht : ¬ Twice specs kwargs) :
    ∃ d, (PyDict.keys d).Nodup ∧ (∀ k, PyDict.get? d k = given specs kwargs k) ∧
      createObject W specs kwargs = (W.invoke c [] d).map .val := by
  refine ⟨merge (PyDict.del (PyDict.del specs "module_name") "function_name") kwargs, nodup_merge _ _ (nodup_rest hs),
    get?_all hs hk ht, ?_⟩
  rw [createObject_found hs hf, if_neg (fun h => ht ((twice_iff hs).1 h))]
  unfold build
  rw [hc]
  cases W.invoke c [] _ <;> rfl

example : createObject Example.world [("module_name", "m"), ("size", "2"), ("function_name", "C")] [] = .ok (.val "C of 2") := rfl

/-! ## Functions -/

/-- The callable created for a function `def f(a, b, c=1)`: a call with `args` and `kw` runs the body of the function iff no parameter is given
twice, missing or unknown; each parameter then has the value given by position, else by keyword in the call, else in the specifications or the
keywords of `create_object`, else the default.  A call that is not allowed is a `TypeError`. -/
theorem create_function (W : World V) (specs kwargs : PyDict String V) (hs : (PyDict.keys specs).Nodup) (hk : (PyDict.keys kwargs).Nodup)
    (c : V) (ps : List (Param V)) (hf : Found W specs c) (hc : W.signature c = some ps) (hps : Ordinary ps) (ht : ¬ Twice specs kwargs) :
    ∃ obj, createObject W specs kwargs = .ok obj ∧ ∀ args kw, (PyDict.keys kw).Nodup →
      (Accepts ps (given specs kwargs) args kw → ∃ b, callObj W obj args kw = W.run c b ∧ b.rest = [] ∧ b.extra = [] ∧
        PyDict.keys b.named = ps.map Param.name ∧
        ∀ i p, ps[i]? = some p → PyDict.get? b.named p.name = value (given specs kwargs) args kw i p) ∧
      (¬ Accepts ps (given specs kwargs) args kw → callObj W obj args kw = .error .typeError) := by
  have key : ∀ kw', ∀ args kw, 
      (∀ k ∈ ps.map Param.name, PyDict.get? kw' k = (PyDict.get? kw k).or (given specs kwargs k)) →
      (∀ k, k ∉ ps.map Param.name → (k ∈ PyDict.keys kw' ↔ k ∈ PyDict.keys kw)) →
      (Accepts ps (given specs kwargs) args kw → ∃ b, call W c args kw' = W.run c b ∧ b.rest = [] ∧ b.extra = [] ∧
        PyDict.keys b.named = ps.map Param.name ∧
        ∀ i p, ps[i]? = some p → PyDict.get? b.named p.name = value (given specs kwargs) args kw i p) ∧
      (¬ Accepts ps (given specs kwargs) args kw → call W c args kw' = .error .typeError) := by
    intro kw' args kw h1 h2
    obtain ⟨ha, hb⟩ := bind_ordinary hps (given specs kwargs) args kw kw' h1 h2
    unfold call
    rw [hc]
    constructor
    · intro h
      obtain ⟨b, e, r⟩ := ha h
      refine ⟨b, ?_, r⟩
      simp only [e]; rfl
    · intro h
      simp only [hb h]; rfl
  rw [createObject_found hs hf, if_neg (fun h => ht ((twice_iff hs).1 h))]
  unfold build
  rw [hc]
  dsimp only
  by_cases hne : kwargs ≠ [] ∨ PyDict.del (PyDict.del specs "module_name") "function_name" ≠ []
  · rw [if_pos hne]
    refine ⟨_, rfl, ?_⟩
    intro args kw hkw
    refine key _ args kw ?_ ?_
    · intro k hk1
      rw [get?_merge _ _ hkw, get?_filter _ (fun k => decide (k ∈ ps.map Param.name)), get?_all hs hk ht]
      simp [hk1]
    · intro k hk1
      rw [mem_keys_merge]
      constructor
      · rintro (h | h)
        · obtain ⟨v, hv⟩ := (PyDict.mem_keys_iff _ _).1 h
          rw [get?_filter _ (fun k => decide (k ∈ ps.map Param.name))] at hv
          simp [hk1] at hv
        · exact h
      · exact Or.inr
  · rw [if_neg hne]
    push Not at hne
    refine ⟨_, rfl, ?_⟩
    intro args kw hkw
    refine key kw args kw ?_ (fun _ _ => Iff.rfl)
    intro k _
    rw [← get?_all hs hk ht, hne.1, hne.2]
    simp [merge, PyDict.get?]

example : ∃ obj, createObject Example.world [("module_name", "m"), ("function_name", "f"), ("y", "2"), ("z", "5")] [] = .ok obj ∧
    callObj Example.world obj ["0"] [] = .ok "02" ∧ callObj Example.world obj ["0"] [("y", "7")] = .ok "07" ∧
    callObj Example.world obj ["0", "1"] [] = .error .typeError ∧ callObj Example.world obj [] [] = .error .typeError :=
  ⟨_, rfl, rfl, rfl, rfl, rfl⟩

example : Accepts Example.f (given [("module_name", "m"), ("function_name", "f"), ("y", "2")] []) ["0"] [] := by
  constructor
  · decide
  · intro k hk; cases hk
  · intro i p hp hi
    obtain rfl : i = 0 := by simpa using hi
    simp only [Example.f, List.getElem?_cons_zero, Option.some.injEq] at hp
    subst hp
    exact ⟨rfl, by decide⟩
  · intro i p hp
    match i with
    | 0 => simp [value]
    | 1 =>
      simp only [Example.f, List.getElem?_cons_succ, List.getElem?_cons_zero, Option.some.injEq] at hp
      subst hp
      rfl
    | n + 2 => simp [Example.f] at hp

/-- Parameters that a function does not name are ignored, whatever the function: adding one to the specifications or to the keywords changes no
call of what is created. -/
theorem unknown_ignored (W : World V) (specs kwargs : PyDict String V) (hs : (PyDict.keys specs).Nodup)
    (c : V) (ps : List (Param V)) (hf : Found W specs c) (hc : W.signature c = some ps) (ht : ¬ Twice specs kwargs)
    (k : String) (v : V) (hk : k ∉ ps.map Param.name) (hm : k ≠ "module_name") (hn : k ≠ "function_name")
    (hks : k ∉ PyDict.keys specs) (hkk : k ∉ PyDict.keys kwargs) :
    ∃ obj obj' obj'', createObject W specs kwargs = .ok obj ∧ createObject W (PyDict.set specs k v) kwargs = .ok obj' ∧
      createObject W specs (PyDict.set kwargs k v) = .ok obj'' ∧
      ∀ args kw, (PyDict.keys kw).Nodup →
        callObj W obj' args kw = callObj W obj args kw ∧ callObj W obj'' args kw = callObj W obj args kw := by
  set P : String → Bool := fun k => decide (k ∈ ps.map Param.name) with hP
  -- the calls of what is created only depend on the parameters named by the function
  have gen : ∀ specs kwargs : PyDict String V, (PyDict.keys specs).Nodup → Found W specs c → ¬ Twice specs kwargs →
      ∃ obj, createObject W specs kwargs = .ok obj ∧ ∀ args kw, (PyDict.keys kw).Nodup →
        callObj W obj args kw = call W c args (merge (merge
          ((PyDict.del (PyDict.del specs "module_name") "function_name").filter fun kv => P kv.1) (kwargs.filter fun kv => P kv.1)) kw) := by
    intro specs kwargs hs hf ht
    rw [createObject_found hs hf, if_neg (fun h => ht ((twice_iff hs).1 h))]
    unfold build
    rw [hc]
    dsimp only
    by_cases hne : kwargs ≠ [] ∨ PyDict.del (PyDict.del specs "module_name") "function_name" ≠ []
    · rw [if_pos hne]
      refine ⟨_, rfl, ?_⟩
      intro args kw _
      show call W c args (merge (List.filter (fun kv => P kv.1) _) kw) = _
      rw [filter_merge]
    · rw [if_neg hne]
      push Not at hne
      refine ⟨_, rfl, ?_⟩
      intro args kw hkw
      rw [hne.1, hne.2]
      show call W c args kw = call W c args (merge [] kw)
      rw [merge_nil_left kw hkw]
  have hPk : P k = false := by simp [hP]; simpa using hk
  have hdel : ∀ (d : PyDict String V) (s : String), k ≠ s → PyDict.del (PyDict.set d k v) s = PyDict.set (PyDict.del d s) k v := by
    intro d s hks
    induction d with
    | nil => simp [PyDict.set, PyDict.del, hks]
    | cons kv d ih =>
      obtain ⟨a, b⟩ := kv
      by_cases h1 : a = k
      · subst h1; simp [PyDict.set, PyDict.del, hks]
      · by_cases h2 : a = s
        · subst h2; simp [PyDict.set, PyDict.del, h1]
        · simp [PyDict.set, PyDict.del, h1, h2, ih]
  have hs' := PyDict.nodup_set hs k v
  have hf' : Found W (PyDict.set specs k v) c := by
    obtain ⟨m, n, module, h1, h2, h3, h4⟩ := hf
    refine ⟨m, n, module, ?_, h2, ?_, h4⟩
    · rw [PyDict.get?_set]; simp [hm, hm.symm, h1]
    · rw [PyDict.get?_set]; simp [hn, hn.symm, h3]
  have ht' : ¬ Twice (PyDict.set specs k v) kwargs := by
    rintro ⟨j, h1, h2, h3, h4⟩
    obtain ⟨w, hw⟩ := (PyDict.mem_keys_iff _ _).1 h3
    rw [PyDict.get?_set] at hw
    by_cases hjk : j = k
    · subst hjk; exact hkk h4
    · rw [if_neg (Ne.symm hjk)] at hw
      exact ht ⟨j, h1, h2, (PyDict.mem_keys_iff _ _).2 ⟨w, hw⟩, h4⟩
  have ht'' : ¬ Twice specs (PyDict.set kwargs k v) := by
    rintro ⟨j, h1, h2, h3, h4⟩
    obtain ⟨w, hw⟩ := (PyDict.mem_keys_iff _ _).1 h4
    rw [PyDict.get?_set] at hw
    by_cases hjk : j = k
    · subst hjk; exact hks h3
    · rw [if_neg (Ne.symm hjk)] at hw
      exact ht ⟨j, h1, h2, h3, (PyDict.mem_keys_iff _ _).2 ⟨w, hw⟩⟩
  obtain ⟨o, ho, ho2⟩ := gen specs kwargs hs hf ht
  obtain ⟨o', ho', ho2'⟩ := gen _ kwargs hs' hf' ht'
  obtain ⟨o'', ho'', ho2''⟩ := gen specs _ hs hf ht''
  refine ⟨o, o', o'', ho, ho', ho'', ?_⟩
  intro args kw hkw
  rw [ho2 args kw hkw, ho2' args kw hkw, ho2'' args kw hkw]
  constructor
  · rw [hdel specs _ hm, hdel _ _ hn, filter_set_of_not _ P k v hPk]
  · rw [filter_set_of_not _ P k v hPk]

example : ∃ obj obj', createObject Example.world [("module_name", "m"), ("function_name", "f")] [] = .ok obj ∧
    createObject Example.world [("module_name", "m"), ("function_name", "f"), ("prior", "p")] [] = .ok obj' ∧
    ∀ args kw, (PyDict.keys kw).Nodup → callObj Example.world obj' args kw = callObj Example.world obj args kw := by
  obtain ⟨o, o', _, h, h', _, hc⟩ := unknown_ignored Example.world [("module_name", "m"), ("function_name", "f")] [] (by decide) "f" Example.f
    (Example.found_f []) rfl (by rintro ⟨k, _, _, _, h⟩; cases h) "prior" "p" (by decide) (by decide) (by decide) (by decide) (by decide)
  exact ⟨o, o', h, h', fun args kw hkw => (hc args kw hkw).1⟩

/-- Without parameters `create_object` returns the function itself. -/
theorem create_function_itself (W : World V) (m n module c : V) (ps : List (Param V)) (hi : W.importModule m = .ok module)
    (hg : W.getattr module n = .ok c) (hc : W.signature c = some ps) :
    createObject W [("module_name", m), ("function_name", n)] [] = .ok (.val c) := by
  rw [createObject_found (c := c) (by simp [PyDict.keys]) ⟨m, n, module, rfl, hi, by simp [PyDict.get?], hg⟩]
  rw [if_neg (by simp [PyDict.keys])]
  simp [build, hc, PyDict.del]

example : createObject Example.world [("module_name", "m"), ("function_name", "f")] [] = .ok (.val "f") :=
  create_function_itself _ _ _ "module" _ _ rfl rfl rfl

/-- Parameters meant for the `**options` of a function are dropped: `create_object` of `def g(x, **options)` with `depth` among the
specifications calls `g` without it, while calling `g` with the same parameters passes it. -/
theorem create_variadic_counterexample :
    ∃ obj, createObject Example.world [("module_name", "m"), ("function_name", "g"), ("x", "0"), ("depth", "3")] [] = .ok obj ∧
      callObj Example.world obj [] [] = .ok "none" ∧ call Example.world "g" [] [("x", "0"), ("depth", "3")] = .ok "3" :=
  ⟨_, rfl, rfl, rfl⟩

/-! ## Noise models -/

/-- A noise model saved with the name of a function is loaded by calling that function with the saved data (what `json` makes of it). -/
theorem noise_round_trip (W : World V) (json : V → Option V) (none_ data data' m n module c : V) (ps : List (Param V))
    (hm : json m = some m) (hn : json n = some n) (hd : json data = some data')
    (hi : W.importModule m = .ok module) (hg : W.getattr module n = .ok c) (hc : W.signature c = some ps) :
    (do loadNoise W none_ (← saveNoise json data m n)) = call W c [data'] [] := by
  unfold saveNoise
  rw [hm, hn, hd]
  show loadNoise W none_ _ = _
  have h := create_function_itself W m n module c ps hi hg hc
  unfold loadNoise
  have e : PyDict.del [("module_name", m), ("function_name", n), ("data", data')] "data" = [("module_name", m), ("function_name", n)] := by
    simp [PyDict.del]
  rw [e, h]
  simp [Bind.bind, Except.bind, callObj, PyDict.get?]

example : (do loadNoise Example.world "None" (← saveNoise some "0.1" "m" "f")) = .ok "0.11" :=
  noise_round_trip Example.world some "None" "0.1" "0.1" "m" "f" "module" "f" Example.f rfl rfl rfl rfl rfl rfl

/-- A noise model saved with the name of a class is not loaded by calling the class with the data: the class is called without arguments and the
instance is called with the data. -/
theorem noise_class (W : World V) (json : V → Option V) (none_ data data' m n module c : V)
    (hm : json m = some m) (hn : json n = some n) (hd : json data = some data')
    (hi : W.importModule m = .ok module) (hg : W.getattr module n = .ok c) (hc : W.signature c = none) :
    (do loadNoise W none_ (← saveNoise json data m n)) = (do call W (← W.invoke c [] []) [data'] []) := by
  unfold saveNoise
  rw [hm, hn, hd]
  show loadNoise W none_ _ = _
  unfold loadNoise
  have e : PyDict.del [("module_name", m), ("function_name", n), ("data", data')] "data" = [("module_name", m), ("function_name", n)] := by
    simp [PyDict.del]
  rw [e, createObject_found (c := c) (by simp [PyDict.keys]) ⟨m, n, module, rfl, hi, by simp [PyDict.get?], hg⟩,
    if_neg (by simp [PyDict.keys])]
  have e2 : PyDict.del (PyDict.del [("module_name", m), ("function_name", n)] "module_name") "function_name" = [] := by simp [PyDict.del]
  rw [e2]
  unfold build
  rw [hc]
  show (do let f ← (do Except.ok (Obj.val (← W.invoke c [] [])) : Except Err (Obj V)); callObj W f _ []) = _
  cases W.invoke c [] [] with
  | error => rfl
  | ok v => simp [Bind.bind, Except.bind, callObj, PyDict.get?]

/-- So a class cannot be used: `C` would accept the data by name, but loading is a `TypeError`. -/
theorem noise_class_counterexample :
    (do loadNoise Example.world "None" (← saveNoise some "0.1" "m" "C")) = .error .typeError ∧
      call Example.world "C" [] [("size", "0.1")] = .ok "C of 0.1" :=
  ⟨rfl, rfl⟩

end ZQ.CreateObject
