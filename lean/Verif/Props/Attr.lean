import Verif.Model.Attr
import Mathlib.Tactic.Common
import Mathlib.Tactic.Tauto
import Mathlib.Data.List.Pairwise
import Mathlib.Data.List.Induction

/-!
# C100 and C101: attributes and calls of wrapped functions
-/

namespace ZQ.Attr

/-! ## Specification -/

/-- What the objects of a program are: the user's own, recorders, side effects and wrappers of augmentations are different objects. -/
inductive Sort'
  | base | recorder | sideEffect | augmented
deriving DecidableEq

/-- The objects `w` is made of are what they should be. -/
def Typed (σ : ℕ → Sort') : Fn → Prop
  | .base i => σ i = .base
  | .pair _ f _ => Typed σ f
  | .recorder i _ t => σ i = .recorder ∧ Typed σ t
  | .sideEffect i f => σ i = .sideEffect ∧ Typed σ f
  | .augmented i f s => σ i = .augmented ∧ Typed σ f ∧ Typed σ s

/-- A state in which recorders hold only their own five attributes and augmentations override at most `gradient`. -/
structure Start (σ : ℕ → Sort') (heap : Heap) : Prop where
  recorder : ∀ i, σ i = .recorder → ∀ n, n ∉ native → heap i n = none
  overrides : ∀ i, σ i = .augmented → ∀ n, n ≠ "gradient" → heap i n = none

/-- The program uses only objects that are what they should be. -/
def Uses (σ : ℕ → Sort') (uses : List Use) : Prop := ∀ w n v, Use.assign w n v ∈ uses → Typed σ w

/-- A name that no wrapper and no class of wrappers uses for itself. -/
structure Ordinary (env : Env) (n : String) : Prop where
  fields : n ∉ ["function", "gradient", "target", "_function", "_additional_attribute_source"]
  cls : ∀ k, env.cls k n = none

/-- The objects whose dictionaries `w` is made of. -/
def ids : Fn → List ℕ
  | .base i => [i]
  | .pair _ f g => ids f ++ ids g
  | .recorder i _ t => i :: ids t
  | .sideEffect i f => i :: ids f
  | .augmented i f s => i :: (ids f ++ ids s)

/-! ## Where an assignment goes -/

variable {env : Env} {heap H : Heap} {σ : ℕ → Sort'} {w : Fn} {n : String} {v : Val}

theorem Ordinary.ne (h : Ordinary env n) {m : String} (hm : m ∈ ["function", "gradient", "target", "_function", "_additional_attribute_source"]) :
    n ≠ m := fun e => h.fields (e ▸ hm)

/-- An assignment changes one entry of one dictionary. -/
theorem setattr_put : ∀ {w : Fn}, setattr env heap w n v = some H → ∃ i ∈ ids w, H = put heap i n v := by
  intro w
  induction w with
  | base i =>
    intro h
    unfold setattr at h
    split_ifs at h
    exact ⟨i, by simp [ids], (Option.some.inj h).symm⟩
  | pair s f g ihf ihg =>
    intro h
    obtain ⟨i, hi, e⟩ := ihf (by simpa [setattr] using h)
    exact ⟨i, by simp [ids, hi], e⟩
  | recorder i a t ih =>
    intro h
    unfold setattr at h
    split_ifs at h
    · exact ⟨i, by simp [ids], (Option.some.inj h).symm⟩
    · obtain ⟨j, hj, e⟩ := ih h
      exact ⟨j, by simp [ids, hj], e⟩
  | sideEffect i f ih =>
    intro h
    unfold setattr at h
    split_ifs at h
    exact ⟨i, by simp [ids], (Option.some.inj h).symm⟩
  | augmented i f s ihf ihs =>
    intro h
    unfold setattr at h
    split_ifs at h
    · obtain ⟨j, hj, e⟩ := ihf h
      exact ⟨j, by simp [ids, hj], e⟩
    · obtain ⟨j, hj, e⟩ := ihs h
      exact ⟨j, by simp [ids, hj], e⟩

theorem setattr_sort : ∀ {w : Fn}, Typed σ w → setattr env heap w n v = some H →
    ∃ i, H = put heap i n v ∧ σ i ≠ .augmented ∧ (σ i = .recorder → n ∈ native) := by
  intro w
  induction w with
  | base i =>
    intro ht h
    unfold setattr at h
    split_ifs at h
    have : σ i = .base := ht
    exact ⟨i, (Option.some.inj h).symm, by rw [this]; decide, by rw [this]; intro h; cases h⟩
  | pair s f g ihf ihg => intro ht h; exact ihf ht (by simpa [setattr] using h)
  | recorder i a t ih =>
    intro ht h
    unfold setattr at h
    split_ifs at h with h1 h2
    · exact ⟨i, (Option.some.inj h).symm, by rw [ht.1]; decide, fun _ => h1⟩
    · exact ih ht.2 h
  | sideEffect i f ih =>
    intro ht h
    unfold setattr at h
    split_ifs at h
    exact ⟨i, (Option.some.inj h).symm, by rw [ht.1]; decide, by rw [ht.1]; intro h; cases h⟩
  | augmented i f s ihf ihs =>
    intro ht h
    unfold setattr at h
    split_ifs at h
    · exact ihf ht.2.1 h
    · exact ihs ht.2.2 h

/-- Whatever is assigned, every object reads a name that was not assigned as before. -/
theorem set_other (h : setattr env heap w n v = some H) {m : String} (hm : m ≠ n) (g : Fn) : getattr env H g m = getattr env heap g m := by
  obtain ⟨i, -, rfl⟩ := setattr_put h
  have hput : ∀ j, put heap i n v j m = heap j m := fun j => by simp [put, hm]
  induction g with
  | base j => simp [getattr, hput]
  | pair s f g ihf ihg => simp [getattr, ihf]
  | recorder j a t ih => simp [getattr, hput, ih]
  | sideEffect j f ih => simp [getattr, hput]
  | augmented j f s ihf ihs => simp [getattr, hput, ihf, ihs]

/-- Where the assigned name is read, the old value is found or the new one. -/
theorem set_same (h : setattr env heap w n v = some H) (g : Fn) : getattr env H g n = getattr env heap g n ∨ getattr env H g n = some v := by
  obtain ⟨i, -, rfl⟩ := setattr_put h
  have hput : ∀ j, put heap i n v j n = heap j n ∨ put heap i n v j n = some v := fun j => by
    by_cases hj : j = i
    · right; simp [put, hj]
    · left; simp [put, hj]
  induction g with
  | base j => rcases hput j with e | e <;> simp [getattr, e]
  | pair s f g ihf ihg =>
    unfold getattr
    split_ifs
    · left; rfl
    · left; rfl
    · cases hc : env.cls .pair n with
      | some x => left; rfl
      | none => simpa using ihf
  | recorder j a t ih =>
    unfold getattr
    split_ifs
    · left; rfl
    · rcases hput j with e | e
      · rw [e]
        cases hc : (heap j n).or (env.cls .recorder n) with
        | some x => left; rfl
        | none => simpa using ih
      · right; simp [e]
  | sideEffect j f ih =>
    unfold getattr
    split_ifs
    · left; rfl
    · rcases hput j with e | e <;> simp [e]
  | augmented j f s ihf ihs =>
    unfold getattr
    split_ifs
    · left; rfl
    · left; rfl
    · cases hc : env.cls .augmented n with
      | some x => left; simp
      | none =>
        rcases hput j with e | e
        · rw [e]
          cases hh : heap j n with
          | some x => left; simp
          | none =>
            simp only [Option.none_or]
            rcases ihf with e1 | e1
            · rw [e1]
              cases getattr env heap f n with
              | some x => left; rfl
              | none => simpa using ihs
            · right; simp [e1]
        · right; simp [e]

theorem start_set (hs : Start σ heap) (ht : Typed σ w) (h : setattr env heap w n v = some H) : Start σ H := by
  obtain ⟨i, rfl, h1, h2⟩ := setattr_sort ht h
  constructor
  · intro j hj m hm
    have : ¬(j = i ∧ m = n) := by rintro ⟨rfl, rfl⟩; exact hm (h2 hj)
    rw [put, if_neg this]
    exact hs.recorder j hj m hm
  · intro j hj m hm
    have : ¬(j = i ∧ m = n) := by rintro ⟨rfl, rfl⟩; exact h1 hj
    rw [put, if_neg this]
    exact hs.overrides j hj m hm

theorem start_run (uses : List Use) (heap : Heap) (hs : Start σ heap) (hu : Uses σ uses) : Start σ (run env heap uses) := by
  induction uses generalizing heap with
  | nil => exact hs
  | cons u us ih =>
    have hus : Uses σ us := fun w n v h => hu w n v (List.mem_cons_of_mem _ h)
    refine ih (step env heap u) ?_ hus
    cases u with
    | read w n => exact hs
    | assign w n v =>
      show Start σ ((setattr env heap w n v).getD heap)
      cases h : setattr env heap w n v with
      | none => exact hs
      | some H => exact start_set hs (hu w n v (List.mem_cons_self ..)) h

theorem get_set (hs : Start σ heap) (hn : Ordinary env n) : ∀ {w : Fn}, Typed σ w → setattr env heap w n v = some H → getattr env H w n = some v := by
  have f1 := hn.ne (m := "function") (by decide)
  have f2 := hn.ne (m := "gradient") (by decide)
  have f3 := hn.ne (m := "target") (by decide)
  have f4 := hn.ne (m := "_function") (by decide)
  have f5 := hn.ne (m := "_additional_attribute_source") (by decide)
  intro w
  induction w with
  | base i =>
    intro ht h
    unfold setattr at h
    split_ifs at h
    obtain rfl := Option.some.inj h
    simp [getattr, put]
  | pair s f g ihf ihg =>
    intro ht h
    have := ihf ht (by simpa [setattr] using h)
    simp [getattr, f1, f2, hn.cls, this]
  | recorder i a t ih =>
    intro ht h
    have hst := start_set hs ht h
    unfold setattr at h
    split_ifs at h with h1 h2
    · obtain rfl := Option.some.inj h
      simp [getattr, put, f3]
    · have e := hst.recorder i ht.1 n h1
      simp [getattr, f3, e, hn.cls, ih ht.2 h]
  | sideEffect i f ih =>
    intro ht h
    unfold setattr at h
    split_ifs at h
    obtain rfl := Option.some.inj h
    simp [getattr, put, f1]
  | augmented i f s ihf ihs =>
    intro ht h
    have e := (start_set hs ht h).overrides i ht.1 n f2
    unfold setattr at h
    split_ifs at h with hh
    · simp [getattr, f4, f5, hn.cls, e, ihf ht.2.1 h]
    · have e1 := ihs ht.2.2 h
      have e2 : getattr env heap f n = none := by simpa [hasattr] using hh
      rcases set_same h f with e3 | e3
      · simp [getattr, f4, f5, hn.cls, e, e3, e2, e1]
      · simp [getattr, f4, f5, hn.cls, e, e3]

/-! ## C100 -/

/-- After any history of assignments, an attribute assigned on an object, through any wrappers, is what the object then reads. -/
theorem assigned_is_read (uses : List Use) (hs : Start σ heap) (hu : Uses σ uses) (ht : Typed σ w) (hn : Ordinary env n)
    (h : setattr env (run env heap uses) w n v = some H) : getattr env H w n = some v :=
  get_set (start_run uses heap hs hu) hn ht h

/-- A recorder reads what its target reads, for every name that is not one of its own five. -/
theorem recorder_reads_target (uses : List Use) (hs : Start σ heap) (hu : Uses σ uses) {i : ℕ} {a : Bool} {t : Fn} (ht : Typed σ (.recorder i a t))
    (hn : n ∉ native) (hc : env.cls .recorder n = none) :
    getattr env (run env heap uses) (.recorder i a t) n = getattr env (run env heap uses) t n := by
  have e := (start_run uses heap hs hu (env := env)).recorder i ht.1 n hn
  have f3 : n ≠ "target" := by rintro rfl; exact hn (by decide)
  simp [getattr, f3, e, hc]

/-- What is assigned on a recorder or a function with gradient reaches what they wrap. -/
theorem assigned_reaches_target (uses : List Use) (hs : Start σ heap) (hu : Uses σ uses) (hn : Ordinary env n) {t : Fn} (ht : Typed σ t) :
    (∀ i a, n ∉ native → setattr env (run env heap uses) (.recorder i a t) n v = some H → getattr env H t n = some v) ∧
    (∀ s g, setattr env (run env heap uses) (.pair s t g) n v = some H → getattr env H t n = some v) := by
  have hst := start_run uses heap hs hu (env := env)
  refine ⟨fun i a hna h => ?_, fun s g h => ?_⟩
  · rw [setattr, if_neg hna] at h
    exact get_set hst hn ht h
  · rw [setattr] at h
    exact get_set hst hn ht h

/-- What is assigned on a function with a logger reaches the function if the logger has no such attribute; otherwise it stays with the logger and
nothing made without the logger sees it. -/
theorem assigned_on_logged (uses : List Use) (hs : Start σ heap) (hu : Uses σ uses) (hn : Ordinary env n) {i j : ℕ} {f : Fn}
    (ht : Typed σ (augment i j f)) (h : setattr env (run env heap uses) (augment i j f) n v = some H) :
    (run env heap uses i n = none → getattr env H f n = some v) ∧
    (run env heap uses i n ≠ none → getattr env H (.sideEffect i f) n = some v ∧
      ∀ g, i ∉ ids g → getattr env H g n = getattr env (run env heap uses) g n) := by
  have hst := start_run uses heap hs hu (env := env)
  have f1 := hn.ne (m := "function") (by decide)
  have hh : hasattr env (run env heap uses) (.sideEffect i f) n = (run env heap uses i n).isSome := by
    simp [hasattr, getattr, f1, hn.cls]
  rw [augment, setattr, hh] at h
  refine ⟨fun hi => ?_, fun hi => ?_⟩
  · rw [hi] at h
    exact get_set hst hn ht.2.2 (by simpa using h)
  · rw [if_pos (Option.isSome_iff_ne_none.2 hi)] at h
    refine ⟨get_set hst hn ht.2.1 h, fun g hg => ?_⟩
    rw [setattr, if_neg f1] at h
    obtain rfl := Option.some.inj h
    have hput : ∀ k, k ≠ i → put (run env heap uses) i n v k n = run env heap uses k n := fun k hk => by simp [put, hk]
    induction g with
    | base k => simp [getattr, hput k (by rintro rfl; simp [ids] at hg)]
    | pair s f g ihf ihg => simp [getattr, ihf (fun h => hg (by simp [ids, h]))]
    | recorder k a t ih =>
      simp [getattr, hput k (by rintro rfl; simp [ids] at hg), ih (fun h => hg (by simp [ids, h]))]
    | sideEffect k f ih => simp [getattr, hput k (by rintro rfl; simp [ids] at hg)]
    | augmented k f s ihf ihs =>
      simp [getattr, hput k (by rintro rfl; simp [ids] at hg), ihf (fun h => hg (by simp [ids, h])), ihs (fun h => hg (by simp [ids, h]))]

/-- An attribute of the function is one of the function with any number of loggers. -/
theorem logged_has (layers : List (ℕ × ℕ)) (f : Fn) (h : hasattr env heap f n = true) :
    hasattr env heap (layers.foldl (fun g l => augment l.1 l.2 g) f) n = true := by
  induction layers generalizing f with
  | nil => exact h
  | cons l ls ih =>
    refine ih _ ?_
    unfold hasattr augment at *
    rw [getattr]
    split_ifs
    · rfl
    · rfl
    · cases (env.cls .augmented n).or (heap l.2 n) with
      | some x => rfl
      | none =>
        cases getattr env heap (.sideEffect l.1 f) n with
        | some x => rfl
        | none => simpa using h

/-! ## Assignments of the gradient are lost -/

/-- The attributes every object of the program below has: a function without attributes of its own. -/
def exEnv : Env := ⟨fun _ => ⟨fun n => if n = "__code__" then some (.code ["p", "store_artifact"]) else none, true, some ["p", "store_artifact"], fun _ => true⟩,
  fun _ _ => none⟩

/-- Assigning `gradient` of a function with gradient succeeds, changes the wrapped function, and the function with gradient still reads the old one. -/
theorem gradient_assignment_counterexample :
    ∃ (H : Heap) (w f g : Fn), w = functionWithGradient exEnv (fun _ _ => none) f g ∧ setattr exEnv (fun _ _ => none) w "gradient" (.data 7) = some H ∧
      getattr exEnv H w "gradient" = some (.fn g) ∧ getattr exEnv H f "gradient" = some (.data 7) :=
  ⟨put (fun _ _ => none) 0 "gradient" (.data 7), _, .base 0, .base 1, rfl, rfl, by decide, by decide⟩

/-- The same for an augmented function with gradient: the assignment lands on the innermost function, the override is still read. -/
theorem gradient_override_counterexample :
    ∃ (heap H : Heap) (f : Fn), Start (fun i => if i = 3 then .augmented else if i = 2 then .sideEffect else .base) heap ∧
      setattr exEnv heap (augment 2 3 f) "gradient" (.data 7) = some H ∧ getattr exEnv H (augment 2 3 f) "gradient" = some (.fn (.base 1)) ∧
      getattr exEnv H f "gradient" = some (.data 7) := by
  refine ⟨put (fun _ _ => none) 3 "gradient" (.fn (.base 1)), put (put (fun _ _ => none) 3 "gradient" (.fn (.base 1))) 0 "gradient" (.data 7), .base 0,
    ⟨fun i hi n hn => ?_, fun i hi n hn => ?_⟩, rfl, by decide, by decide⟩
  · have : ¬(i = 3 ∧ n = "gradient") := by rintro ⟨rfl, -⟩; simp at hi
    simp [put, this]
  · simp [put, hn]

/-! ## C101: calls -/

/-- A function written in Python, with parameters `ps`, that takes one argument, and a second one, also by name, if it has `store_artifact`. -/
structure IsFunction (env : Env) (i : ℕ) (ps : List String) : Prop where
  code : (env.base i).cls "__code__" = some (.code ps)
  plain : (env.base i).accepts .plain = true
  stores : "store_artifact" ∈ ps → ∀ a, (env.base i).accepts a = true

/-- A callable object whose class has `__call__` with parameters `ps`. -/
structure IsCallableObject (env : Env) (i : ℕ) (ps : List String) : Prop where
  code : (env.base i).cls "__code__" = none
  params : (env.base i).params = some ps
  plain : (env.base i).accepts .plain = true
  stores : "store_artifact" ∈ ps → ∀ a, (env.base i).accepts a = true

/-- Nobody assigned `__code__`, and no class of wrappers has it. -/
structure NoCode (env : Env) (heap : Heap) : Prop where
  heap : ∀ j, heap j "__code__" = none
  cls : ∀ k, env.cls k "__code__" = none

def Layer.isGradient : Layer → Bool | .gradient _ => true | _ => false
def Layer.isLog : Layer → Bool | .log _ _ => true | _ => false

theorem code_around (hc : NoCode env heap) (l : Layer) (f : Fn) : getattr env heap (l.around env heap f) "__code__" = getattr env heap f "__code__" := by
  cases l with
  | gradient g => simp only [Layer.around, functionWithGradient]; split_ifs <;> simp [getattr, hc.cls]
  | record i => simp only [Layer.around, makeRecorder]; split_ifs <;> simp [getattr, hc.cls, hc.heap]
  | log i j => simp [Layer.around, augment, getattr, hc.cls, hc.heap]

theorem wrapped_append (f : Fn) (ls : List Layer) (l : Layer) : wrapped env heap f (ls ++ [l]) = l.around env heap (wrapped env heap f ls) := by
  simp [wrapped]

theorem code_wrapped (hc : NoCode env heap) (ls : List Layer) (f : Fn) :
    getattr env heap (wrapped env heap f ls) "__code__" = getattr env heap f "__code__" := by
  induction ls using List.reverseRecOn with
  | nil => rfl
  | append_singleton ls l ih => rw [wrapped_append, code_around hc, ih]

/-- A wrapped function stores artifacts exactly if the function does, as far as `has_store_artifact_param` can tell. -/
theorem stores_wrapped {i : ℕ} {ps : List String} (hf : IsFunction env i ps) (hc : NoCode env heap) (ls : List Layer) :
    hasStoreArtifactParam env heap (wrapped env heap (.base i) ls) = decide ("store_artifact" ∈ ps) := by
  have : getattr env heap (wrapped env heap (.base i) ls) "__code__" = some (.code ps) := by
    rw [code_wrapped hc]; simp [getattr, hc.heap, hf.code]
  simp [hasStoreArtifactParam, signature, this]

/-- Layers around a function that stores no artifacts, in any order: every call reaches the function, with the one argument. -/
theorem call_wrapped {i : ℕ} {ps : List String} (hf : IsFunction env i ps) (hs : "store_artifact" ∉ ps) (hc : NoCode env heap) (ls : List Layer) :
    call env (wrapped env heap (.base i) ls) .plain = some (i, .plain) := by
  induction ls using List.reverseRecOn with
  | nil => simp [wrapped, call, hf.plain]
  | append_singleton ls l ih =>
    have hst := stores_wrapped hf hc ls
    rw [decide_eq_false hs] at hst
    rw [wrapped_append]
    cases l with
    | gradient g => simp [Layer.around, functionWithGradient, hst, call, ih]
    | record k => simp [Layer.around, makeRecorder, hst, call, ih]
    | log k j => simp [Layer.around, augment, call, ih]

/-- Layers around a function that stores artifacts: calls work exactly if nothing but loggers is put around a recorder or a logger; otherwise every
call raises `TypeError`. -/
theorem call_wrapped_storing {i : ℕ} {ps : List String} (hf : IsFunction env i ps) (hs : "store_artifact" ∈ ps) (hc : NoCode env heap) (ls : List Layer) :
    call env (wrapped env heap (.base i) ls) .plain ≠ none ↔ ls.Pairwise fun inner outer => inner.isGradient ∨ outer.isLog := by
  suffices h : (call env (wrapped env heap (.base i) ls) .plain ≠ none ↔ ls.Pairwise fun inner outer => inner.isGradient ∨ outer.isLog) ∧
      ∀ a, a ≠ .plain → (call env (wrapped env heap (.base i) ls) a ≠ none ↔ ∀ l ∈ ls, l.isGradient = true) from h.1
  induction ls using List.reverseRecOn with
  | nil => simp [wrapped, call, hf.stores hs]
  | append_singleton ls l ih =>
    have hst := stores_wrapped hf hc ls
    rw [decide_eq_true hs] at hst
    rw [wrapped_append]
    obtain ⟨ih1, ih2⟩ := ih
    have hk := ih2 .keyword (by decide)
    have hp := ih2 .positional (by decide)
    have hall : (∀ l ∈ ls, l.isGradient = true) → ls.Pairwise fun inner outer => inner.isGradient ∨ outer.isLog := fun h =>
      (List.pairwise_of_forall_mem_list fun a ha _ _ => Or.inl (h a ha))
    have hpair : ∀ l, (ls ++ [l]).Pairwise (fun inner outer : Layer => inner.isGradient = true ∨ outer.isLog = true) ↔
        ls.Pairwise (fun inner outer => inner.isGradient = true ∨ outer.isLog = true) ∧ ∀ a ∈ ls, a.isGradient = true ∨ l.isLog = true := fun l => by
      simp [List.pairwise_append]
    rw [hpair]
    cases l with
    | gradient g =>
      simp only [Layer.around, functionWithGradient, hst, if_true, call]
      refine ⟨?_, fun a _ => ?_⟩
      · rw [hp]; simp only [Layer.isLog, Bool.false_eq_true, or_false]; exact ⟨fun h => ⟨hall h, h⟩, And.right⟩
      · rw [hp]; simp [Layer.isGradient, or_imp, forall_and]
    | record k =>
      simp only [Layer.around, makeRecorder, hst, if_true, call]
      refine ⟨?_, fun a ha => ?_⟩
      · rw [hk]; simp only [Layer.isLog, Bool.false_eq_true, or_false]; exact ⟨fun h => ⟨hall h, h⟩, And.right⟩
      · simp only [ha, if_false, ne_eq, not_true_eq_false, false_iff]
        intro h; simpa [Layer.isGradient] using h (.record k) (by simp)
    | log k j =>
      simp only [Layer.around, augment, call, if_true]
      refine ⟨?_, fun a ha => ?_⟩
      · rw [ih1]; simp [Layer.isLog]
      · simp only [ha, if_false, ne_eq, not_true_eq_false, false_iff]
        intro h; simpa [Layer.isGradient] using h (.log k j) (by simp)

/-- Recording a function directly, or with its gradient, works, and the function is asked for its artifacts. -/
theorem call_recorded {i : ℕ} {ps : List String} (hf : IsFunction env i ps) (hs : "store_artifact" ∈ ps) (hc : NoCode env heap) (g : Fn) (k : ℕ) :
    call env (wrapped env heap (.base i) [.record k]) .plain = some (i, .keyword) ∧
    call env (wrapped env heap (.base i) [.gradient g, .record k]) .plain = some (i, .positional) := by
  have h0 := stores_wrapped hf hc []
  have h1 := stores_wrapped hf hc [.gradient g]
  rw [decide_eq_true hs] at h0 h1
  refine ⟨?_, ?_⟩
  · show call env (makeRecorder env heap k (wrapped env heap (.base i) [])) .plain = _
    rw [makeRecorder, h0, if_pos rfl]
    simp [call, wrapped, hf.stores hs]
  · show call env (makeRecorder env heap k (wrapped env heap (.base i) [.gradient g])) .plain = _
    rw [makeRecorder, h1, if_pos rfl]
    show call env (.recorder k true (functionWithGradient env heap (wrapped env heap (.base i) []) g)) .plain = _
    rw [functionWithGradient, h0, if_pos rfl]
    simp [call, wrapped, hf.stores hs]

theorem object_stores {i : ℕ} {ps : List String} (hf : IsCallableObject env i ps) (hc : NoCode env heap) (ls : List Layer) :
    (hasStoreArtifactParam env heap (wrapped env heap (.base i) ls) = true ↔ "store_artifact" ∈ ps ∧ ∀ l ∈ ls, l.isGradient = true) ∧
    call env (wrapped env heap (.base i) ls) .plain ≠ none ∧
    (hasStoreArtifactParam env heap (wrapped env heap (.base i) ls) = true → ∀ a, call env (wrapped env heap (.base i) ls) a ≠ none) := by
  have hcode : ∀ ls, getattr env heap (wrapped env heap (.base i) ls) "__code__" = none := fun ls => by
    rw [code_wrapped hc]; simp [getattr, hc.heap, hf.code]
  have hsig : ∀ ls, hasStoreArtifactParam env heap (wrapped env heap (.base i) ls) =
      (match callParams env (wrapped env heap (.base i) ls) with | some params => decide ("store_artifact" ∈ params) | none => false) := fun ls => by
    unfold hasStoreArtifactParam signature; rw [hcode]
    cases callParams env (wrapped env heap (.base i) ls) <;> rfl
  induction ls using List.reverseRecOn with
  | nil =>
    refine ⟨by rw [hsig]; simp [wrapped, callParams, hf.params], by simp [wrapped, call, hf.plain], fun h a => ?_⟩
    rw [hsig] at h
    have : "store_artifact" ∈ ps := by simpa [wrapped, callParams, hf.params] using h
    simp [wrapped, call, hf.stores this]
  | append_singleton ls l ih =>
    obtain ⟨ih1, ih2, ih3⟩ := ih
    rw [hsig, wrapped_append]
    cases l with
    | gradient g =>
      by_cases hst : hasStoreArtifactParam env heap (wrapped env heap (.base i) ls) = true
      · simp only [Layer.around, functionWithGradient, hst, if_true, call, callParams]
        refine ⟨?_, ih3 hst _, fun _ _ => ih3 hst _⟩
        have := ih1.1 hst
        simpa [Layer.isGradient, or_imp, forall_and] using this
      · simp only [Layer.around, functionWithGradient, hst, if_false, call, callParams, Bool.false_eq_true, if_true]
        refine ⟨?_, ih2, fun h => absurd h (by decide)⟩
        simp only [show decide ("store_artifact" ∈ ["params"]) = false by decide, Bool.false_eq_true, false_iff]
        rintro ⟨h1, h2⟩
        exact hst (ih1.2 ⟨h1, fun l hl => h2 l (by simp [hl])⟩)
    | record k =>
      have hcp : callParams env (Layer.around env heap (wrapped env heap (.base i) ls) (.record k)) = some ["params"] := by
        simp only [Layer.around, makeRecorder]; split_ifs <;> rfl
      rw [hcp]
      refine ⟨?_, ?_, fun h => absurd h (by decide)⟩
      · simp only [show decide ("store_artifact" ∈ ["params"]) = false by decide, Bool.false_eq_true, false_iff]
        rintro ⟨-, h⟩
        simpa [Layer.isGradient] using h (.record k) (by simp)
      · by_cases hst : hasStoreArtifactParam env heap (wrapped env heap (.base i) ls) = true
        · simpa [Layer.around, makeRecorder, hst, call] using ih3 hst .keyword
        · simpa [Layer.around, makeRecorder, hst, call] using ih2
    | log k j =>
      refine ⟨?_, by simpa [Layer.around, augment, call] using ih2, fun h => absurd h (by simp [Layer.around, augment, callParams])⟩
      simp only [Layer.around, augment, callParams, show decide ("store_artifact" ∈ ["args", "kwargs"]) = false by decide, Bool.false_eq_true, false_iff]
      rintro ⟨-, h⟩
      simpa [Layer.isGradient] using h (.log k j) (by simp)

/-- Layers around a callable object, in any order: calls work; but a recorder put around it collects artifacts only if everything in between is a
gradient. -/
theorem call_wrapped_object {i : ℕ} {ps : List String} (hf : IsCallableObject env i ps) (hc : NoCode env heap) (ls : List Layer) (k : ℕ) :
    call env (wrapped env heap (.base i) ls) .plain ≠ none ∧
    (wrapped env heap (.base i) (ls ++ [.record k]) = .recorder k true (wrapped env heap (.base i) ls) ↔
      "store_artifact" ∈ ps ∧ ∀ l ∈ ls, l.isGradient = true) := by
  obtain ⟨h1, h2, -⟩ := object_stores hf hc ls
  refine ⟨h2, ?_⟩
  rw [wrapped_append, ← h1]
  simp only [Layer.around, makeRecorder]
  split_ifs with h <;> simp [h]

/-! ## What the documentation allows and fails -/

theorem exFunction : IsFunction exEnv 0 ["p", "store_artifact"] := ⟨by decide, rfl, fun _ _ => rfl⟩

theorem exNoCode : NoCode exEnv fun _ _ => none := ⟨fun _ => rfl, fun _ => rfl⟩

/-- A cost function that stores artifacts, with gradient, with a logger, minimised with history (as `get_ground_state_cost_function`, then
`augment_cost_function(..., [function_logger()])`, then `minimize(..., keep_history=True)`): every evaluation raises `TypeError`, though
the function and the logged function can be called.  The same for a recorder of a recorder, and for a gradient added to a recorder. -/
theorem logged_recorded_counterexample :
    (∀ i j k : ℕ, ∀ g : Fn, call exEnv (wrapped exEnv (fun _ _ => none) (.base 0) [.gradient g, .log i j, .record k]) .plain = none ∧
      call exEnv (wrapped exEnv (fun _ _ => none) (.base 0) [.gradient g, .log i j]) .plain ≠ none) ∧
    (∀ j k : ℕ, call exEnv (wrapped exEnv (fun _ _ => none) (.base 0) [.record j, .record k]) .plain = none) ∧
    (∀ (j : ℕ) (g : Fn), call exEnv (wrapped exEnv (fun _ _ => none) (.base 0) [.record j, .gradient g]) .plain = none) := by
  have h := fun ls => call_wrapped_storing exFunction (by decide) exNoCode ls
  refine ⟨fun i j k g => ⟨?_, ?_⟩, fun j k => ?_, fun j g => ?_⟩
  · have := (h [.gradient g, .log i j, .record k]).not
    simpa [Layer.isGradient, Layer.isLog] using this
  · exact (h _).2 (by simp [Layer.isGradient, Layer.isLog])
  · have := (h [.record j, .record k]).not
    simpa [Layer.isGradient, Layer.isLog] using this
  · have := (h [.record j, .gradient g]).not
    simpa [Layer.isGradient, Layer.isLog] using this

/-- A program with a recorder around a logger around a function; the names `tag` and `call_number` go where the theorems say. -/
example :
    let σ : ℕ → Sort' := fun i => if i = 0 then .base else if i = 1 then .sideEffect else if i = 2 then .augmented else .recorder
    let heap : Heap := fun i n => if i = 1 ∧ n = "call_number" then some (.data 0) else if i = 3 ∧ n = "history" then some (.data 1) else none
    let w : Fn := .recorder 3 false (augment 1 2 (.base 0))
    Start σ heap ∧ Typed σ w ∧ Ordinary exEnv "tag" ∧
      ∃ H, setattr exEnv heap w "tag" (.data 5) = some H ∧ getattr exEnv H (.base 0) "tag" = some (.data 5) ∧ getattr exEnv H w "history" = some (.data 1) := by
  refine ⟨⟨fun i hi n hn => ?_, fun i hi n hn => ?_⟩, ?_, ⟨by decide, fun _ => rfl⟩, _, rfl, by decide, by decide⟩
  · have h1 : ¬(i = 1 ∧ n = "call_number") := by rintro ⟨rfl, -⟩; simp at hi
    have h2 : ¬(i = 3 ∧ n = "history") := by rintro ⟨-, rfl⟩; exact hn (by decide)
    simp [h1, h2]
  · have h1 : ¬(i = 1 ∧ n = "call_number") := by rintro ⟨rfl, -⟩; simp at hi
    have h2 : ¬(i = 3 ∧ n = "history") := by rintro ⟨rfl, -⟩; simp at hi
    simp [h1, h2]
  · simp [Typed, augment]

/-- A callable object that stores artifacts exists, too. -/
example : ∃ env : Env, IsCallableObject env 0 ["p", "store_artifact"] ∧ NoCode env fun _ _ => none :=
  ⟨⟨fun _ => ⟨fun _ => none, true, some ["p", "store_artifact"], fun _ => true⟩, fun _ _ => none⟩, ⟨rfl, rfl, rfl, fun _ _ => rfl⟩, ⟨fun _ => rfl, fun _ => rfl⟩⟩

end ZQ.Attr
