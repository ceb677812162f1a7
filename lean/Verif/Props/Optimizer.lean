import Verif.Model.Optimizer
import Verif.Props.Recorder

/-! C65: the history of an optimization. -/

namespace ZQ.Optimizer

open ZQ ZQ.History

variable {S V G W E R : Type}

/-- Specification: the questions the program asks of the cost function alone that are answered, with the answers, in order: values and gradients. -/
def asked (target : Target W E S V) (gradient : Option (Target W E S G)) : Program S V G R → W → List (S × V) × List (S × G)
  | .done _, _ => ([], [])
  | .value p k, w =>
    match target w p with
    | (.error _, _) => ([], [])
    | (.ok v, w) => ((p, v) :: (asked target gradient (k v) w).1, (asked target gradient (k v) w).2)
  | .gradient p k, w =>
    match gradient with
    | none => ([], [])
    | some g =>
      match g w p with
      | (.error _, _) => ([], [])
      | (.ok v, w) => ((asked target gradient (k v) w).1, (p, v) :: (asked target gradient (k v) w).2)

theorem runRecorded_spec (noGradient : E) (target : Target W E S V) (gradient : Option (Target W E S G)) (predicate : SaveCondition E S V)
    (predicate' : SaveCondition E S G) (c : V → S → ℕ → Bool) (c' : G → S → ℕ → Bool) (hc : ∀ v s k, predicate v s k = .ok (c v s k))
    (hc' : ∀ v s k, predicate' v s k = .ok (c' v s k)) (program : Program S V G R) :
    ∀ (r : Recorder (Entry S V)) (g : Recorder (Entry S G)) (w : W),
    let result := runRecorded noGradient target gradient predicate predicate' program (r, g) w
    result.1 = (run noGradient target gradient program w).1 ∧ result.2.2 = (run noGradient target gradient program w).2 ∧
    result.2.1.1.history = r.history ++ selected c r.callNumber (asked target gradient program w).1 ∧
    result.2.1.2.history = g.history ++ selected c' g.callNumber (asked target gradient program w).2 := by
  induction program with
  | done x => intro r g w; simp [runRecorded, run, asked, selected]
  | value p k ih =>
    intro r g w
    cases ht : target w p with
    | mk o w' =>
      cases o with
      | error e =>
        simp only [runRecorded, run, asked, call, ht]
        simp [selected]
      | ok v =>
        simp only [runRecorded, run, asked, call, ht, hc]
        obtain ⟨h1, h2, h3, h4⟩ := ih v ⟨r.callNumber + 1, if c v p r.callNumber then r.history ++ [⟨r.callNumber, p, v⟩] else r.history⟩ g w'
        refine ⟨h1, h2, ?_, h4⟩
        rw [h3, selected_cons, ← List.append_assoc]
        congr 1
        dsimp only
        split <;> simp
  | gradient p k ih =>
    intro r g w
    cases gradient with
    | none =>
      simp only [runRecorded, run, asked]
      simp [selected]
    | some f =>
      cases ht : f w p with
      | mk o w' =>
        cases o with
        | error e =>
          simp only [runRecorded, run, asked, call, ht]
          simp [selected]
        | ok v =>
          simp only [runRecorded, run, asked, call, ht, hc']
          obtain ⟨h1, h2, h3, h4⟩ := ih v r ⟨g.callNumber + 1, if c' v p g.callNumber then g.history ++ [⟨g.callNumber, p, v⟩] else g.history⟩ w'
          refine ⟨h1, h2, h3, ?_⟩
          rw [h4, selected_cons, ← List.append_assoc]
          congr 1
          dsimp only
          split <;> simp

/-- Specification: entries for a list of calls, numbered from 0. -/
def numbered {T : Type} (l : List (S × T)) : List (Entry S T) := (l.zipIdx 0).map fun x => ⟨x.2, x.1.1, x.1.2⟩

/-- C65: for every optimizer and every cost function, with or without gradient and effects: keeping the history changes neither the result (or the
exception) nor the effects; the history consists of exactly the evaluations of the cost function, in order, numbered from 0; the gradient history of
exactly the evaluations of the gradient, and it is there exactly if the cost function has a gradient.  Without `keep_history` the history is empty. -/
theorem minimize_spec (noGradient : E) (program : Program S V G R) (target : Target W E S V) (gradient : Option (Target W E S G)) (w : W) :
    (minimize noGradient program target gradient always always true w).2 = (run noGradient target gradient program w).2 ∧
    (minimize noGradient program target gradient always always false w).2 = (run noGradient target gradient program w).2 ∧
    (minimize noGradient program target gradient always always true w).1 =
      (run noGradient target gradient program w).1.map (fun x => (x, ⟨some (numbered (asked target gradient program w).1),
        if gradient.isSome then some (numbered (asked target gradient program w).2) else none, false⟩)) ∧
    (minimize noGradient program target gradient always always false w).1 =
      (run noGradient target gradient program w).1.map (fun x => (x, ⟨some [], none, false⟩)) := by
  obtain ⟨h1, h2, h3, h4⟩ := runRecorded_spec noGradient target gradient always always (fun _ _ _ => true) (fun _ _ _ => true)
    (fun _ _ _ => rfl) (fun _ _ _ => rfl) program fresh fresh w
  refine ⟨h2, rfl, ?_, rfl⟩
  show (runRecorded noGradient target gradient always always program (fresh, fresh) w).1.map (fun x => (x, constructHistoryInfo
    (some (chooseClass false gradient.isSome)) true _ _)) = _
  rw [h1, h3, h4]
  rw [always_spec, always_spec]
  cases gradient <;> rfl

/-- C65: with another save condition the history has exactly the selected evaluations, with their numbers among all evaluations. -/
theorem minimize_selected (noGradient : E) (program : Program S V G R) (target : Target W E S V) (gradient : Option (Target W E S G))
    (predicate : SaveCondition E S V) (predicate' : SaveCondition E S G) (c : V → S → ℕ → Bool) (c' : G → S → ℕ → Bool)
    (hc : ∀ v s k, predicate v s k = .ok (c v s k)) (hc' : ∀ v s k, predicate' v s k = .ok (c' v s k)) (w : W) :
    (minimize noGradient program target gradient predicate predicate' true w).1 =
      (run noGradient target gradient program w).1.map (fun x => (x, ⟨some (selected c 0 (asked target gradient program w).1),
        if gradient.isSome then some (selected c' 0 (asked target gradient program w).2) else none, false⟩)) := by
  obtain ⟨h1, _, h3, h4⟩ := runRecorded_spec noGradient target gradient predicate predicate' c c' hc hc' program fresh fresh w
  show (runRecorded noGradient target gradient predicate predicate' program (fresh, fresh) w).1.map (fun x => (x, constructHistoryInfo
    (some (chooseClass false gradient.isSome)) true _ _)) = _
  rw [h1, h3, h4]
  cases gradient <;> rfl

/-- C65: the histories of the rounds of a nested optimization are joined in order, if all cost functions have gradients or none has.  Missing: rounds of
both kinds (`nestedHistories_counterexample`). -/
theorem nestedHistories_partial {T T' : Type} (rounds : List (RecorderClass × List T × List T')) (hne : rounds ≠ []) :
    ((∀ r ∈ rounds, hasGradient r.1 = true) → nestedHistories rounds = .ok ⟨some (rounds.flatMap (·.2.1)), some (rounds.flatMap (·.2.2)), false⟩) ∧
    ((∀ r ∈ rounds, hasGradient r.1 = false) → nestedHistories rounds = .ok ⟨some (rounds.flatMap (·.2.1)), none, false⟩) := by
  have step1 : ∀ (cls : RecorderClass) (h o : List T) (g og : List T') (d : Bool), hasGradient cls = true →
      extendHistories cls h g ⟨some o, some og, d⟩ = .ok ⟨some (o ++ h), some (og ++ g), false⟩ := by
    intro cls h o g og d hg
    cases cls <;> first | rfl | cases hg
  have step1' : ∀ (cls : RecorderClass) (h o : List T) (g : List T'), hasGradient cls = true →
      extendHistories cls h g ⟨some o, none, true⟩ = .ok ⟨some (o ++ h), some ([] ++ g), false⟩ := by
    intro cls h o g hg
    cases cls <;> first | rfl | cases hg
  have step2 : ∀ (cls : RecorderClass) (h o : List T) (g : List T') (d : Bool), hasGradient cls = false →
      extendHistories cls h g ⟨some o, none, d⟩ = .ok ⟨some (o ++ h), none, false⟩ := by
    intro cls h o g d hg
    cases cls <;> first | rfl | cases hg
  have all1 : ∀ (rounds : List (RecorderClass × List T × List T')) (o : List T) (og : List T') (d : Bool), (∀ r ∈ rounds, hasGradient r.1 = true) →
      rounds.foldlM (fun old r => extendHistories r.1 r.2.1 r.2.2 old) (⟨some o, some og, d⟩ : Histories T T') =
        .ok ⟨some (o ++ rounds.flatMap (·.2.1)), some (og ++ rounds.flatMap (·.2.2)), if rounds = [] then d else false⟩ := by
    intro rounds
    induction rounds with
    | nil => intro o og d _; simp; rfl
    | cons r rounds ih =>
      intro o og d h
      rw [List.foldlM_cons, step1 _ _ _ _ _ _ (h r (List.mem_cons_self ..))]
      refine (ih _ _ _ fun x hx => h x (List.mem_cons_of_mem _ hx)).trans ?_
      simp
  have all2 : ∀ (rounds : List (RecorderClass × List T × List T')) (o : List T) (d : Bool), (∀ r ∈ rounds, hasGradient r.1 = false) →
      rounds.foldlM (fun old r => extendHistories r.1 r.2.1 r.2.2 old) (⟨some o, none, d⟩ : Histories T T') =
        .ok ⟨some (o ++ rounds.flatMap (·.2.1)), none, if rounds = [] then d else false⟩ := by
    intro rounds
    induction rounds with
    | nil => intro o d _; simp; rfl
    | cons r rounds ih =>
      intro o d h
      rw [List.foldlM_cons, step2 _ _ _ _ _ (h r (List.mem_cons_self ..))]
      refine (ih _ _ fun x hx => h x (List.mem_cons_of_mem _ hx)).trans ?_
      simp
  constructor
  · intro h
    cases rounds with
    | nil => exact absurd rfl hne
    | cons r rounds =>
      rw [nestedHistories, List.foldlM_cons, step1' _ _ _ _ (h r (List.mem_cons_self ..))]
      refine (all1 rounds _ _ _ fun x hx => h x (List.mem_cons_of_mem _ hx)).trans ?_
      simp
  · intro h
    rw [nestedHistories, all2 rounds _ _ h]
    simp [hne]

/-- C65 fails for nested optimizations with cost functions of both kinds: a gradient that appears in a later round raises `KeyError`; one that is
gone in a later round takes the recorded gradient history with it. -/
theorem nestedHistories_counterexample :
    nestedHistories (T := ℕ) (T' := ℕ) [(.simple, [1], []), (.simpleWithGradient, [2], [3])] = .error .keyError ∧
    nestedHistories (T := ℕ) (T' := ℕ) [(.simpleWithGradient, [2], [3]), (.simple, [1], [])] = .ok ⟨some [2, 1], none, false⟩ :=
  ⟨rfl, rfl⟩

/-- C65: the optimizer of this repository reports as number of function evaluations the number of evaluations that happened and that are in the history,
and as optimal value the value at the optimal parameters. -/
theorem mockOptimizer_spec (noGradient : E) (target : Target W E S V) (gradient : Option (Target W E S G)) (p : S) (w : W)
    (r : (V × S × ℕ) × Histories (Entry S V) (Entry S G))
    (h : (minimize noGradient (mockProgram p) target gradient always always true w).1 = .ok r) :
    (target w p).1 = .ok r.1.1 ∧ r.1.2.1 = p ∧ r.2.history = some [⟨0, p, r.1.1⟩] ∧ (r.2.history.getD []).length = r.1.2.2 := by
  rw [(minimize_spec noGradient (mockProgram p) target gradient w).2.2.1] at h
  cases ht : target w p with
  | mk o w' =>
    simp only [mockProgram, run, asked, ht] at h
    cases o with
    | error e => cases h
    | ok v =>
      cases h
      exact ⟨rfl, rfl, rfl, rfl⟩

/-- A case: an optimizer that asks twice, the second question depending on the first answer, with a counting cost function. -/
example : (minimize (E := String) (G := ℕ) "no gradient" (.value 3 fun v => .value (v + 1) fun u => .gradient u fun g => .done (u, g))
    (fun w p => (.ok (p + w), w + 1)) (some fun w p => (.ok (2 * p), w)) always always true 10).1 =
    .ok ((25, 50), ⟨some [⟨0, 3, 13⟩, ⟨1, 14, 25⟩], some [⟨0, 25, 50⟩], false⟩) := rfl

end ZQ.Optimizer
