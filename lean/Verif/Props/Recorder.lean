import Verif.Model.Recorder
import Verif.Lemmas.PyDict
import Mathlib.Data.Int.ModEq
import Mathlib.Tactic.Ring

/-!
# C30, C67: recorders
-/

namespace ZQ.History

open ZQ ZQ.PyDict

variable {S V W E A : Type}

/-- Specification: the calls that succeeded, with their parameters and values, in order. -/
def succeeded {R : Type} : List S → List (Except E R) → List (S × R)
  | p :: ps, .ok v :: rs => (p, v) :: succeeded ps rs
  | _ :: ps, .error _ :: rs => succeeded ps rs
  | _, _ => []

/-- Specification: using the function without a recorder. -/
def directly (target : Target W E S V) (ps : List S) (w : W) : List (Except E V) × W := calls (fun p w => target w p) ps w

/-- Specification: the entries for the calls selected by a condition, numbered from `k`. -/
def selected (p : V → S → ℕ → Bool) (k : ℕ) (l : List (S × V)) : List (Entry S V) :=
  ((l.zipIdx k).filter fun x => p x.1.2 x.1.1 x.2).map fun x => ⟨x.2, x.1.1, x.1.2⟩

theorem selected_cons (p : V → S → ℕ → Bool) (k : ℕ) (s : S) (v : V) (l : List (S × V)) :
    selected p k ((s, v) :: l) = (if p v s k then [⟨k, s, v⟩] else []) ++ selected p (k + 1) l := by
  cases h : p v s k <;> simp [selected, List.zipIdx_cons, h]

/-- C30. For every target, every save condition and every sequence of calls: the recorder returns what the target returns, affects the world as the target
does, and its history grows by exactly the successful calls for which the condition holds, in order, with their numbers, parameters and values. -/
theorem recorder_spec (target : Target W E S V) (predicate : SaveCondition E S V) (p : V → S → ℕ → Bool) (hp : ∀ v s k, predicate v s k = .ok (p v s k))
    (ps : List S) (r : Recorder (Entry S V)) (w : W) :
    let result := calls (call target predicate) ps (r, w)
    let direct := directly target ps w
    result.1 = direct.1 ∧ result.2.2 = direct.2 ∧
      result.2.1.history = r.history ++ selected p r.callNumber (succeeded ps direct.1) ∧
      result.2.1.callNumber = r.callNumber + (succeeded ps direct.1).length := by
  induction ps generalizing r w with
  | nil => simp [calls, directly, succeeded, selected]
  | cons q ps ih =>
    intro result direct
    cases ht : target w q with
    | mk o w' =>
      cases o with
      | error e =>
        have hc : call target predicate q (r, w) = (.error e, (r, w')) := by simp only [call, ht]
        obtain ⟨h1, h2, h3, h4⟩ := ih r w'
        have hr : result = (.error e :: (calls (call target predicate) ps (r, w')).1, (calls (call target predicate) ps (r, w')).2) := by
          show calls (call target predicate) (q :: ps) (r, w) = _
          rw [calls, hc]
        have hd : direct = (.error e :: (directly target ps w').1, (directly target ps w').2) := by
          show calls (fun p w => target w p) (q :: ps) w = _
          rw [calls, ht]
          rfl
        rw [hr, hd]
        exact ⟨by rw [h1], h2, h3, h4⟩
      | ok v =>
        set r' : Recorder (Entry S V) := ⟨r.callNumber + 1, if p v q r.callNumber then r.history ++ [⟨r.callNumber, q, v⟩] else r.history⟩ with hr'
        have hc : call target predicate q (r, w) = (.ok v, (r', w')) := by
          simp only [call, ht, hp, hr']
        obtain ⟨h1, h2, h3, h4⟩ := ih r' w'
        have hr : result = (.ok v :: (calls (call target predicate) ps (r', w')).1, (calls (call target predicate) ps (r', w')).2) := by
          show calls (call target predicate) (q :: ps) (r, w) = _
          rw [calls, hc]
        have hd : direct = (.ok v :: (directly target ps w').1, (directly target ps w').2) := by
          show calls (fun p w => target w p) (q :: ps) w = _
          rw [calls, ht]
          rfl
        rw [hr, hd]
        refine ⟨by rw [h1], h2, ?_, ?_⟩
        · rw [h3]
          show _ = r.history ++ selected p r.callNumber ((q, v) :: succeeded ps (directly target ps w').1)
          rw [selected_cons, ← List.append_assoc]
          congr 1
          show (if p v q r.callNumber then r.history ++ [⟨r.callNumber, q, v⟩] else r.history) = _
          split <;> simp
        · rw [h4]
          show r.callNumber + 1 + _ = r.callNumber + ((q, v) :: succeeded ps (directly target ps w').1).length
          rw [List.length_cons]
          ring

/-- C30. A call that raises (in the target or in the save condition) leaves the recorder as it was. -/
theorem call_raises (target : Target W E S V) (predicate : SaveCondition E S V) (q : S) (r : Recorder (Entry S V)) (w : W) (e : E)
    (h : (call target predicate q (r, w)).1 = .error e) : (call target predicate q (r, w)).2.1 = r := by
  unfold call at h ⊢
  split at h
  · rfl
  · split at h
    · rename_i _ _ _ ht _ _ hp
      simp only [ht, hp] at h ⊢
    · cases h

/-- C30. The default condition saves every call. -/
theorem always_spec (k : ℕ) (l : List (S × V)) : selected (fun _ _ _ => true) k l = (l.zipIdx k).map fun x => ⟨x.2, x.1.1, x.1.2⟩ := by
  simp [selected]

theorem always_total : ∀ v s k, (always : SaveCondition E S V) v s k = .ok true := fun _ _ _ => rfl

/-- C30. `every_nth(n)` selects the call numbers divisible by `n`, and raises for `n = 0`. -/
theorem everyNth_spec (z : E) (n : ℤ) : (n ≠ 0 → ∀ v s k, (everyNth z n : SaveCondition E S V) v s k = .ok (decide (n ∣ (k : ℤ)))) ∧
    (n = 0 → ∀ v s k, (everyNth z n : SaveCondition E S V) v s k = .error z) := by
  refine ⟨fun h v s k => ?_, fun h v s k => by simp [everyNth, h]⟩
  rw [everyNth, if_neg h]
  congr 1
  rw [decide_eq_decide]
  exact (Int.dvd_iff_emod_eq_zero).symm

/-! ### Artifacts -/

/-- Specification: the artifact stored last under a name. -/
def lastStored : List (Store A) → String → Option A
  | [], _ => none
  | s :: l, name => (lastStored l name).or (if s.name = name then some s.artifact else none)

theorem store_spec (l : List (Store A)) (d : PyDict String A) (b : Bool) :
    (∀ name, get? (l.foldl store (d, b)).1 name = (lastStored l name).or (get? d name)) ∧
      ((l.foldl store (d, b)).2 = true ↔ b = true ∨ ∃ s ∈ l, s.force = true) := by
  induction l generalizing d b with
  | nil => simp [lastStored]
  | cons s l ih =>
    rw [List.foldl_cons, store]
    obtain ⟨h1, h2⟩ := ih (PyDict.set d s.name s.artifact) (if s.force then true else b)
    refine ⟨fun name => ?_, ?_⟩
    · rw [h1, get?_set, lastStored, Option.or_assoc]
      congr 1
      split <;> simp
    · rw [h2]
      cases hf : s.force <;> simp [hf]

/-- Specification: the successful calls with the artifacts they stored. -/
def succeededWith : List S → List (Except E V × List (Store A)) → List (S × V × List (Store A))
  | p :: ps, (.ok v, l) :: rs => (p, v, l) :: succeededWith ps rs
  | _ :: ps, (.error _, _) :: rs => succeededWith ps rs
  | _, _ => []

/-- Specification: using the function directly, keeping what it stores. -/
def directlyWith (target : ArtifactTarget W E S V A) : List S → W → List (Except E V × List (Store A)) × W
  | [], w => ([], w)
  | p :: ps, w => let r := target w p; let rest := directlyWith target ps r.2; (r.1 :: rest.1, rest.2)

/-- Specification: an entry belongs to the call numbered `k` with the given parameters, value and stored artifacts. -/
def IsEntryOf (e : ArtifactEntry S V A) (x : (S × V × List (Store A)) × ℕ) : Prop :=
  e.callNumber = x.2 ∧ e.params = x.1.1 ∧ e.value = x.1.2.1 ∧ ∀ name, get? e.artifacts name = lastStored x.1.2.2 name

/-- Specification: the call is to be saved: the condition holds or an artifact was stored with `force`. -/
def Saved (p : V → S → ℕ → Bool) (x : (S × V × List (Store A)) × ℕ) : Prop := p x.1.2.1 x.1.1 x.2 = true ∨ ∃ s ∈ x.1.2.2, s.force = true

open Classical in
/-- C30, for functions that store artifacts: the history grows by exactly the successful calls for which the condition holds or an artifact was forced, and
each entry holds the artifacts its own call stored (the last one under each name). -/
theorem artifactRecorder_spec (target : ArtifactTarget W E S V A) (predicate : SaveCondition E S V) (p : V → S → ℕ → Bool)
    (hp : ∀ v s k, predicate v s k = .ok (p v s k)) (ps : List S) (r : Recorder (ArtifactEntry S V A)) (w : W) :
    let result := calls (callWithArtifacts target predicate) ps (r, w)
    let direct := directlyWith target ps w
    result.1 = direct.1.map Prod.fst ∧ result.2.2 = direct.2 ∧
      (∃ new, result.2.1.history = r.history ++ new ∧
        List.Forall₂ IsEntryOf new (((succeededWith ps direct.1).zipIdx r.callNumber).filter fun x => Saved p x)) ∧
      result.2.1.callNumber = r.callNumber + (succeededWith ps direct.1).length := by
  induction ps generalizing r w with
  | nil => exact ⟨rfl, rfl, ⟨[], by simp [calls], .nil⟩, rfl⟩
  | cons q ps ih =>
    intro result direct
    cases ht : target w q with
    | mk ol w' =>
      obtain ⟨o, l⟩ := ol
      have hd : direct = ((o, l) :: (directlyWith target ps w').1, (directlyWith target ps w').2) := by
        show directlyWith target (q :: ps) w = _
        rw [directlyWith, ht]
      cases o with
      | error e =>
        have hc : callWithArtifacts target predicate q (r, w) = (.error e, (r, w')) := by simp only [callWithArtifacts, ht]
        obtain ⟨h1, h2, h3, h4⟩ := ih r w'
        have hr : result = (.error e :: (calls (callWithArtifacts target predicate) ps (r, w')).1, (calls (callWithArtifacts target predicate) ps (r, w')).2) := by
          show calls (callWithArtifacts target predicate) (q :: ps) (r, w) = _
          rw [calls, hc]
        rw [hr, hd]
        exact ⟨by rw [List.map_cons, h1], h2, h3, h4⟩
      | ok v =>
        obtain ⟨s1, s2⟩ := store_spec l ([] : PyDict String A) false
        set art := l.foldl store ([], false) with hart
        set r' : Recorder (ArtifactEntry S V A) := ⟨r.callNumber + 1,
          if (p v q r.callNumber || art.2) = true then r.history ++ [⟨r.callNumber, q, v, art.1⟩] else r.history⟩ with hr'
        have hc : callWithArtifacts target predicate q (r, w) = (.ok v, (r', w')) := by
          simp only [callWithArtifacts, ht, hp, hr', hart]
        obtain ⟨h1, h2, ⟨new, h3, h5⟩, h4⟩ := ih r' w'
        have hr : result = (.ok v :: (calls (callWithArtifacts target predicate) ps (r', w')).1, (calls (callWithArtifacts target predicate) ps (r', w')).2) := by
          show calls (callWithArtifacts target predicate) (q :: ps) (r, w) = _
          rw [calls, hc]
        have hsaved : (p v q r.callNumber || art.2) = true ↔ Saved p ((q, v, l), r.callNumber) := by
          rw [Bool.or_eq_true, s2]
          simp [Saved]
        rw [hr, hd]
        refine ⟨by rw [List.map_cons, h1], h2, ?_, ?_⟩
        · show ∃ new, _ ∧ List.Forall₂ IsEntryOf new ((((q, v, l) :: succeededWith ps (directlyWith target ps w').1).zipIdx r.callNumber).filter _)
          rw [List.zipIdx_cons, List.filter_cons]
          by_cases hs : Saved p ((q, v, l), r.callNumber)
          · rw [if_pos (by simpa using hs)]
            refine ⟨⟨r.callNumber, q, v, art.1⟩ :: new, ?_, .cons ⟨rfl, rfl, rfl, fun name => ?_⟩ h5⟩
            · rw [h3]
              show (if (p v q r.callNumber || art.2) = true then r.history ++ [⟨r.callNumber, q, v, art.1⟩] else r.history) ++ new = _
              rw [if_pos (hsaved.2 hs)]
              simp
            · show get? art.1 name = _
              rw [s1]
              simp [get?]
          · rw [if_neg (by simpa using hs)]
            refine ⟨new, ?_, h5⟩
            rw [h3]
            show (if (p v q r.callNumber || art.2) = true then r.history ++ [⟨r.callNumber, q, v, art.1⟩] else r.history) ++ new = _
            rw [if_neg (fun h => hs (hsaved.1 h))]
        · rw [h4]
          show r.callNumber + 1 + _ = r.callNumber + ((q, v, l) :: succeededWith ps (directlyWith target ps w').1).length
          rw [List.length_cons]
          ring

/-! ### Gradients -/

/-- Specification: the uses of the value and of the gradient, performed without recorders. -/
def directlyBoth {G : Type} (target : Target W E S V) (gradient : Target W E S G) : List (GradientUse S) → W → List (Except E (V ⊕ G)) × W
  | [], w => ([], w)
  | .value p :: us, w => let r := target w p; let rest := directlyBoth target gradient us r.2; (r.1.map Sum.inl :: rest.1, rest.2)
  | .gradient p :: us, w => let r := gradient w p; let rest := directlyBoth target gradient us r.2; (r.1.map Sum.inr :: rest.1, rest.2)

/-- Specification: the successful uses of the value. -/
def valueUses {G : Type} : List (GradientUse S) → List (Except E (V ⊕ G)) → List (S × V)
  | .value p :: us, .ok (.inl v) :: rs => (p, v) :: valueUses us rs
  | _ :: us, _ :: rs => valueUses us rs
  | _, _ => []

/-- Specification: the successful uses of the gradient. -/
def gradientUses {G : Type} : List (GradientUse S) → List (Except E (V ⊕ G)) → List (S × G)
  | .gradient p :: us, .ok (.inr v) :: rs => (p, v) :: gradientUses us rs
  | _ :: us, _ :: rs => gradientUses us rs
  | _, _ => []

/-- C30, for functions with gradient: the two histories record the uses of the value and of the gradient separately, each with its own call numbers. -/
theorem gradientRecorder_spec {G : Type} (target : Target W E S V) (gradient : Target W E S G) (predicate : SaveCondition E S V)
    (predicate' : SaveCondition E S G) (p : V → S → ℕ → Bool) (p' : G → S → ℕ → Bool) (hp : ∀ v s k, predicate v s k = .ok (p v s k))
    (hp' : ∀ v s k, predicate' v s k = .ok (p' v s k)) (us : List (GradientUse S)) (r : Recorder (Entry S V)) (g : Recorder (Entry S G)) (w : W) :
    let result := calls (callWithGradient target gradient predicate predicate') us ((r, g), w)
    let direct := directlyBoth target gradient us w
    result.1 = direct.1 ∧ result.2.2 = direct.2 ∧
      result.2.1.1.history = r.history ++ selected p r.callNumber (valueUses us direct.1) ∧
      result.2.1.2.history = g.history ++ selected p' g.callNumber (gradientUses us direct.1) := by
  induction us generalizing r g w with
  | nil => simp [calls, directlyBoth, valueUses, gradientUses, selected]
  | cons u us ih =>
    intro result direct
    have hr : result = ((callWithGradient target gradient predicate predicate' u ((r, g), w)).1 ::
        (calls (callWithGradient target gradient predicate predicate') us (callWithGradient target gradient predicate predicate' u ((r, g), w)).2).1,
        (calls (callWithGradient target gradient predicate predicate') us (callWithGradient target gradient predicate predicate' u ((r, g), w)).2).2) := rfl
    cases u with
    | value q =>
      cases ht : target w q with
      | mk o w' =>
        have hd : direct = (o.map Sum.inl :: (directlyBoth target gradient us w').1, (directlyBoth target gradient us w').2) := by
          show directlyBoth target gradient (.value q :: us) w = _
          rw [directlyBoth, ht]
        cases o with
        | error e =>
          have hc : callWithGradient target gradient predicate predicate' (.value q) ((r, g), w) = (.error e, ((r, g), w')) := by
            simp only [callWithGradient, call, ht]; rfl
          obtain ⟨h1, h2, h3, h4⟩ := ih r g w'
          rw [hr, hd, hc]
          exact ⟨by rw [h1]; rfl, h2, h3, h4⟩
        | ok v =>
          set r' : Recorder (Entry S V) := ⟨r.callNumber + 1, if p v q r.callNumber then r.history ++ [⟨r.callNumber, q, v⟩] else r.history⟩ with hr'
          have hc : callWithGradient target gradient predicate predicate' (.value q) ((r, g), w) = (.ok (.inl v), ((r', g), w')) := by
            simp only [callWithGradient, call, ht, hp, hr']; rfl
          obtain ⟨h1, h2, h3, h4⟩ := ih r' g w'
          rw [hr, hd, hc]
          refine ⟨by rw [h1]; rfl, h2, ?_, h4⟩
          rw [h3]
          show _ = r.history ++ selected p r.callNumber ((q, v) :: valueUses us (directlyBoth target gradient us w').1)
          rw [selected_cons, ← List.append_assoc]
          congr 1
          show (if p v q r.callNumber then r.history ++ [⟨r.callNumber, q, v⟩] else r.history) = _
          split <;> simp
    | gradient q =>
      cases ht : gradient w q with
      | mk o w' =>
        have hd : direct = (o.map Sum.inr :: (directlyBoth target gradient us w').1, (directlyBoth target gradient us w').2) := by
          show directlyBoth target gradient (.gradient q :: us) w = _
          rw [directlyBoth, ht]
        cases o with
        | error e =>
          have hc : callWithGradient target gradient predicate predicate' (.gradient q) ((r, g), w) = (.error e, ((r, g), w')) := by
            simp only [callWithGradient, call, ht]; rfl
          obtain ⟨h1, h2, h3, h4⟩ := ih r g w'
          rw [hr, hd, hc]
          exact ⟨by rw [h1]; rfl, h2, h3, h4⟩
        | ok v =>
          set g' : Recorder (Entry S G) := ⟨g.callNumber + 1, if p' v q g.callNumber then g.history ++ [⟨g.callNumber, q, v⟩] else g.history⟩ with hg'
          have hc : callWithGradient target gradient predicate predicate' (.gradient q) ((r, g), w) = (.ok (.inr v), ((r, g'), w')) := by
            simp only [callWithGradient, call, ht, hp', hg']; rfl
          obtain ⟨h1, h2, h3, h4⟩ := ih r g' w'
          rw [hr, hd, hc]
          refine ⟨by rw [h1]; rfl, h2, h3, ?_⟩
          rw [h4]
          show _ = g.history ++ selected p' g.callNumber ((q, v) :: gradientUses us (directlyBoth target gradient us w').1)
          rw [selected_cons, ← List.append_assoc]
          congr 1
          show (if p' v q g.callNumber then g.history ++ [⟨g.callNumber, q, v⟩] else g.history) = _
          split <;> simp

/-- C30. The recorder offers a gradient exactly if the function has one, and stores artifacts exactly if the function does. -/
theorem chooseClass_spec (a g : Bool) : (chooseClass a g = .artifact ∨ chooseClass a g = .artifactWithGradient ↔ a = true) ∧
    (chooseClass a g = .simpleWithGradient ∨ chooseClass a g = .artifactWithGradient ↔ g = true) := by
  cases a <;> cases g <;> decide

/-- A case: a counting target, saved every second call, the third call raising. -/
example : (calls (call (W := ℕ) (E := String) (S := ℕ) (V := ℕ) (fun w s => if s = 7 then (.error "boom", w) else (.ok (s + w), w + 1)) (everyNth "zero" 2))
    [3, 4, 7, 5] (fresh, 10)).2.1.history = [⟨0, 3, 13⟩, ⟨2, 5, 17⟩] := by
  decide

/-! ### Copies (C67) -/

/-- What recorder `i` shows: its call number and its history. -/
def view (st : Session S V W) (i : ℕ) : Option (ℕ × List (Entry S V)) := (st.recorders[i]?).map fun nr => (nr.1, st.heap.getD nr.2 [])

/-- All references are valid. -/
def Session.Ok (st : Session S V W) : Prop := ∀ nr ∈ st.recorders, nr.2 < st.heap.length

/-- No other recorder has the history list of recorder `j`. -/
def Separate (st : Session S V W) (j : ℕ) : Prop :=
  ∀ i, i ≠ j → ∀ a ∈ st.recorders[i]?, ∀ b ∈ st.recorders[j]?, a.2 ≠ b.2

/-- Two recorders have the same history list. -/
def Shared (st : Session S V W) (i j : ℕ) : Prop := ∃ a b, st.recorders[i]? = some a ∧ st.recorders[j]? = some b ∧ a.2 = b.2

/-- A sequence of calls, each through some recorder of the session. -/
def sessionCalls (target : Target W E S V) (predicate : SaveCondition E S V) (st : Session S V W) (cs : List (ℕ × S)) : Session S V W :=
  cs.foldl (fun st c => sessionStep target predicate st (.call c.1 c.2)) st

variable (target : Target W E S V) (predicate : SaveCondition E S V)

theorem sessionStep_refs (st : Session S V W) (k : ℕ) (p : S) (i : ℕ) :
    ((sessionStep target predicate st (.call k p)).recorders[i]?).map Prod.snd = (st.recorders[i]?).map Prod.snd ∧
      (sessionStep target predicate st (.call k p)).heap.length = st.heap.length ∧
      (k ≠ i → (sessionStep target predicate st (.call k p)).recorders[i]? = st.recorders[i]?) := by
  rw [sessionStep]
  cases hk : st.recorders[k]? with
  | none => exact ⟨rfl, rfl, fun _ => rfl⟩
  | some nr =>
    obtain ⟨n, ref⟩ := nr
    refine ⟨?_, by simp, fun h => by simp [h]⟩
    by_cases h : k = i
    · subst h
      rw [hk]
      have hlt : k < st.recorders.length := (List.getElem?_eq_some_iff.1 hk).1
      simp [hlt]
    · simp [h]

theorem step_ok {st : Session S V W} (h : st.Ok) (k : ℕ) (p : S) : (sessionStep target predicate st (.call k p)).Ok := by
  intro nr hnr
  obtain ⟨i, hi⟩ := List.mem_iff_getElem?.1 hnr
  obtain ⟨h1, h2, -⟩ := sessionStep_refs target predicate st k p i
  rw [hi] at h1
  rw [h2]
  cases hs : st.recorders[i]? with
  | none => rw [hs] at h1; cases h1
  | some a =>
    rw [hs] at h1
    have h1 : nr.2 = a.2 := by simpa using h1
    rw [h1]
    exact h a (List.mem_of_getElem? hs)

theorem step_separate {st : Session S V W} {j : ℕ} (h : Separate st j) (k : ℕ) (p : S) : Separate (sessionStep target predicate st (.call k p)) j := by
  intro i hij a ha b hb
  have h1 := (sessionStep_refs target predicate st k p i).1
  have h2 := (sessionStep_refs target predicate st k p j).1
  rw [Option.mem_def] at ha hb
  rw [ha] at h1
  rw [hb] at h2
  cases hi : st.recorders[i]? with
  | none => rw [hi] at h1; cases h1
  | some a' =>
    cases hj : st.recorders[j]? with
    | none => rw [hj] at h2; cases h2
    | some b' =>
      rw [hi] at h1
      rw [hj] at h2
      have h1 : a.2 = a'.2 := by simpa using h1
      have h2 : b.2 = b'.2 := by simpa using h2
      rw [h1, h2]
      exact h i hij a' hi b' hj

/-- A call through `k` does not show in a recorder with another history list. -/
theorem step_view {st : Session S V W} {i k : ℕ} (hne : i ≠ k)
    (hd : ∀ a ∈ st.recorders[i]?, ∀ b ∈ st.recorders[k]?, a.2 ≠ b.2) (p : S) :
    view (sessionStep target predicate st (.call k p)) i = view st i := by
  rw [view, view, (sessionStep_refs target predicate st k p i).2.2 hne.symm]
  cases hi : st.recorders[i]? with
  | none => rfl
  | some a =>
    simp only [Option.map_some, Option.some.injEq, Prod.mk.injEq, true_and]
    rw [sessionStep]
    cases hk : st.recorders[k]? with
    | none => rfl
    | some b =>
      obtain ⟨n, ref⟩ := b
      have := hd a hi (n, ref) hk
      simp [List.getD_eq_getElem?_getD, List.getElem?_set_ne this.symm]

/-- C67. A deep copy shows the number and history of the original at that moment, shares its history list with no other recorder, and changes no other view. -/
theorem deepcopy_spec {st : Session S V W} (h : st.Ok) {i : ℕ} (hi : i < st.recorders.length) :
    let st' := sessionStep target predicate st (.deepcopy i)
    st'.Ok ∧ view st' st.recorders.length = view st i ∧ Separate st' st.recorders.length ∧ ∀ k, k < st.recorders.length → view st' k = view st k := by
  obtain ⟨⟨n, ref⟩, hnr⟩ : ∃ nr, st.recorders[i] = nr := ⟨_, rfl⟩
  have hget : st.recorders[i]? = some (n, ref) := by rw [List.getElem?_eq_getElem hi, hnr]
  have hst : sessionStep target predicate st (.deepcopy i) =
      ⟨st.recorders ++ [(n, st.heap.length)], st.heap ++ [st.heap.getD ref []], st.world⟩ := by
    rw [sessionStep, hget]
  intro st'
  have hst' : st' = ⟨st.recorders ++ [(n, st.heap.length)], st.heap ++ [st.heap.getD ref []], st.world⟩ := hst
  rw [hst']
  refine ⟨?_, ?_, ?_, ?_⟩
  · intro nr hnr
    show nr.2 < (st.heap ++ [st.heap.getD ref []]).length
    rw [List.length_append, List.length_singleton]
    rcases List.mem_append.1 hnr with h' | h'
    · have := h nr h'; omega
    · rw [List.mem_singleton] at h'; subst h'; show st.heap.length < _; omega
  · simp [view, hget]
  · intro k hk a ha b hb
    simp only [Option.mem_def] at ha hb
    rw [List.getElem?_concat_length] at hb
    cases hb
    by_cases hkl : k < st.recorders.length
    · rw [List.getElem?_append_left hkl] at ha
      have := h a (List.mem_of_getElem? ha)
      omega
    · rw [List.getElem?_eq_none (by simp; omega)] at ha
      cases ha
  · intro k hk
    have hg : st.recorders[k]? = some st.recorders[k] := List.getElem?_eq_getElem hk
    simp only [view, List.getElem?_append_left hk, hg, Option.map_some, Option.some.injEq, Prod.mk.injEq, true_and]
    have := h st.recorders[k] (List.getElem_mem hk)
    simp [List.getD_eq_getElem?_getD, List.getElem?_append_left this]

/-- C67. A recorder that shares its list with no other is not affected by calls through the others, and calls through it do not affect the others. -/
theorem separate_independent (j : ℕ) : ∀ (cs : List (ℕ × S)) (st : Session S V W), Separate st j →
    ((∀ c ∈ cs, c.1 ≠ j) → view (sessionCalls target predicate st cs) j = view st j) ∧
      ((∀ c ∈ cs, c.1 = j) → ∀ k, k ≠ j → view (sessionCalls target predicate st cs) k = view st k) := by
  intro cs
  induction cs with
  | nil => intro st _; exact ⟨fun _ => rfl, fun _ _ _ => rfl⟩
  | cons c cs ih =>
    intro st h
    obtain ⟨h1, h2⟩ := ih _ (step_separate target predicate h c.1 c.2)
    rw [sessionCalls, List.foldl_cons] at *
    refine ⟨fun hc => ?_, fun hc k hk => ?_⟩
    · have hne := hc c (by simp)
      refine (h1 fun d hd => hc d (by simp [hd])).trans (step_view target predicate hne.symm (fun a ha b hb e => ?_) c.2)
      exact h c.1 hne b hb a ha e.symm
    · have he := hc c (by simp)
      refine (h2 (fun d hd => hc d (by simp [hd])) k hk).trans (step_view target predicate (by rw [he]; exact hk) (fun a ha b hb e => ?_) c.2)
      rw [he] at hb
      exact h k hk a ha b hb e

/-- C67. A shallow copy shows the number and history of the original and shares its list; recorders that share a list show the same history after any calls. -/
theorem copy_shared (cs : List (ℕ × S)) {st : Session S V W} {i j : ℕ} (h : Shared st i j) :
    Shared (sessionCalls target predicate st cs) i j ∧
      (view (sessionCalls target predicate st cs) i).map Prod.snd = (view (sessionCalls target predicate st cs) j).map Prod.snd := by
  have hv : ∀ st : Session S V W, Shared st i j → (view st i).map Prod.snd = (view st j).map Prod.snd := by
    rintro st ⟨a, b, ha, hb, hab⟩
    simp [view, ha, hb, hab]
  have hs : ∀ (cs : List (ℕ × S)) (st : Session S V W), Shared st i j → Shared (sessionCalls target predicate st cs) i j := by
    intro cs
    induction cs with
    | nil => intro st h; exact h
    | cons c cs ih =>
      rintro st ⟨a, b, ha, hb, hab⟩
      rw [sessionCalls, List.foldl_cons]
      apply ih
      have h1 := (sessionStep_refs target predicate st c.1 c.2 i).1
      have h2 := (sessionStep_refs target predicate st c.1 c.2 j).1
      rw [ha, Option.map_some, Option.map_eq_some_iff] at h1
      rw [hb, Option.map_some, Option.map_eq_some_iff] at h2
      obtain ⟨a', h1, h1'⟩ := h1
      obtain ⟨b', h2, h2'⟩ := h2
      exact ⟨a', b', h1, h2, by rw [h1', h2', hab]⟩
  exact ⟨hs cs st h, hv _ (hs cs st h)⟩

theorem copy_spec {st : Session S V W} {i : ℕ} (hi : i < st.recorders.length) :
    let st' := sessionStep target predicate st (.copy i)
    view st' st.recorders.length = view st i ∧ Shared st' i st.recorders.length ∧ ∀ k, k < st.recorders.length → view st' k = view st k := by
  obtain ⟨⟨n, ref⟩, hnr⟩ : ∃ nr, st.recorders[i] = nr := ⟨_, rfl⟩
  have hget : st.recorders[i]? = some (n, ref) := by rw [List.getElem?_eq_getElem hi, hnr]
  have hst : sessionStep target predicate st (.copy i) = ⟨st.recorders ++ [(n, ref)], st.heap, st.world⟩ := by rw [sessionStep, hget]
  intro st'
  have hst' : st' = ⟨st.recorders ++ [(n, ref)], st.heap, st.world⟩ := hst
  rw [hst']
  refine ⟨by simp [view, hget], ⟨(n, ref), (n, ref), ?_, by simp, rfl⟩, fun k hk => ?_⟩
  · show (st.recorders ++ [(n, ref)])[i]? = _
    rw [List.getElem?_append_left hi, hget]
  · simp [view, List.getElem?_append_left hk]

/-- A session: a recorder, its shallow and its deep copy. A call through the shallow copy shows in the original, with a number the original will use again. -/
example : let step := sessionStep (W := Unit) (E := String) (S := ℕ) (V := ℕ) (fun w s => (.ok s, w)) always
    let st := [SessionUse.copy 0, .deepcopy 0, .call 1 5, .call 0 6].foldl step ⟨[(0, 0)], [[]], ()⟩
    view st 0 = some (1, [⟨0, 5, 5⟩, ⟨0, 6, 6⟩]) ∧ view st 2 = some (0, []) := by
  decide

end ZQ.History
