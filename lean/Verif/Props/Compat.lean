import Verif.Spec.Compat
import Mathlib.Data.List.Forall2

/-! # C113: functions that also accept objects of an old type -/

namespace ZQ.Compat

variable {α β ω : Type}

theorem translateAll_ok (S : Setup α) : ∀ (l l' : List (Obj α)), translateAll S l = some l' ↔ List.Forall₂ (fun o o' => translateIfNeeded S o = some o') l l' := by
  intro l
  induction l with
  | nil => intro l'; rw [translateAll]; constructor
           · intro h; injection h with h; rw [← h]; exact .nil
           · intro h; cases h; rfl
  | cons o l ih =>
    intro l'
    rw [translateAll]
    constructor
    · intro h
      cases ho : translateIfNeeded S o with
      | none => rw [ho] at h; cases h
      | some o' =>
        rw [ho, Option.bind_some] at h
        cases hl : translateAll S l with
        | none => rw [hl] at h; cases h
        | some m =>
          rw [hl] at h
          injection h with h
          rw [← h]
          exact .cons ho ((ih m).1 hl)
    · intro h
      cases h with
      | cons h1 h2 => rw [h1, Option.bind_some, (ih _).2 h2]; rfl

/-- Induction over objects and the items of sequences. -/
theorem Obj.ind {P : Obj α → Prop} (hatom : ∀ a, P (.atom a)) (hseq : ∀ t items, (∀ i ∈ items, P i) → P (.seq t items)) : ∀ o, P o
  | .atom a => hatom a
  | .seq t items => hseq t items fun i _ => Obj.ind hatom hseq i

theorem translate_iff (S : Setup α) (hw : S.warnRaises = false) : ∀ o o', translateIfNeeded S o = some o' ↔ Becomes S o o' := by
  have hold : ∀ o, translateOld S o = S.translate o := fun o => by rw [translateOld, hw]; rfl
  intro o
  induction o using Obj.ind with
  | hatom a =>
    intro o'
    rw [translateIfNeeded, hold]
    cases h : S.isOld (.atom a) with
    | true =>
      rw [if_pos rfl]
      exact ⟨fun e => .old h e, fun b => by cases b with
        | old _ e => exact e
        | atom e => rw [h] at e; cases e⟩
    | false =>
      rw [if_neg (by simp)]
      refine ⟨fun e => ?_, fun b => ?_⟩
      · injection e with e; rw [← e]; exact .atom h
      · cases b with
        | old e _ => rw [h] at e; cases e
        | atom _ => rfl
  | hseq t items ih =>
    intro o'
    rw [translateIfNeeded, hold]
    cases h : S.isOld (.seq t items) with
    | true =>
      rw [if_pos rfl]
      exact ⟨fun e => .old h e, fun b => by cases b with
        | old _ e => exact e
        | considered e _ => rw [h] at e; cases e
        | other e _ => rw [h] at e; cases e⟩
    | false =>
      rw [if_neg (by simp)]
      by_cases ht : t ∈ S.considered
      · rw [if_pos ht]
        constructor
        · intro e
          cases hl : translateAll S items with
          | none => rw [hl] at e; cases e
          | some l' =>
            rw [hl] at e
            injection e with e
            rw [← e]
            have hf := (translateAll_ok S items l').1 hl
            rw [List.forall₂_iff_get] at hf
            exact .considered h ht hf.1 fun i h1 h2 => (ih _ (List.getElem_mem h1) _).1 (hf.2 i h1 h2)
        · intro b
          cases b with
          | old e _ => rw [h] at e; cases e
          | considered _ _ e1 e2 =>
            rw [(translateAll_ok S items _).2]
            · rfl
            · rw [List.forall₂_iff_get]
              exact ⟨e1, fun i h1 h2 => (ih _ (List.getElem_mem h1) _).2 (e2 i h1 h2)⟩
          | other _ e => exact absurd ht e
      · rw [if_neg ht]
        refine ⟨fun e => ?_, fun b => ?_⟩
        · injection e with e; rw [← e]; exact .other h ht
        · cases b with
          | old e _ => rw [h] at e; cases e
          | considered _ e _ => exact absurd e ht
          | other _ _ => rfl

theorem translateAll_none (S : Setup α) (l : List (Obj α)) : translateAll S l = none ↔ ∃ o ∈ l, translateIfNeeded S o = none := by
  induction l with
  | nil => rw [translateAll]; simp
  | cons o l ih =>
    rw [translateAll]
    cases ho : translateIfNeeded S o with
    | none => simp [ho]
    | some o' =>
      rw [Option.bind_some, Option.map_eq_none_iff, ih]
      simp [ho]

/-- C113: an argument cannot be translated exactly if an old object is found in it whose translation raises an exception. With warnings turned into exceptions, every old object is such an object. -/
theorem translate_fails (S : Setup α) (o : Obj α) : translateIfNeeded S o = none ↔ ∃ x, Finds S o x ∧ (S.warnRaises = true ∨ S.translate x = none) := by
  have hold : ∀ o, translateOld S o = none ↔ (S.warnRaises = true ∨ S.translate o = none) := by
    intro o
    rw [translateOld]
    cases h : S.warnRaises with
    | true => simp
    | false => simp
  induction o using Obj.ind with
  | hatom a =>
    rw [translateIfNeeded]
    cases h : S.isOld (.atom a) with
    | true =>
      rw [if_pos rfl, hold]
      exact ⟨fun e => ⟨_, .here h, e⟩, fun ⟨x, hx, e⟩ => by cases hx with
        | here _ => exact e⟩
    | false =>
      rw [if_neg (by simp)]
      exact ⟨fun e => (nomatch e), fun ⟨x, hx, e⟩ => by cases hx with
        | here e' => rw [h] at e'; cases e'⟩
  | hseq t items ih =>
    rw [translateIfNeeded]
    cases h : S.isOld (.seq t items) with
    | true =>
      rw [if_pos rfl, hold]
      exact ⟨fun e => ⟨_, .here h, e⟩, fun ⟨x, hx, e⟩ => by cases hx with
        | here _ => exact e
        | inside e _ _ _ => rw [h] at e; cases e⟩
    | false =>
      rw [if_neg (by simp)]
      by_cases ht : t ∈ S.considered
      · rw [if_pos ht, Option.map_eq_none_iff, translateAll_none]
        constructor
        · rintro ⟨i, hi, e⟩
          obtain ⟨x, hx, e⟩ := (ih i hi).1 e
          exact ⟨x, .inside h ht hi hx, e⟩
        · rintro ⟨x, hx, e⟩
          cases hx with
          | here e' => rw [h] at e'; cases e'
          | inside _ _ hi hx => exact ⟨_, hi, (ih _ hi).2 ⟨x, hx, e⟩⟩
      · rw [if_neg ht]
        refine ⟨fun e => (nomatch e), fun ⟨x, hx, e⟩ => ?_⟩
        cases hx with
        | here e' => rw [h] at e'; cases e'
        | inside _ e' _ _ => exact absurd e' ht

/-- C113: an argument in which no old object is found is passed on unchanged. -/
theorem translate_same (S : Setup α) (o : Obj α) (h : ∀ x, ¬ Finds S o x) : translateIfNeeded S o = some o := by
  induction o using Obj.ind with
  | hatom a =>
    rw [translateIfNeeded, if_neg]
    exact fun e => h _ (.here e)
  | hseq t items ih =>
    have hn : ¬ S.isOld (.seq t items) = true := fun e => h _ (.here e)
    rw [translateIfNeeded, if_neg hn]
    by_cases ht : t ∈ S.considered
    · rw [if_pos ht, (translateAll_ok S items items).2]
      · rfl
      · rw [List.forall₂_same]
        exact fun i hi => ih i hi fun x hx => h x (.inside (by simpa using hn) ht hi hx)
    · rw [if_neg ht]

theorem translateKwargs_ok (S : Setup α) : ∀ (l l' : List (String × Obj α)), translateKwargs S l = some l' ↔
    List.Forall₂ (fun o o' => o.1 = o'.1 ∧ translateIfNeeded S o.2 = some o'.2) l l' := by
  intro l
  induction l with
  | nil => intro l'; rw [translateKwargs]; constructor
           · intro h; injection h with h; rw [← h]; exact .nil
           · intro h; cases h; rfl
  | cons o l ih =>
    intro l'
    rw [translateKwargs]
    constructor
    · intro h
      cases ho : translateIfNeeded S o.2 with
      | none => rw [ho] at h; cases h
      | some o' =>
        rw [ho, Option.bind_some] at h
        cases hl : translateKwargs S l with
        | none => rw [hl] at h; cases h
        | some m =>
          rw [hl] at h
          injection h with h
          rw [← h]
          exact .cons ⟨rfl, ho⟩ ((ih m).1 hl)
    · intro h
      cases h with
      | @cons _ b _ _ h1 h2 => rw [h1.2, Option.bind_some, (ih _).2 h2, h1.1]; rfl

theorem translateKwargs_none (S : Setup α) (l : List (String × Obj α)) : translateKwargs S l = none ↔ ∃ o ∈ l, translateIfNeeded S o.2 = none := by
  induction l with
  | nil => rw [translateKwargs]; simp
  | cons o l ih =>
    obtain ⟨k, o⟩ := o
    rw [translateKwargs]
    cases ho : translateIfNeeded S o with
    | none => simp [ho]
    | some o' =>
      rw [Option.bind_some, Option.map_eq_none_iff, ih]
      simp [ho]

/-- C113: if every old object in the arguments can be translated, the decorated function does what the function does with the translated arguments (names and order of the arguments are kept), unless
that call itself raises `TranslationFailed`. -/
theorem decorate_ok (S : Setup α) (hw : S.warnRaises = false) (fallback : Option (Fn α β ω)) (wrapped : Fn α β ω) {args args' : List (Obj α)} {kwargs kwargs' : List (String × Obj α)}
    (ha : List.Forall₂ (Becomes S) args args') (hk : List.Forall₂ (fun o o' => o.1 = o'.1 ∧ Becomes S o.2 o'.2) kwargs kwargs') (w : ω)
    (hr : ∀ w', wrapped args' kwargs' w ≠ (.error .translationFailed, w')) : decorate S fallback wrapped args kwargs w = wrapped args' kwargs' w := by
  have h1 := (translateAll_ok S args args').2 (ha.imp fun o o' h => (translate_iff S hw o o').2 h)
  have h2 := (translateKwargs_ok S kwargs kwargs').2 (hk.imp fun o o' h => ⟨h.1, (translate_iff S hw o.2 o'.2).2 h.2⟩)
  rw [decorate, h1, h2]
  dsimp only
  rcases h : wrapped args' kwargs' w with ⟨r, w'⟩
  cases r with
  | ok b => rfl
  | error e =>
    cases e with
    | translationFailed => exact absurd h (hr w')
    | other n => rfl

/-- C113: code that does not use old objects sees no difference, whatever the translation would do. -/
theorem decorate_new (S : Setup α) (fallback : Option (Fn α β ω)) (wrapped : Fn α β ω) {args : List (Obj α)} {kwargs : List (String × Obj α)}
    (ha : ∀ o ∈ args, ∀ x, ¬ Finds S o x) (hk : ∀ o ∈ kwargs, ∀ x, ¬ Finds S o.2 x) (w : ω)
    (hr : ∀ w', wrapped args kwargs w ≠ (.error .translationFailed, w')) : decorate S fallback wrapped args kwargs w = wrapped args kwargs w := by
  have h1 := (translateAll_ok S args args).2 (List.forall₂_same.2 fun o ho => translate_same S o (ha o ho))
  have h2 := (translateKwargs_ok S kwargs kwargs).2 (List.forall₂_same.2 fun o ho => ⟨rfl, translate_same S o.2 (hk o ho)⟩)
  rw [decorate, h1, h2]
  dsimp only
  rcases h : wrapped args kwargs w with ⟨r, w'⟩
  cases r with
  | ok b => rfl
  | error e =>
    cases e with
    | translationFailed => exact absurd h (hr w')
    | other n => rfl

/-- C113: if the translation of an old object in the arguments raises an exception, whichever, the function is not called: the fallback is called with the original arguments, or `TranslationFailed` is
raised if there is none. -/
theorem decorate_fails (S : Setup α) (fallback : Option (Fn α β ω)) (wrapped : Fn α β ω) {args : List (Obj α)} {kwargs : List (String × Obj α)}
    (h : ∃ o, (o ∈ args ∨ ∃ k, (k, o) ∈ kwargs) ∧ ∃ x, Finds S o x ∧ (S.warnRaises = true ∨ S.translate x = none)) (w : ω) :
    decorate S fallback wrapped args kwargs w = match fallback with
      | some f => f args kwargs w
      | none => (.error .translationFailed, w) := by
  obtain ⟨o, ho, hx⟩ := h
  have hn := (translate_fails S o).2 hx
  have : translateAll S args = none ∨ translateKwargs S kwargs = none := by
    rcases ho with ho | ⟨k, ho⟩
    · exact Or.inl ((translateAll_none S args).2 ⟨o, ho, hn⟩)
    · exact Or.inr ((translateKwargs_none S kwargs).2 ⟨(k, o), ho, hn⟩)
  rw [decorate]
  rcases this with h | h
  · rw [h]; rfl
  · rw [h]
    cases translateAll S args <;> rfl

theorem finds_becomes (S : Setup α) (hnew : ∀ o o', S.isOld o = true → S.translate o = some o' → ∀ x, ¬ Finds S o' x)
    (hsub : ∀ t items items', S.isOld (.seq t items) = false → S.isOld (.seq t items') = false) {o o' : Obj α} (h : Becomes S o o') : ∀ x, ¬ Finds S o' x := by
  induction h with
  | old h1 h2 => exact hnew _ _ h1 h2
  | @considered t items items' h1 h2 h3 h4 ih =>
    intro x hx
    cases hx with
    | here e => rw [hsub t items items' h1] at e; cases e
    | inside _ _ hi hx =>
      obtain ⟨i, hi', e⟩ := List.getElem_of_mem hi
      exact ih i (by omega) hi' x (by rw [e]; exact hx)
  | other h1 h2 =>
    intro x hx
    cases hx with
    | here e => rw [h1] at e; cases e
    | inside _ e _ _ => exact h2 e
  | atom h1 =>
    intro x hx
    cases hx with
    | here e => rw [h1] at e; cases e

/-- C113: decorating twice is decorating once, if translations contain no old objects and whether a sequence is old depends on its type only. -/
theorem decorate_twice (S : Setup α) (hw : S.warnRaises = false) (hnew : ∀ o o', S.isOld o = true → S.translate o = some o' → ∀ x, ¬ Finds S o' x)
    (hsub : ∀ t items items', S.isOld (.seq t items) = false → S.isOld (.seq t items') = false) (wrapped : Fn α β ω) (args : List (Obj α)) (kwargs : List (String × Obj α)) (w : ω) :
    decorate S none (decorate S none wrapped) args kwargs w = decorate S none wrapped args kwargs w := by
  cases h1 : translateAll S args with
  | none => rw [decorate, decorate, h1]
  | some args' =>
    cases h2 : translateKwargs S kwargs with
    | none => rw [decorate, decorate, h1, h2]
    | some kwargs' =>
      have s1 : translateAll S args' = some args' := (translateAll_ok S _ _).2 (List.forall₂_same.2 fun o' ho' => by
        have hf := (translateAll_ok S _ _).1 h1
        rw [List.forall₂_iff_get] at hf
        obtain ⟨i, hi, e⟩ := List.getElem_of_mem ho'
        have := hf.2 i (by rw [hf.1]; exact hi) hi
        rw [← e]
        exact translate_same S _ (finds_becomes S hnew hsub ((translate_iff S hw _ _).1 this)))
      have s2 : translateKwargs S kwargs' = some kwargs' := (translateKwargs_ok S _ _).2 (List.forall₂_same.2 fun o' ho' => by
        have hf := (translateKwargs_ok S _ _).1 h2
        rw [List.forall₂_iff_get] at hf
        obtain ⟨i, hi, e⟩ := List.getElem_of_mem ho'
        have := (hf.2 i (by rw [hf.1]; exact hi) hi).2
        rw [← e]
        exact ⟨rfl, translate_same S _ (finds_becomes S hnew hsub ((translate_iff S hw _ _).1 this))⟩)
      rw [decorate, h1, h2]
      dsimp only
      rw [decorate, s1, s2, decorate, h1, h2]
      dsimp only
      rcases h : wrapped args' kwargs' w with ⟨r, w'⟩
      cases r with
      | ok b => rfl
      | error e =>
        cases e with
        | translationFailed => rfl
        | other n => rfl

/-- C113 fails here: arguments without old objects can also lead to the fallback. If the function itself raises `TranslationFailed`, for example because it calls another decorated function, the fallback
runs after it, so what the function did to the world is done and the fallback adds to it. -/
theorem decorate_counterexample : ∃ (S : Setup Unit) (wrapped fallback : Fn Unit Unit Nat), (∀ o x, ¬ Finds S o x) ∧ (∀ args kwargs w, wrapped args kwargs w = (.error .translationFailed, w + 1)) ∧
    ∀ args kwargs w, decorate S (some fallback) wrapped args kwargs w = (.ok (), w + 2) := by
  refine ⟨⟨fun _ => false, fun _ => none, false, []⟩, fun _ _ w => (.error .translationFailed, w + 1), fun _ _ w => (.ok (), w + 1), ?_, fun _ _ _ => rfl, ?_⟩
  · intro o x hx
    induction hx with
    | here e => cases e
    | inside _ _ _ _ ih => exact ih
  · intro args kwargs w
    have hno : ∀ o x, ¬ Finds (⟨fun _ => false, fun _ => none, false, []⟩ : Setup Unit) o x := by
      intro o x hx
      induction hx with
      | here e => cases e
      | inside _ _ _ _ ih => exact ih
    have h1 := (translateAll_ok _ args args).2 (List.forall₂_same.2 fun o _ => translate_same _ o (hno o))
    have h2 := (translateKwargs_ok _ kwargs kwargs).2 (List.forall₂_same.2 fun o _ => ⟨rfl, translate_same _ o.2 (hno o.2)⟩)
    rw [decorate, h1, h2]
    rfl

/-- Numbers are old if negative; a list with a nested list is translated, a set is left alone. -/
example : translateIfNeeded (⟨fun o => match o with | .atom a => decide (a < 0) | _ => false, fun o => match o with | .atom a => some (.atom (-a)) | o => some o, false, ["list"]⟩ : Setup Int)
    (.seq "list" [.atom 1, .atom (-2), .seq "list" [.atom (-3)], .seq "set" [.atom (-4)]]) =
    some (.seq "list" [.atom 1, .atom 2, .seq "list" [.atom 3], .seq "set" [.atom (-4)]]) := by
  simp [translateIfNeeded, translateAll, translateOld]

end ZQ.Compat
