import Mathlib.Data.List.Forall2

/-! `mapM` in the exception and option monads. -/

namespace ZQ

variable {ε α β : Type}

theorem mapM_ok_iff (f : α → Except ε β) (l : List α) (out : List β) :
    l.mapM f = .ok out ↔ List.Forall₂ (fun a b => f a = .ok b) l out := by
  induction l generalizing out with
  | nil =>
    constructor
    · intro h; cases h; exact .nil
    · intro h; cases h; rfl
  | cons a l ih =>
    rw [List.mapM_cons]
    cases hfa : f a with
    | error e =>
      constructor
      · intro h; cases h
      · intro h; cases h with | cons h1 _ => rw [hfa] at h1; cases h1
    | ok b =>
      cases hl : l.mapM f with
      | error e =>
        constructor
        · intro h; cases h
        · intro h
          cases h with
          | cons h1 h2 => have := (ih _).2 h2; rw [hl] at this; cases this
      | ok bs =>
        constructor
        · intro h; cases h; exact .cons hfa ((ih bs).1 hl)
        · intro h
          cases h with
          | cons h1 h2 =>
            have := (ih _).2 h2
            rw [hl] at this
            rw [hfa] at h1
            cases h1; cases this; rfl

theorem forall₂_append_split {R : α → β → Prop} (l₁ l₂ : List α) (out : List β) (h : List.Forall₂ R (l₁ ++ l₂) out) :
    ∃ o₁ o₂, List.Forall₂ R l₁ o₁ ∧ List.Forall₂ R l₂ o₂ ∧ out = o₁ ++ o₂ := by
  induction l₁ generalizing out with
  | nil => exact ⟨[], out, .nil, h, rfl⟩
  | cons a l ih =>
    cases h with
    | cons h1 h2 =>
      obtain ⟨o₁, o₂, e1, e2, rfl⟩ := ih _ h2
      exact ⟨_ :: o₁, o₂, .cons h1 e1, e2, rfl⟩

theorem mapM_some_iff (f : α → Option β) (l : List α) (out : List β) :
    l.mapM f = some out ↔ List.Forall₂ (fun a b => f a = some b) l out := by
  induction l generalizing out with
  | nil =>
    constructor
    · intro h; cases h; exact .nil
    · intro h; cases h; rfl
  | cons a l ih =>
    rw [List.mapM_cons]
    cases hfa : f a with
    | none =>
      constructor
      · intro h; cases h
      · intro h; cases h with | cons h1 _ => rw [hfa] at h1; cases h1
    | some b =>
      cases hl : l.mapM f with
      | none =>
        constructor
        · intro h; cases h
        · intro h
          cases h with
          | cons h1 h2 => have := (ih _).2 h2; rw [hl] at this; cases this
      | some bs =>
        constructor
        · intro h; cases h; exact .cons hfa ((ih bs).1 hl)
        · intro h
          cases h with
          | cons h1 h2 =>
            have := (ih _).2 h2
            rw [hl] at this
            rw [hfa] at h1
            cases h1; cases this; rfl

theorem mapM_some_of (f : α → Option β) (g : α → β) (l : List α) (h : ∀ a ∈ l, f a = some (g a)) :
    l.mapM f = some (l.map g) := by
  rw [mapM_some_iff]
  induction l with
  | nil => exact .nil
  | cons a l ih => exact .cons (h a (by simp)) (ih fun x hx => h x (by simp [hx]))

theorem mapM_none_of_mem (f : α → Option β) (l : List α) (a : α) (ha : a ∈ l) (h : f a = none) : l.mapM f = none := by
  cases hl : l.mapM f with
  | none => rfl
  | some out =>
    rw [mapM_some_iff] at hl
    exfalso
    induction hl with
    | nil => cases ha
    | cons h1 _ ih =>
      rcases List.mem_cons.1 ha with rfl | h2
      · rw [h] at h1; cases h1
      · exact ih h2

end ZQ
