import Verif.Lemmas.GateMatrix
import Mathlib.Data.List.Perm.Lattice

/-! Helpers: substitution in expressions. -/

namespace ZQ

namespace Expr

theorem eval_congr (e : Expr) {ρ σ : String → ℂ} (h : ∀ s ∈ e.free, ρ s = σ s) : e.eval ρ = e.eval σ := by
  induction e with
  | num c => rfl
  | sym s => exact h s (by simp [free])
  | un f a ih => simp only [eval]; rw [ih h]
  | bin f a b iha ihb =>
    simp only [eval]
    rw [iha (fun s hs => h s (by simp [free, hs])), ihb (fun s hs => h s (by simp [free, hs]))]

theorem eval_subst1 (s : String) (v e : Expr) (ρ : String → ℂ) :
    (subst1 s v e).eval ρ = e.eval (Function.update ρ s (v.eval ρ)) := by
  induction e with
  | num c => rfl
  | sym t =>
    simp only [subst1, eval]
    by_cases h : t = s
    · subst h; simp
    · rw [if_neg h, Function.update_of_ne h]; rfl
  | un f a ih => simp only [subst1, eval, ih]
  | bin f a b iha ihb => simp only [subst1, eval, iha, ihb]

theorem mem_free_subst1 (s : String) (v e : Expr) (t : String) (h : t ∈ (subst1 s v e).free) :
    (t ∈ e.free ∧ t ≠ s) ∨ t ∈ v.free := by
  induction e with
  | num c => simp [subst1, free] at h
  | sym u =>
    simp only [subst1] at h
    by_cases hu : u = s
    · rw [if_pos hu] at h; exact Or.inr h
    · rw [if_neg hu] at h
      simp only [free, List.mem_singleton] at h
      subst h
      exact Or.inl ⟨by simp [free], hu⟩
  | un f a ih => exact ih h
  | bin f a b iha ihb =>
    simp only [subst1, free, List.mem_append] at h
    rcases h with h | h
    · rcases iha h with ⟨h1, h2⟩ | h1
      · exact Or.inl ⟨by simp [free, h1], h2⟩
      · exact Or.inr h1
    · rcases ihb h with ⟨h1, h2⟩ | h1
      · exact Or.inl ⟨by simp [free, h1], h2⟩
      · exact Or.inr h1

/-- Sequential substitution of a list whose values mention at most their own key. -/
theorem eval_foldl_subst (l : SymMap) (hnd : (l.map Prod.fst).Nodup)
    (hc : ∀ kv ∈ l, ∀ s ∈ kv.2.free, s ∈ l.map Prod.fst → s = kv.1) (e : Expr) (ρ : String → ℂ) :
    (l.foldl (fun e kv => subst1 kv.1 kv.2 e) e).eval ρ = e.eval (updateEnv ρ l) := by
  induction l generalizing e with
  | nil => rfl
  | cons kv l ih =>
    obtain ⟨k, v⟩ := kv
    simp only [List.map_cons, List.nodup_cons] at hnd
    rw [List.foldl_cons, ih hnd.2 (fun kv hkv s hs hmem => hc kv (by simp [hkv]) s hs (by simp [hmem])), eval_subst1]
    congr 1
    have hv : v.eval (updateEnv ρ l) = v.eval ρ := by
      apply eval_congr
      intro s hs
      unfold updateEnv
      have hnk : s ∉ l.map Prod.fst := by
        intro hmem
        have := hc (k, v) (by simp) s hs (by simp only [List.map_cons, List.mem_cons]; exact Or.inr hmem)
        simp only at this
        subst this
        exact hnd.1 hmem
      have : l.lookup s = none := by
        rw [List.lookup_eq_none_iff]
        intro p hp
        have : s ≠ p.1 := fun he => hnk (List.mem_map.2 ⟨p, hp, he.symm⟩)
        simpa using this
      rw [this]
    rw [hv]
    funext t
    by_cases ht : t = k
    · subst ht
      simp [updateEnv, List.lookup]
    · rw [Function.update_of_ne ht]
      unfold updateEnv
      rw [List.lookup_cons]
      have : (t == k) = false := by simp [ht]
      rw [this]

theorem lookup_perm {l l' : SymMap} (hp : l.Perm l') (hnd : (l.map Prod.fst).Nodup) (s : String) :
    l.lookup s = l'.lookup s := by
  induction hp with
  | nil => rfl
  | cons x _ ih =>
    simp only [List.map_cons, List.nodup_cons] at hnd
    obtain ⟨k, v⟩ := x
    rw [List.lookup_cons, List.lookup_cons, ih hnd.2]
  | swap x y l =>
    obtain ⟨k, v⟩ := x
    obtain ⟨k', v'⟩ := y
    simp only [List.map_cons, List.nodup_cons, List.mem_cons, not_or] at hnd
    simp only [List.lookup_cons]
    by_cases h1 : s = k
    · subst h1
      have : (s == k') = false := by simpa using Ne.symm hnd.1.1
      simp [this]
    · have h1' : (s == k) = false := by simpa using h1
      rw [h1']
  | trans h1 _ ih1 ih2 =>
    rw [ih1 hnd, ih2 ((h1.map _).nodup_iff.1 hnd)]

theorem eval_subs (m : SymMap) (hnd : (m.map Prod.fst).Nodup)
    (hc : ∀ kv ∈ m, ∀ s ∈ kv.2.free, s ∈ m.map Prod.fst → s = kv.1) (e : Expr) (ρ : String → ℂ) :
    (subs m e).eval ρ = e.eval (updateEnv ρ m) := by
  unfold subs
  have hp := List.mergeSort_perm m (fun a b => decide (a.1 ≤ b.1))
  rw [eval_foldl_subst]
  · congr 1
    funext s
    unfold updateEnv
    rw [lookup_perm hp.symm hnd]
  · exact ((hp.map _).nodup_iff).2 hnd
  · intro kv hkv s hs hmem
    exact hc kv (hp.mem_iff.1 hkv) s hs ((hp.map Prod.fst).mem_iff.1 hmem)

theorem mem_free_foldl (l : SymMap) (e : Expr) (t : String)
    (h : t ∈ (l.foldl (fun e kv => subst1 kv.1 kv.2 e) e).free) :
    (t ∈ e.free ∧ t ∉ l.map Prod.fst) ∨ ∃ kv ∈ l, t ∈ kv.2.free := by
  induction l generalizing e with
  | nil => exact Or.inl ⟨h, by simp⟩
  | cons kv l ih =>
    rw [List.foldl_cons] at h
    rcases ih _ h with ⟨h1, h2⟩ | ⟨p, hp, hpt⟩
    · rcases mem_free_subst1 _ _ _ _ h1 with ⟨h3, h4⟩ | h3
      · exact Or.inl ⟨h3, by simp only [List.map_cons, List.mem_cons, not_or]; exact ⟨h4, h2⟩⟩
      · exact Or.inr ⟨kv, by simp, h3⟩
    · exact Or.inr ⟨p, by simp [hp], hpt⟩

theorem mem_free_subs (m : SymMap) (e : Expr) (t : String) (h : t ∈ (subs m e).free) :
    (t ∈ e.free ∧ t ∉ m.map Prod.fst) ∨ ∃ kv ∈ m, t ∈ kv.2.free := by
  have hp := List.mergeSort_perm m (fun a b => decide (a.1 ≤ b.1))
  rcases mem_free_foldl _ _ _ h with ⟨h1, h2⟩ | ⟨p, hp', hpt⟩
  · exact Or.inl ⟨h1, fun hm => h2 ((hp.map Prod.fst).mem_iff.2 hm)⟩
  · exact Or.inr ⟨p, hp.mem_iff.1 hp', hpt⟩

theorem lookup_mem {m : SymMap} {s : String} {v : Expr} (h : m.lookup s = some v) : (s, v) ∈ m := by
  obtain ⟨l₁, l₂, h1, _⟩ := List.lookup_eq_some_iff.1 h
  rw [h1]; simp

theorem lookup_none {m : SymMap} {s : String} (h : m.lookup s = none) : s ∉ m.map Prod.fst := by
  rw [List.lookup_eq_none_iff] at h
  intro hmem
  obtain ⟨p, hp, rfl⟩ := List.mem_map.1 hmem
  have := h p hp
  simp at this

theorem eval_subSymbols (m : SymMap) (hnd : (m.map Prod.fst).Nodup)
    (hc : ∀ kv ∈ m, ∀ s ∈ kv.2.free, s ∈ m.map Prod.fst → s = kv.1) (e : Expr) (ρ : String → ℂ) :
    (subSymbols m e).eval ρ = e.eval (updateEnv ρ m) := by
  cases e with
  | num c => rfl
  | sym s =>
    simp only [subSymbols, getD, eval, updateEnv]
    cases m.lookup s <;> rfl
  | un f a => exact eval_subs m hnd hc _ ρ
  | bin f a b => exact eval_subs m hnd hc _ ρ

theorem mem_free_subSymbols (m : SymMap) (e : Expr) (t : String) (h : t ∈ (subSymbols m e).free) :
    (t ∈ e.free ∧ t ∉ m.map Prod.fst) ∨ ∃ kv ∈ m, t ∈ kv.2.free := by
  cases e with
  | num c => simp [subSymbols, free] at h
  | sym s =>
    simp only [subSymbols, getD] at h
    cases hl : m.lookup s with
    | none =>
      rw [hl] at h
      simp only [Option.getD_none, free, List.mem_singleton] at h
      subst h
      exact Or.inl ⟨by simp [free], lookup_none hl⟩
    | some v =>
      rw [hl] at h
      exact Or.inr ⟨(s, v), lookup_mem hl, h⟩
  | un f a => exact mem_free_subs m _ t h
  | bin f a b => exact mem_free_subs m _ t h

theorem mem_getFreeSymbols (ps : List Expr) (s : String) : s ∈ getFreeSymbols ps ↔ ∃ p ∈ ps, s ∈ p.free := by
  unfold getFreeSymbols
  rw [(List.mergeSort_perm _ _).mem_iff, List.mem_dedup, List.mem_flatMap]

end Expr

end ZQ
