import Verif.Model.PyDict
import Mathlib.Data.List.Count
import Mathlib.Algebra.BigOperators.Group.List.Basic
import Mathlib.Algebra.Module.BigOperators
import Mathlib.Algebra.BigOperators.Ring.List
import Mathlib.Data.List.Nodup
import Mathlib.Tactic.Ring
import Mathlib.Tactic.Linarith
import Mathlib.Tactic.Abel

/-! Lemmas about Python dictionaries and counters. -/

namespace ZQ.PyDict

variable {α β : Type} [DecidableEq α]

theorem get?_set (d : PyDict α β) (k k' : α) (v : β) :
    get? (set d k v) k' = if k = k' then some v else get? d k' := by
  induction d with
  | nil => rw [set]; simp only [get?]
  | cons p d ih =>
    obtain ⟨k₀, v₀⟩ := p
    rw [set]
    by_cases h : k₀ = k
    · subst h; rw [if_pos rfl, get?]; by_cases h' : k₀ = k' <;> simp [h', get?]
    · rw [if_neg h, get?, ih, get?]
      by_cases h' : k₀ = k'
      · subst h'; rw [if_pos rfl, if_pos rfl, if_neg (fun e => h e.symm)]
      · rw [if_neg h', if_neg h']

theorem mem_keys_iff (d : PyDict α β) (k : α) : k ∈ keys d ↔ ∃ v, get? d k = some v := by
  induction d with
  | nil => simp [keys, get?]
  | cons p d ih =>
    obtain ⟨k₀, v₀⟩ := p
    rw [get?]
    by_cases h : k₀ = k
    · subst h; simp [keys]
    · rw [if_neg h, ← ih]; simp [keys, Ne.symm h]

theorem get?_eq_none_iff (d : PyDict α β) (k : α) : get? d k = none ↔ k ∉ keys d := by
  rw [mem_keys_iff]; cases get? d k <;> simp

theorem keys_set (d : PyDict α β) (k : α) (v : β) :
    keys (set d k v) = if k ∈ keys d then keys d else keys d ++ [k] := by
  induction d with
  | nil => simp [keys, set]
  | cons p d ih =>
    obtain ⟨k₀, v₀⟩ := p
    rw [set]
    by_cases h : k₀ = k
    · subst h; simp [keys]
    · rw [if_neg h]
      have : keys ((k₀, v₀) :: set d k v) = k₀ :: keys (set d k v) := rfl
      rw [this, ih]
      have e : keys ((k₀, v₀) :: d) = k₀ :: keys d := rfl
      rw [e]
      by_cases hk : k ∈ keys d
      · rw [if_pos hk, if_pos (List.mem_cons_of_mem _ hk)]
      · rw [if_neg hk, if_neg (by simp [Ne.symm h, hk])]; rfl

theorem nodup_set {d : PyDict α β} (hd : (keys d).Nodup) (k : α) (v : β) :
    (keys (set d k v)).Nodup := by
  rw [keys_set]
  split
  · exact hd
  · next h => exact List.Nodup.append hd (List.nodup_singleton k) (by simpa using h)

theorem get?_of_mem {d : PyDict α β} (hd : (keys d).Nodup) {k : α} {v : β} (h : (k, v) ∈ d) :
    get? d k = some v := by
  induction d with
  | nil => simp at h
  | cons p d ih =>
    obtain ⟨k₀, v₀⟩ := p
    have hd' : k₀ ∉ keys d ∧ (keys d).Nodup := by
      have : keys ((k₀, v₀) :: d) = k₀ :: keys d := rfl
      rw [this, List.nodup_cons] at hd; exact hd
    rw [get?]
    rcases List.mem_cons.1 h with h | h
    · injection h with h1 h2; subst h1; subst h2; rw [if_pos rfl]
    · rw [if_neg (fun e : k₀ = k => hd'.1 (e ▸ List.mem_map.2 ⟨_, h, rfl⟩)), ih hd'.2 h]

theorem mem_of_get? {d : PyDict α β} {k : α} {v : β} (h : get? d k = some v) : (k, v) ∈ d := by
  induction d with
  | nil => simp [get?] at h
  | cons p d ih =>
    obtain ⟨k₀, v₀⟩ := p
    rw [get?] at h
    by_cases e : k₀ = k
    · subst e; rw [if_pos rfl] at h; injection h with h; subst h; exact List.mem_cons_self
    · rw [if_neg e] at h; exact List.mem_cons_of_mem _ (ih h)

theorem get?_iff_mem {d : PyDict α β} (hd : (keys d).Nodup) {k : α} {v : β} :
    get? d k = some v ↔ (k, v) ∈ d := ⟨mem_of_get?, get?_of_mem hd⟩

theorem set_of_not_mem {d : PyDict α β} {k : α} (h : k ∉ keys d) (v : β) : set d k v = d ++ [(k, v)] := by
  induction d with
  | nil => rfl
  | cons p d ih =>
    obtain ⟨k₀, v₀⟩ := p
    have : k₀ ≠ k ∧ k ∉ keys d := by
      have e : keys ((k₀, v₀) :: d) = k₀ :: keys d := rfl
      rw [e, List.mem_cons, not_or] at h; exact ⟨Ne.symm h.1, h.2⟩
    rw [set, if_neg this.1, ih this.2]; rfl

theorem ofItems_eq_self {l : List (α × β)} (h : (l.map Prod.fst).Nodup) : ofItems l = l := by
  have key : ∀ (l acc : List (α × β)), ((acc ++ l).map Prod.fst).Nodup →
      l.foldl (fun d kv => set d kv.1 kv.2) acc = acc ++ l := by
    intro l
    induction l with
    | nil => intro acc _; simp
    | cons p l ih =>
      intro acc h
      have hp : p.1 ∉ keys acc := by
        intro hm
        rw [List.map_append, List.nodup_append] at h
        exact h.2.2 _ hm _ (by simp) rfl
      rw [List.foldl_cons, set_of_not_mem hp, ih]
      · simp
      · simpa using h
  simpa [ofItems] using key l [] (by simpa using h)

/-! ### Counters -/

theorem get?_incr (d : PyDict α ℕ) (x y : α) :
    get? (incr d x) y = if x = y then some ((get? d x).getD 0 + 1) else get? d y := get?_set _ _ _ _

theorem get?_foldl_incr (l : List α) (d : PyDict α ℕ) (y : α) :
    get? (l.foldl incr d) y =
      if y ∈ l then some ((get? d y).getD 0 + l.count y) else get? d y := by
  induction l generalizing d with
  | nil => simp
  | cons x l ih =>
    rw [List.foldl_cons, ih, get?_incr]
    by_cases hxy : x = y
    · subst hxy
      by_cases hl : x ∈ l
      · simp [hl]; ring
      · simp [hl, List.count_eq_zero_of_not_mem hl]
    · have : y ≠ x := fun e => hxy e.symm
      by_cases hl : y ∈ l
      · simp [hl, hxy]
      · simp [hl, hxy, this]

theorem get?_counter (l : List α) (y : α) :
    get? (counter l) y = if y ∈ l then some (l.count y) else none := by
  rw [counter, get?_foldl_incr]; simp [get?]

theorem getD_counter (l : List α) (y : α) : (get? (counter l) y).getD 0 = l.count y := by
  rw [get?_counter]
  split
  · rfl
  · next h => rw [List.count_eq_zero_of_not_mem h]; rfl

theorem keys_foldl_incr_nodup (l : List α) (d : PyDict α ℕ) (hd : (keys d).Nodup) :
    (keys (l.foldl incr d)).Nodup := by
  induction l generalizing d with
  | nil => exact hd
  | cons x l ih => exact ih _ (nodup_set hd _ _)

theorem counter_nodup (l : List α) : (keys (counter l)).Nodup :=
  keys_foldl_incr_nodup l [] List.nodup_nil

theorem mem_keys_counter (l : List α) (x : α) : x ∈ keys (counter l) ↔ x ∈ l := by
  rw [mem_keys_iff, get?_counter]
  split <;> simp_all

/-- Weighted sum over a dictionary after one increment. -/
theorem sum_incr {M : Type} [AddCommMonoid M] (f : α → M) (d : PyDict α ℕ) (x : α) :
    ((incr d x).map fun kv => kv.2 • f kv.1).sum = (d.map fun kv => kv.2 • f kv.1).sum + f x := by
  have key : ∀ (d : PyDict α ℕ) (n : ℕ), n = (get? d x).getD 0 →
      ((set d x (n + 1)).map fun kv => kv.2 • f kv.1).sum
        = (d.map fun kv => kv.2 • f kv.1).sum + f x := by
    intro d n hn
    induction d with
    | nil => subst hn; simp [set, get?]
    | cons p d ih =>
      obtain ⟨k₀, v₀⟩ := p
      rw [get?] at hn
      rw [set]
      by_cases h : k₀ = x
      · subst h
        rw [if_pos rfl] at hn ⊢
        simp only [Option.getD_some] at hn
        subst hn
        simp only [List.map_cons, List.sum_cons, succ_nsmul]
        abel
      · rw [if_neg h] at hn ⊢
        simp only [List.map_cons, List.sum_cons, ih hn]
        abel
  exact key d _ rfl

/-- A sum over samples is the sum over the histogram weighted by the counts. -/
theorem sum_counter {M : Type} [AddCommMonoid M] (f : α → M) (l : List α) :
    ((counter l).map fun kv => kv.2 • f kv.1).sum = (l.map f).sum := by
  have key : ∀ (l : List α) (d : PyDict α ℕ),
      ((l.foldl incr d).map fun kv => kv.2 • f kv.1).sum
        = (d.map fun kv => kv.2 • f kv.1).sum + (l.map f).sum := by
    intro l
    induction l with
    | nil => intro d; simp
    | cons x l ih => intro d; rw [List.foldl_cons, ih, sum_incr]; simp [add_assoc]
  simpa [counter] using key l []

theorem sum_counter_values (l : List α) : ((values (counter l))).sum = l.length := by
  have := sum_counter (fun _ : α => (1 : ℕ)) l
  simpa [values] using this

/-- Counting a list of blocks gives the block sizes, in order. -/
theorem counter_blocks (c : List (α × ℕ)) (hn : (c.map Prod.fst).Nodup) (hp : ∀ kv ∈ c, 0 < kv.2) :
    counter (c.flatMap fun kv => List.replicate kv.2 kv.1) = c := by
  have block : ∀ (n : ℕ) (k : α) (d : PyDict α ℕ) (m : ℕ), k ∉ keys d →
      (List.replicate n k).foldl incr (d ++ [(k, m)]) = d ++ [(k, m + n)] := by
    intro n k d
    induction n with
    | zero => intro m _; rfl
    | succ n ih =>
      intro m hk
      rw [List.replicate_succ, List.foldl_cons]
      have : incr (d ++ [(k, m)]) k = d ++ [(k, m + 1)] := by
        rw [incr]
        clear ih
        induction d with
        | nil => simp [get?, set]
        | cons p d ih =>
          obtain ⟨k₀, v₀⟩ := p
          have e : keys ((k₀, v₀) :: d) = k₀ :: keys d := rfl
          rw [e, List.mem_cons, not_or] at hk
          have h0 : k₀ ≠ k := Ne.symm hk.1
          rw [List.cons_append, get?, if_neg h0, set, if_neg h0, ih hk.2]; rfl
      rw [this, ih _ hk]
      congr 3; omega
  have key : ∀ (c : List (α × ℕ)) (d : PyDict α ℕ), ((d ++ c).map Prod.fst).Nodup →
      (∀ kv ∈ c, 0 < kv.2) →
      (c.flatMap fun kv => List.replicate kv.2 kv.1).foldl incr d = d ++ c := by
    intro c
    induction c with
    | nil => intro d _ _; simp
    | cons p c ih =>
      obtain ⟨k, n⟩ := p
      intro d hd hpos
      have hk : k ∉ keys d := by
        intro hm
        rw [List.map_append, List.nodup_append] at hd
        exact hd.2.2 _ hm _ (by simp) rfl
      have hn0 : 0 < n := hpos (k, n) (by simp)
      obtain ⟨n, rfl⟩ : ∃ m, n = m + 1 := ⟨n - 1, by omega⟩
      rw [List.flatMap_cons, List.foldl_append]
      have h1 : (List.replicate (n + 1) k).foldl incr d = d ++ [(k, n + 1)] := by
        rw [List.replicate_succ, List.foldl_cons]
        have : incr d k = d ++ [(k, 1)] := by
          rw [incr, (get?_eq_none_iff d k).2 hk, set_of_not_mem hk]; rfl
        rw [this, block n k d 1 hk, Nat.add_comm]
      rw [h1, ih]
      · simp
      · simpa using hd
      · exact fun kv h => hpos kv (List.mem_cons_of_mem _ h)
  simpa [counter] using key c [] (by simpa using hn) hp

end ZQ.PyDict
