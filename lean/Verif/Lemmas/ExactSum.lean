import Verif.Lemmas.Fermion

/-! Exact sums of operators (no term is ever dropped), used to state error bounds. -/

namespace ZQ.Op

open PyDict

variable {A : Type} [DecidableEq A]

/-- Coefficient-wise sum without dropping. -/
noncomputable def exactAdd (a b : Terms A) : Terms A := b.foldl (fun acc kv => accum acc kv.1 kv.2) a

theorem exactAdd_spec {a b : Terms A} (ha : WF a) (hb : WF b) :
    WF (exactAdd a b) ∧ (∀ ev : ℕ × A → Module.End ℂ State, action ev (exactAdd a b) = action ev a + action ev b) ∧
    (∀ t, coeff (exactAdd a b) t = coeff a t + coeff b t) ∧ ∀ t, t ∈ keys (exactAdd a b) ↔ t ∈ keys a ∨ t ∈ keys b := by
  induction b generalizing a with
  | nil =>
    exact ⟨ha, fun ev => by rw [action_nil, add_zero]; rfl,
      fun t => by rw [coeff_of_not_mem (o := []) (by simp [keys]), add_zero]; rfl, fun t => by simp [exactAdd, keys]⟩
  | cons p b ih =>
    obtain ⟨u, c⟩ := p
    have hn := List.nodup_cons.1 (show (u :: keys b).Nodup from hb)
    obtain ⟨i1, i2, i3, i4⟩ := ih (wf_accum ha u c) hn.2
    refine ⟨i1, fun ev => ?_, fun t => ?_, fun t => ?_⟩
    · show action ev (exactAdd (accum a u c) b) = _
      rw [i2, action_accum, action_cons, add_assoc]
    · show coeff (exactAdd (accum a u c) b) t = _
      rw [i3, coeff_accum, coeff_cons]
      by_cases e : u = t
      · subst e; rw [if_pos rfl, if_pos rfl, coeff_of_not_mem hn.1]; ring
      · rw [if_neg e, if_neg e]; ring
    · show t ∈ keys (exactAdd (accum a u c) b) ↔ _
      rw [i4, mem_keys_accum]
      simp only [keys, List.map_cons, List.mem_cons]
      tauto

theorem exactSum_spec {ι : Type} (P : Term A → Prop) (l : List ι) (f : ι → Terms A) (hf : ∀ i ∈ l, WF (f i) ∧ ∀ t ∈ keys (f i), P t) :
    ∃ E : Terms A, WF E ∧ (∀ t ∈ keys E, P t) ∧ (∀ ev : ℕ × A → Module.End ℂ State, action ev E = (l.map fun i => action ev (f i)).sum) ∧
      ∀ t, coeff E t = (l.map fun i => coeff (f i) t).sum := by
  have key : ∀ (l : List ι) (acc : Terms A), WF acc → (∀ t ∈ keys acc, P t) → (∀ i ∈ l, WF (f i) ∧ ∀ t ∈ keys (f i), P t) →
      ∃ E : Terms A, WF E ∧ (∀ t ∈ keys E, P t) ∧
        (∀ ev : ℕ × A → Module.End ℂ State, action ev E = action ev acc + (l.map fun i => action ev (f i)).sum) ∧
        ∀ t, coeff E t = coeff acc t + (l.map fun i => coeff (f i) t).sum := by
    intro l
    induction l with
    | nil => intro acc h1 h2 _; exact ⟨acc, h1, h2, fun ev => by simp, fun t => by simp⟩
    | cons i l ih =>
      intro acc h1 h2 h3
      have hi := h3 i (List.mem_cons_self ..)
      obtain ⟨e1, e2, e3, e4⟩ := exactAdd_spec h1 hi.1
      obtain ⟨E, g1, g2, g3, g4⟩ := ih (exactAdd acc (f i)) e1
        (fun t ht => ((e4 t).1 ht).elim (h2 t) (hi.2 t)) (fun j hj => h3 j (List.mem_cons_of_mem _ hj))
      exact ⟨E, g1, g2, fun ev => by rw [g3, e2, List.map_cons, List.sum_cons, add_assoc],
        fun t => by rw [g4, e3, List.map_cons, List.sum_cons, add_assoc]⟩
  obtain ⟨E, h1, h2, h3, h4⟩ := key l [] wf_nil (fun t ht => by simp [keys] at ht) hf
  exact ⟨E, h1, h2, fun ev => by rw [h3, action_nil, zero_add],
    fun t => by rw [h4, coeff_of_not_mem (o := []) (by simp [keys]), zero_add]⟩

/-- Coefficients of a product, in a subgroup containing all the partial products. -/
theorem coeff_mul_mem (S : OpClass A) (G : AddSubgroup ℂ) (a b : Terms A)
    (h : ∀ l ∈ a, ∀ r ∈ b, (S.simplify (l.1 ++ r.1) (l.2 * r.2)).1 ∈ G) (t : Term A) : coeff (mul S a b) t ∈ G := by
  have row : ∀ (l : Term A × ℂ) (b res : Terms A), (∀ r ∈ b, (S.simplify (l.1 ++ r.1) (l.2 * r.2)).1 ∈ G) → (∀ t, coeff res t ∈ G) →
      ∀ t, coeff (mulRow S l b res) t ∈ G := by
    intro l b
    induction b with
    | nil => intro res _ h t; exact h t
    | cons r b ih =>
      intro res h1 h2
      refine ih _ (fun r' h' => h1 r' (List.mem_cons_of_mem _ h')) (fun t => ?_)
      rw [coeff_accum]
      refine G.add_mem (h2 t) ?_
      split
      · exact h1 r (List.mem_cons_self ..)
      · exact G.zero_mem
  have all : ∀ (a res : Terms A), (∀ l ∈ a, ∀ r ∈ b, (S.simplify (l.1 ++ r.1) (l.2 * r.2)).1 ∈ G) → (∀ t, coeff res t ∈ G) →
      ∀ t, coeff (a.foldl (fun res l => mulRow S l b res) res) t ∈ G := by
    intro a
    induction a with
    | nil => intro res _ h t; exact h t
    | cons l a ih =>
      intro res h1 h2
      exact ih _ (fun l' h' => h1 l' (List.mem_cons_of_mem _ h')) (row l b res (h1 l (List.mem_cons_self ..)) h2)
  exact all a [] h (fun t => by rw [coeff_of_not_mem (by simp [keys])]; exact G.zero_mem) t

theorem qubitSimplify_mem {δ : ℝ} (t : Term Letter) {c : ℂ} (h : c ∈ Grid δ) : (qubitSimplify t c).1 ∈ Grid δ := by
  have loop : ∀ (rest : Term Letter) (left : ℕ × Letter) (acc : Term Letter) (c : ℂ), c ∈ Grid δ → (simplifyLoop left rest c acc).1 ∈ Grid δ := by
    intro rest
    induction rest with
    | nil => intro left acc c h; exact h
    | cons r rest ih =>
      intro left acc c h
      rw [simplifyLoop]
      split
      · apply ih
        have : ∀ a b : Letter, (pauliProduct a b).1 = 1 ∨ (pauliProduct a b).1 = Complex.I ∨ (pauliProduct a b).1 = -Complex.I := by
          intro a b; cases a <;> cases b <;> simp [pauliProduct]
        rcases this left.2 r.2 with e | e | e <;> rw [e]
        · rw [mul_one]; exact h
        · exact Grid.mul_I h
        · rw [mul_neg]; exact (Grid δ).neg_mem (Grid.mul_I h)
      · exact ih _ _ _ h
  rw [qubitSimplify]
  cases sortByIndex t with
  | nil => exact h
  | cons f rest => exact loop rest f [] c h

end ZQ.Op
