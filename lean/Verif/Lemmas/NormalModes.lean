import Verif.Props.NormalOrder

/-! Normal ordering introduces no new factors. -/

namespace ZQ.Op

open ZQ ZQ.PyDict

/-- Every factor of every term satisfies `Q`, and no term is repeated. -/
def FactorsIn (Q : ℕ × Bool → Prop) (o : Terms Bool) : Prop := WF o ∧ ∀ t ∈ keys o, ∀ f ∈ t, Q f

theorem FactorsIn.nil (Q : ℕ × Bool → Prop) : FactorsIn Q [] := ⟨wf_nil, fun t ht => by simp [keys] at ht⟩

theorem FactorsIn.add {Q : ℕ × Bool → Prop} {a b : Terms Bool} (ha : FactorsIn Q a) (hb : FactorsIn Q b) : FactorsIn Q (add a b) :=
  ⟨(add_spec ha.1 hb.1).1, fun t ht => (mem_keys_add ha.1 hb.1 ht).elim (ha.2 t) (hb.2 t)⟩

theorem FactorsIn.single {Q : ℕ × Bool → Prop} {t : Term Bool} (h : ∀ f ∈ t, Q f) (c : ℂ) : FactorsIn Q [(t, c)] :=
  ⟨wf_single t c, fun u hu => by rw [keys, List.map_singleton, List.mem_singleton] at hu; rw [hu]; exact h⟩

theorem noInner_factors {Q : ℕ × Bool → Prop} (rec : Term Bool → ℂ → Terms Bool) (hrec : ∀ u c, (∀ f ∈ u, Q f) → FactorsIn Q (rec u c)) :
    ∀ (rpre : Term Bool) (x : ℕ × Bool) (post : Term Bool) (c : ℂ) (acc : Terms Bool), (∀ f ∈ rpre, Q f) → Q x → (∀ f ∈ post, Q f) → FactorsIn Q acc →
      match noInner rec rpre x post c acc with
      | .error r => FactorsIn Q r
      | .ok (t', _, acc') => (∀ f ∈ t', Q f) ∧ FactorsIn Q acc' := by
  intro rpre
  induction rpre with
  | nil =>
    intro x post c acc _ hx hpost hacc
    rw [noInner]
    exact ⟨List.forall_mem_cons.2 ⟨hx, hpost⟩, hacc⟩
  | cons l rpre ih =>
    intro x post c acc hpre hx hpost hacc
    have hl := hpre l (List.mem_cons_self ..)
    have hpre' : ∀ f ∈ rpre, Q f := fun f hf => hpre f (List.mem_cons_of_mem _ hf)
    have c1 : ∀ f ∈ l :: post, Q f := List.forall_mem_cons.2 ⟨hl, hpost⟩
    have c2 : ∀ f ∈ x :: post, Q f := List.forall_mem_cons.2 ⟨hx, hpost⟩
    rw [noInner]
    by_cases h1 : x.2 = true ∧ l.2 = false
    · rw [if_pos h1]
      refine ih x (l :: post) _ _ hpre' hx c1 ?_
      split
      · refine hacc.add (hrec _ _ fun f hf => ?_)
        rcases List.mem_append.1 hf with hf | hf
        · exact hpre' f (List.mem_reverse.1 hf)
        · exact hpost f hf
      · exact hacc
    · rw [if_neg h1]
      by_cases h2 : x.2 = l.2
      · rw [if_pos h2]
        by_cases h3 : x.1 = l.1
        · rw [if_pos h3]; exact hacc
        · rw [if_neg h3]
          by_cases h4 : l.1 < x.1
          · rw [if_pos h4]; exact ih x (l :: post) _ _ hpre' hx c1 hacc
          · rw [if_neg h4]; exact ih l (x :: post) _ _ hpre' hl c2 hacc
      · rw [if_neg h2]; exact ih l (x :: post) _ _ hpre' hl c2 hacc

theorem noOuter_factors {Q : ℕ × Bool → Prop} (rec : Term Bool → ℂ → Terms Bool) (hrec : ∀ u c, (∀ f ∈ u, Q f) → FactorsIn Q (rec u c)) :
    ∀ (is : List ℕ) (t : Term Bool) (c : ℂ) (acc : Terms Bool), (∀ f ∈ t, Q f) → FactorsIn Q acc → FactorsIn Q (noOuter rec is t c acc) := by
  intro is
  induction is with
  | nil => intro t c acc ht hacc; exact hacc.add (FactorsIn.single ht c)
  | cons i is ih =>
    intro t c acc ht hacc
    rw [noOuter]
    cases hd : t.drop i with
    | nil => exact hacc
    | cons x post =>
      have hsub : ∀ f ∈ x :: post, Q f := fun f hf => ht f (List.mem_of_mem_drop (hd ▸ hf))
      have h := noInner_factors rec hrec (t.take i).reverse x post c acc (fun f hf => ht f (List.mem_of_mem_take (List.mem_reverse.1 hf)))
        (hsub x (List.mem_cons_self ..)) (fun f hf => hsub f (List.mem_cons_of_mem _ hf)) hacc
      cases hi : noInner rec (t.take i).reverse x post c acc with
      | error r => rw [hi] at h; dsimp only; rw [hi]; exact h
      | ok p =>
        obtain ⟨t', c', acc'⟩ := p
        rw [hi] at h
        dsimp only
        rw [hi]
        exact ih t' c' acc' h.1 h.2

theorem noTerm_factors {Q : ℕ × Bool → Prop} (n : ℕ) : ∀ (t : Term Bool) (c : ℂ), (∀ f ∈ t, Q f) → FactorsIn Q (noTerm n t c) := by
  induction n with
  | zero => intro t c ht; exact (FactorsIn.nil Q).add (FactorsIn.single ht c)
  | succ n ih => intro t c ht; exact noOuter_factors _ ih _ _ _ _ ht (FactorsIn.nil Q)

/-- Every factor of the normal ordered operator is a factor of the operator. -/
theorem normalOrdered_factors {Q : ℕ × Bool → Prop} (o : Terms Bool) (h : ∀ kv ∈ o, ∀ f ∈ kv.1, Q f) : ∀ t ∈ keys (normalOrdered o), ∀ f ∈ t, Q f :=
  foldl_add_keys (fun t => ∀ f ∈ t, Q f) o (fun kv => normalOrderedTerm kv.1 kv.2) [] wf_nil (fun t ht => by simp [keys] at ht)
    fun kv hkv => noTerm_factors _ _ _ (h kv hkv)

end ZQ.Op
