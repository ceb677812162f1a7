import Verif.Props.NormalOrder

/-! Properties of terms that normal ordering keeps: those that do not depend on the order of the factors and survive the removal of a pair
`a†_p a_p`. -/

namespace ZQ.Op

open ZQ ZQ.PyDict

/-- `P` does not depend on the order of the factors and survives the removal of a pair. -/
def Closed (P : Term Bool → Prop) : Prop :=
  (∀ t u : Term Bool, t.Perm u → P t → P u) ∧ ∀ (p : ℕ) (u : Term Bool), P ((p, true) :: (p, false) :: u) → P u

/-- Every term satisfies `P`, and no term is repeated. -/
def TermsIn (P : Term Bool → Prop) (o : Terms Bool) : Prop := WF o ∧ ∀ t ∈ keys o, P t

theorem TermsIn.nil (P : Term Bool → Prop) : TermsIn P [] := ⟨wf_nil, fun t ht => by simp [keys] at ht⟩

theorem TermsIn.add {P : Term Bool → Prop} {a b : Terms Bool} (ha : TermsIn P a) (hb : TermsIn P b) : TermsIn P (add a b) :=
  ⟨(add_spec ha.1 hb.1).1, fun t ht => (mem_keys_add ha.1 hb.1 ht).elim (ha.2 t) (hb.2 t)⟩

theorem TermsIn.single {P : Term Bool → Prop} {t : Term Bool} (h : P t) (c : ℂ) : TermsIn P [(t, c)] :=
  ⟨wf_single t c, fun u hu => by rw [keys, List.map_singleton, List.mem_singleton] at hu; rw [hu]; exact h⟩

theorem noInner_closed {P : Term Bool → Prop} (hP : Closed P) (rec : Term Bool → ℂ → Terms Bool) (hrec : ∀ u c, P u → TermsIn P (rec u c)) :
    ∀ (rpre : Term Bool) (x : ℕ × Bool) (post : Term Bool) (c : ℂ) (acc : Terms Bool), P (rpre.reverse ++ x :: post) → TermsIn P acc →
      match noInner rec rpre x post c acc with
      | .error r => TermsIn P r
      | .ok (t', _, acc') => P t' ∧ TermsIn P acc' := by
  intro rpre
  induction rpre with
  | nil =>
    intro x post c acc hx hacc
    rw [noInner]
    exact ⟨hx, hacc⟩
  | cons l rpre ih =>
    intro x post c acc hx hacc
    have hx' : P (rpre.reverse ++ l :: x :: post) := by
      rw [List.reverse_cons, List.append_assoc] at hx; exact hx
    have hs : P (rpre.reverse ++ x :: l :: post) := hP.1 _ _ (List.Perm.append_left _ (List.Perm.swap ..)) hx'
    rw [noInner]
    by_cases h1 : x.2 = true ∧ l.2 = false
    · rw [if_pos h1]
      refine ih x (l :: post) _ _ hs ?_
      split
      · rename_i h
        refine hacc.add (hrec _ _ ?_)
        obtain ⟨a, ab⟩ := x
        obtain ⟨b, bb⟩ := l
        dsimp only at h1 h
        obtain ⟨rfl, rfl⟩ := h1
        subst h
        refine hP.2 a _ (hP.1 _ _ ?_ hs)
        refine List.perm_middle.trans (List.Perm.cons _ ?_)
        exact List.perm_middle
      · exact hacc
    · rw [if_neg h1]
      by_cases h2 : x.2 = l.2
      · rw [if_pos h2]
        by_cases h3 : x.1 = l.1
        · rw [if_pos h3]; exact hacc
        · rw [if_neg h3]
          by_cases h4 : l.1 < x.1
          · rw [if_pos h4]; exact ih x (l :: post) _ _ hs hacc
          · rw [if_neg h4]; exact ih l (x :: post) _ _ hx' hacc
      · rw [if_neg h2]; exact ih l (x :: post) _ _ hx' hacc

theorem noOuter_closed {P : Term Bool → Prop} (hP : Closed P) (rec : Term Bool → ℂ → Terms Bool) (hrec : ∀ u c, P u → TermsIn P (rec u c)) :
    ∀ (is : List ℕ) (t : Term Bool) (c : ℂ) (acc : Terms Bool), P t → TermsIn P acc → TermsIn P (noOuter rec is t c acc) := by
  intro is
  induction is with
  | nil => intro t c acc ht hacc; exact hacc.add (TermsIn.single ht c)
  | cons i is ih =>
    intro t c acc ht hacc
    rw [noOuter]
    cases hd : t.drop i with
    | nil => exact hacc
    | cons x post =>
      have h := noInner_closed hP rec hrec (t.take i).reverse x post c acc (by rw [List.reverse_reverse, ← hd, List.take_append_drop]; exact ht) hacc
      cases hi : noInner rec (t.take i).reverse x post c acc with
      | error r => rw [hi] at h; dsimp only; rw [hi]; exact h
      | ok p =>
        obtain ⟨t', c', acc'⟩ := p
        rw [hi] at h
        dsimp only
        rw [hi]
        exact ih t' c' acc' h.1 h.2

theorem noTerm_closed {P : Term Bool → Prop} (hP : Closed P) (n : ℕ) : ∀ (t : Term Bool) (c : ℂ), P t → TermsIn P (noTerm n t c) := by
  induction n with
  | zero => intro t c ht; exact (TermsIn.nil P).add (TermsIn.single ht c)
  | succ n ih => intro t c ht; exact noOuter_closed hP _ ih _ _ _ _ ht (TermsIn.nil P)

/-- Normal ordering keeps closed properties of terms. -/
theorem normalOrdered_closed {P : Term Bool → Prop} (hP : Closed P) (o : Terms Bool) (h : ∀ kv ∈ o, P kv.1) : ∀ t ∈ keys (normalOrdered o), P t :=
  foldl_add_keys P o (fun kv => normalOrderedTerm kv.1 kv.2) [] wf_nil (fun t ht => by simp [keys] at ht)
    fun kv hkv => noTerm_closed hP _ _ _ (h kv hkv)

end ZQ.Op
